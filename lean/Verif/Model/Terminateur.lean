import Verif.Model.Elastic
import Verif.Model.Infinint
/- Model of src/libdar/terminateur.cpp. -/
namespace Dar

/-- src/libdar/terminateur.cpp:26 -/
def termBlock : Nat := 4

/-- src/libdar/terminateur.cpp:57-61, the loop building the byte closing the terminator string. -/
def termLastByte : Nat → UInt8
  | 0 => 0
  | n + 1 => (termLastByte n >>> 1) ||| 0x80

/-- src/libdar/terminateur.cpp:31-80 `dump`, the bytes appended to the file (`size` is the difference of positions,
that is the number of bytes of the dumped integer). -/
def termDump (pos : Nat) : Bytes :=
  let enc := putInt pos
  let nbbit := enc.length / termBlock
  let reste := enc.length % termBlock
  let bourrage := reste % termBlock
  let pad : Bytes := if reste ≠ 0 then List.replicate (termBlock - bourrage) 0 else []
  let nbbit := if reste ≠ 0 then nbbit + 1 else nbbit
  let lastByte := nbbit % 8
  let nbyte := nbbit / 8
  enc ++ pad ++ [if lastByte ≠ 0 then termLastByte lastByte else 0] ++ List.replicate nbyte 0xFF

/-- src/libdar/terminateur.cpp:99-108: backward reading of the 0xFF bytes (`l` are the bytes before the cursor,
nearest first): how many, then the first other byte. -/
def termCount : Bytes → Nat → Option (Nat × UInt8)
  | [], _ => none
  | a :: l, n => if a = 0xFF then termCount l (n + 1) else some (n, a)

/-- src/libdar/terminateur.cpp:112-118: counting the leading bits of the last byte, with `a <<= 1` on an unsigned
char (at most 8 rounds before it becomes null, which is what `fuel` is for). -/
def termBits : (fuel : Nat) → UInt8 → Nat → Res Nat
  | 0, _, _ => .error .diverge
  | fuel + 1, a, off =>
    if a = 0 then .ok off
    else if a &&& 0x80 = 0 then .error .range
    else termBits fuel (a <<< 1) (off + 1)

/-- src/libdar/terminateur.cpp:83-136 `read_catalogue`: the position recorded, the start of the terminator
(`t_start`) and the cursor.  `offset` is a 32-bit signed int: overflow is reported as undefined behaviour. -/
def termRead (f : Cur) (withElastic old : Bool) (whereFrom : Nat) : Res (Nat × Nat) :=
  let f := if whereFrom = 0 then { f with pos := f.data.length } else { f with pos := whereFrom }
  match (if withElastic then (elFromFile f true old).map Prod.snd else .ok f) with
  | .error e => .error e
  | .ok f =>
    match termCount ((f.data.take f.pos).reverse) 0 with
    | none => .error .range
    | some (n, a) =>
      match termBits 9 a (n * 8) with
      | .error e => .error e
      | .ok off =>
        if off * termBlock ≥ 2 ^ 31 then .error .ub
        else
          match ({ f with pos := f.pos - (n + 1) } : Cur).skipRel (-(off * termBlock : Nat)) with
          | (false, _) => .error .range
          | (true, f) =>
            match getInt (f.data.drop f.pos) with
            | .error e => .error e
            | .ok (v, _) => .ok (v, f.pos)

end Dar
