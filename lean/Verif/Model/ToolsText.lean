import Verif.Model.Deci
import Verif.Model.Elastic
/- Model of the text helpers of src/libdar/tools.cpp: sizes with suffix, octal permissions, command substitution. -/
namespace Dar

/-- src/libdar/tools.cpp:1393-1438: the factor given by the last character; `base` is 1000 or 1024 (any value here). -/
def sizeFactor (base : Nat) (c : UInt8) : Res Nat :=
  if c = 75 ∨ c = 107 then .ok base                 -- K k
  else if c = 77 then .ok (base ^ 2)                -- M
  else if c = 71 then .ok (base ^ 3)                -- G
  else if c = 84 then .ok (base ^ 4)                -- T
  else if c = 80 then .ok (base ^ 5)                -- P
  else if c = 69 then .ok (base ^ 6)                -- E
  else if c = 90 then .ok (base ^ 7)                -- Z
  else if c = 89 then .ok (base ^ 8)                -- Y
  else if c = 82 then .ok (base ^ 9)                -- R
  else if c = 81 then .ok (base ^ 10)               -- Q
  else if 48 ≤ c ∧ c ≤ 57 then .ok 1
  else .error .range

/-- src/libdar/tools.cpp:1386-1447 `tools_get_extended_size`.  Integers are unbounded (infinint build); the empty
string gives 0 (`return false`, l.1391-1392). -/
def extendedSize (s : Bytes) (base : Nat) : Res Nat :=
  match s.getLast? with
  | none => .ok 0
  | some c => do
    let factor ← sizeFactor base c
    let s := if factor ≠ 1 then s.dropLast else s
    let d ← deciOfText s
    .ok (factor * deciComputer d)

/-- src/libdar/tools.cpp:1629: the states of the automaton of tools_octal2int (the `error` state is the exception
it always ends in). -/
inductive OctSt where
  | init | octal | trail
  deriving DecidableEq, Repr

/-- src/libdar/tools.cpp:1634-1671: one character.  `ret` is a size_t (64 bits). -/
def octStep (st : OctSt × Nat) (c : UInt8) : Res (OctSt × Nat) :=
  match st.1 with
  | .init =>
    if c = 32 ∨ c = 9 ∨ c = 10 ∨ c = 13 then .ok (.init, st.2)
    else if c = 48 then .ok (.octal, st.2)
    else .error .range
  | .octal =>
    if c = 32 then .ok (.trail, st.2)
    else if 48 ≤ c ∧ c ≤ 55 then .ok (.octal, (st.2 * 8 + (c.toNat - 48)) % 2 ^ 64)
    else .error .range
  | .trail => if c ≠ 32 then .error .range else .ok (.trail, st.2)

/-- src/libdar/tools.cpp:1625-1676 `tools_octal2int` -/
def octal2int (s : Bytes) : Res Nat :=
  if s = [] then .ok 0o666
  else do
    let r ← s.foldlM octStep (.init, 0)
    if r.1 = .init then .error .range else .ok r.2

/-- src/libdar/tools.cpp:1678-1693 `tools_int2octal` -/
def int2octal (perm : Nat) : Bytes :=
  48 :: (baseDigits 8 perm).foldl (fun ret d => UInt8.ofNat (48 + d) :: ret) []

/-- src/libdar/tools.cpp:1449-1482 `tools_substitute`; `corres` is the map from characters to replacement texts. -/
def substitute (corres : UInt8 → Option Bytes) : Bytes → Res Bytes
  | [] => .ok []
  | [c] => if c = 37 then .error .script else .ok [c]
  | c :: x :: rest =>
    if c = 37 then
      match corres x with
      | none => .error .script
      | some v => do
        let r ← substitute corres rest
        .ok (v ++ r)
    else do
      let r ← substitute corres (x :: rest)
      .ok (c :: r)

/-- src/libdar/tools.cpp:1484-1506 `tools_hook_substitute` -/
def hookSubstitute (hook path basename num padded ext context baseUrl : Bytes) : Res Bytes :=
  substitute (fun c =>
    if c = 37 then some [37] else if c = 112 then some path else if c = 98 then some basename
    else if c = 110 then some num else if c = 78 then some padded else if c = 101 then some ext
    else if c = 99 then some context else if c = 117 then some baseUrl else none) hook

/-- src/libdar/tools.cpp:2098-2116 `tools_file_size_to_crc_size` -/
def crcSizeFor (size : Nat) : Res Nat := do
  let ratio ← extendedSize [49, 71] 1024
  if size ≠ 0 then
    if ratio = 0 then .error .infinint
    else
      let q := size / ratio
      let r := size % ratio
      .ok ((if r ≠ 0 then q + 1 else q) * 4)
  else .ok 1

end Dar
