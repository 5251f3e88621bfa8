import Verif.Model.Basic
/- Model of src/libdar/elastic.{hpp,cpp}, of tronco_with_elastic::add_elastic_buffer and of the padding of
crypto_sym. -/
namespace Dar

/-- U_32 arithmetic wraps. -/
def u32 (n : Nat) : Nat := n % 2 ^ 32

/-- src/libdar/tools.hpp:584-598 `tools_number_base_decomposition_in_big_endian` (least significant digit first;
the base is 254 or 16 in the program). -/
def baseDigits (base : Nat) (n : Nat) : List Nat :=
  if h : n ≠ 0 ∧ base > 1 then n % base :: baseDigits base (n / base) else []
termination_by n
decreasing_by exact Nat.div_lt_self (Nat.pos_of_ne_zero h.1) h.2

/-- The characters used as marks: `SINGLE_MARK` (elastic.cpp:50), low and high marks (elastic.hpp:76-77 and
elastic.cpp:316-330).  `old` is `reading_ver <= 6`. -/
def elSingle : UInt8 := 88
def elLow (old : Bool) : UInt8 := if old then 62 else 255
def elHigh (old : Bool) : UInt8 := if old then 60 else 254
/-- src/libdar/elastic.cpp:308-314 `base_from_version`. -/
def elBase (old : Bool) : Nat := if old then 256 else 254

/-- src/libdar/elastic.hpp:65 `max_length`. -/
def elMax : Nat := 254 * 254 * 254 * 254 - 1

/-- src/libdar/elastic.cpp:77-85, constructor from a size. -/
def elMake (size : Nat) : Res Nat :=
  if size = 0 then .error .range else if size > elMax then .error .range else .ok size

/-- src/libdar/elastic.cpp:222-296 `dump` in a buffer of `room` bytes, returns the bytes written.  The source of
randomness is arbitrary: `r` is the value of the first `rand()`, `rnd i` the byte produced by the do-while of
`randomize` (elastic.cpp:299-306) at position `i`; the callers of the model require of `rnd` what the do-while
loop guarantees (`RndOk`). -/
def elDump (taille room r : Nat) (rnd : Nat → UInt8) : Res Bytes :=
  if room < taille then .error .range
  else if taille > 2 then
    let digits := baseDigits 254 taille
    let len := digits.length
    if len + 2 > taille then .error .bug
    else
      let cur := if len + 2 < taille then r % (taille - (len + 2)) else 0
      .ok ((List.range cur).map rnd ++ [elLow false] ++ digits.map UInt8.ofNat ++ [elHigh false]
        ++ (List.range (taille - (cur + len + 2))).map (fun i => rnd (cur + len + 2 + i)))
  else if taille = 1 then .ok [elSingle]
  else if taille = 2 then .ok [elLow false, elHigh false]
  else .error .bug

/-- What the loop of `randomize` (elastic.cpp:299-306) guarantees about each byte. -/
def RndOk (rnd : Nat → UInt8) : Prop :=
  ∀ i, rnd i ≠ elSingle ∧ rnd i ≠ elLow false ∧ rnd i ≠ elHigh false

/-- First loop of both reading constructors (elastic.cpp:100-101 and 170-176), on the bytes in reading order:
the mark met, the number of bytes read up to and including it, what remains. -/
def elFind (first : UInt8) : Bytes → Nat → Option (UInt8 × Nat × Bytes)
  | [], _ => none
  | a :: l, n => if a = elSingle ∨ a = first then some (a, n + 1, l) else elFind first l (n + 1)

/-- Second loop (elastic.cpp:131-147 and 193-209): reads the size field.  `back` is `dir != elastic_forward`,
`t` is `taille`, `pb` is `power_base`, `n` is `byte_counter`. -/
def elSize (back : Bool) (base : Nat) (last : UInt8) : Bytes → (t pb n : Nat) → Res (Nat × Nat)
  | [], _, _, _ => .error .range
  | a :: l, t, pb, n =>
    if a = last then .ok (t, n)
    else
      let t' := if back then u32 (u32 (t * base) + a.toNat) else u32 (t + pb * a.toNat)
      let pb' := if back then pb else u32 (pb * base)
      if n + 1 > 4 then .error .range else elSize back base last l t' pb' (n + 1)

/-- Common part of elastic.cpp:87-160 and 162-219 up to the skipping: the size and the number of bytes read. -/
def elScan (back old : Bool) (l : Bytes) : Res (Nat × Nat) :=
  let first := if back then elHigh old else elLow old
  let last := if back then elLow old else elHigh old
  match elFind first l 0 with
  | none => .error .range
  | some (m, count, rest) =>
    if m = elSingle then (if count = 1 then .ok (1, 1) else .error .range)
    else match elSize back (elBase old) last rest 0 1 0 with
      | .error e => .error e
      | .ok (t, n) =>
        if t = 0 ∧ n = 0 then .ok (2, count + n + 1)
        else if t < 3 then .error .range
        else .ok (t, count + n + 1)

/-- src/libdar/elastic.cpp:87-160, constructor from a memory buffer: the size found. -/
def elFromBuffer (buffer : Bytes) (back old : Bool) : Res Nat :=
  if buffer.length ≥ 2 ^ 32 - 1 then .error .range
  else match elScan back old (if back then buffer.reverse else buffer) with
    | .error e => .error e
    | .ok (t, _) => .ok t

/-- A file with a read/write position (the lower layers as the elastic code sees them). -/
structure Cur where
  data : Bytes
  pos : Nat
  deriving DecidableEq, Repr

/-- `skip_relative(S_I x)`: src/libdar/fichier_local.cpp:210-242 and tronconneuse.cpp:154-178: going before the
start leaves the cursor at the start and reports failure. -/
def Cur.skipRel (c : Cur) (x : Int) : Bool × Cur :=
  if 0 ≤ x then (true, { c with pos := c.pos + x.toNat })
  else if c.pos < (-x).toNat then (false, { c with pos := 0 })
  else (true, { c with pos := c.pos - (-x).toNat })

/-- Conversion of a U_32 to the `S_I` (32-bit signed int, integers.hpp:62) parameter of skip_relative. -/
def s32 (n : Nat) : Int := if u32 n < 2 ^ 31 then u32 n else (u32 n : Int) - 2 ^ 32

/-- src/libdar/elastic.cpp:162-219, constructor from a file: the size and the cursor afterwards.
`read_forward`/`read_back` (generic_file.hpp:148, generic_file.cpp:176-189) move the cursor by one byte;
`count` is a U_32. -/
def elFromFile (f : Cur) (back old : Bool) : Res (Nat × Cur) :=
  match elScan back old (if back then (f.data.take f.pos).reverse else f.data.drop f.pos) with
  | .error e => .error e
  | .ok (t, n) =>
    let here : Cur := { f with pos := if back then f.pos - n else f.pos + n }
    if t = 1 then .ok (t, here)
    else
      let count := u32 n
      if count < t then
        .ok (t, (here.skipRel (if back then s32 (count + 2 ^ 32 - t) else s32 (t - count))).2)
      else if count > t then .error .range
      else .ok (t, here)

/-- src/libdar/tronco_with_elastic.cpp:466-478: size of the buffer `add_elastic_buffer` drops; `rand` is
`tools_pseudo_random(max_size-1)`. -/
def elPadSize (rand modulo offset : Nat) : Nat :=
  let size := u32 (rand + 1)
  if modulo > 0 then u32 (u32 (size / modulo * modulo) + (modulo - offset % modulo)) else size

/-- src/libdar/crypto_sym.cpp:151-163 `encrypted_block_size_for`. -/
def cryptBlockFor (algo clear : Nat) : Nat := u32 ((clear / algo + 1) * algo)

/-- src/libdar/crypto_sym.cpp:170-206 `encrypt_data`, `enc` standing for gcry_cipher_encrypt with the block's
key and initial vector; `room` is `clear_allocated`. -/
def cryptEncrypt (enc : Bytes → Bytes) (algo : Nat) (clear : Bytes) (room r : Nat) (rnd : Nat → UInt8) : Res Bytes :=
  let fill := cryptBlockFor algo clear.length
  if room < fill then .error .bug
  else if clear.length < fill then
    match elMake (fill - clear.length) with
    | .error e => .error e
    | .ok n => match elDump n (room - clear.length) r rnd with
      | .error e => .error e
      | .ok pad => .ok (enc ((clear ++ pad).take fill))
  else .error .bug

/-- src/libdar/crypto_sym.cpp:208-239 `decrypt_data`. -/
def cryptDecrypt (dec : Bytes → Bytes) (old : Bool) (crypt : Bytes) : Res Bytes :=
  if crypt.length = 0 then .ok []
  else
    let clear := dec crypt
    match elFromBuffer (clear.take crypt.length) true old with
    | .error e => .error e
    | .ok n => if n > crypt.length then .error .range else .ok (clear.take (crypt.length - n))

end Dar
