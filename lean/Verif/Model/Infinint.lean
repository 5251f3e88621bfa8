import Verif.Model.Basic
/-
Model of class `infinint` (unbounded integers), src/libdar/real_infinint.{hpp,cpp}.

The private field `storage *field` holds the base-256 digits, most significant first; the model keeps
these digits as a byte list.  The fragmentation of `storage` into cells is modelled apart
(Model/Storage.lean).  Null-pointer tests (`is_valid`) are not modelled: every constructor allocates
the field.  `Inf.Wf` (at least one byte) is the class invariant on which `*(field->begin())` relies;
that every operation keeps it is proved.
-/
namespace Dar

/-- class infinint, src/libdar/real_infinint.hpp:61-200 (`field`). -/
structure Inf where
  field : Bytes
  deriving DecidableEq, Repr

/-- Class invariant: the digit string is never empty ("field width is at least one byte",
src/libdar/real_infinint.cpp:651). -/
def Inf.Wf (x : Inf) : Prop := x.field ≠ []

instance (x : Inf) : Decidable x.Wf := inferInstanceAs (Decidable (x.field ≠ []))

/-- The leading-zero removal loop of infinint::reduce, src/libdar/real_infinint.cpp:634-669.
Simplification: the `max_a_time` batching of removals (size_t limit) is not modelled. -/
def stripZeros : Bytes → Bytes
  | [] => []
  | b :: l => if b = 0 then stripZeros l else b :: l

/-- infinint::reduce, src/libdar/real_infinint.cpp:634-669: drops the leading zeros, keeps at least
one byte (adds one if the field is empty, l.650-651). -/
def reduceField (l : Bytes) : Bytes :=
  match stripZeros l with
  | [] => [0]
  | l' => l'

/-- The "reduce if the first byte is zero" idiom, src/libdar/real_infinint.cpp:127-128, 593-597. -/
def reduceIfNeeded (l : Bytes) : Bytes :=
  match l with
  | [] => []
  | b :: l' => if b = 0 then reduceField (b :: l') else b :: l'

/-- Lexicographic comparison of two digit strings of the same size, the `while` loop of
infinint::difference, src/libdar/real_infinint.cpp:607-625. -/
def cmpDigits : Bytes → Bytes → Int
  | [], [] => 0
  | _ :: _, [] => 1
  | [], _ :: _ => -1
  | a :: as, b :: bs => if a = b then cmpDigits as bs else (a.toNat : Int) - (b.toNat : Int)

/-- infinint::difference, src/libdar/real_infinint.cpp:584-626: sign of `a - b`. -/
def Inf.difference (a b : Inf) : Int :=
  let fa := reduceIfNeeded a.field
  let fb := reduceIfNeeded b.field
  if fa.length < fb.length then -1
  else if fa.length > fb.length then 1
  else cmpDigits fa fb

/-- operator `<`, macro OPERATOR, src/libdar/real_infinint.hpp:162-168. -/
def Inf.lt (a b : Inf) : Bool := a.difference b < 0
/-- operator `<=`, src/libdar/real_infinint.hpp:162-168. -/
def Inf.le (a b : Inf) : Bool := a.difference b ≤ 0
/-- operator `==`, src/libdar/real_infinint.hpp:162-168. -/
def Inf.eqv (a b : Inf) : Bool := a.difference b = 0

/-- infinint::is_zero, src/libdar/real_infinint.cpp:571-582. -/
def Inf.isZero (a : Inf) : Bool := a.field.all (· == 0)

/-- infinint::make_at_least_as_wider_as, src/libdar/real_infinint.cpp:692-698: inserts zero bytes in
front until the field is as long as the other one. -/
def widen (l ref : Bytes) : Bytes := List.replicate (ref.length - l.length) 0 ++ l

/-- The carry loop of operator +=, src/libdar/real_infinint.cpp:208-229, on digits least significant
first (the C++ iterators go from rbegin() to rend()). -/
def addLoop : Bytes → Bytes → Nat → Bytes × Nat
  | [], _, c => ([], c)
  | r :: rs, [], 0 => (r :: rs, 0)
  | r :: rs, [], c + 1 =>
      let somme := r.toNat + (c + 1)
      let (l, c') := addLoop rs [] (somme >>> 8)
      (UInt8.ofNat (somme &&& 0xFF) :: l, c')
  | r :: rs, a :: as, c =>
      let somme := r.toNat + a.toNat + c
      let (l, c') := addLoop rs as (somme >>> 8)
      (UInt8.ofNat (somme &&& 0xFF) :: l, c')

/-- infinint::operator += , src/libdar/real_infinint.cpp:197-239. -/
def Inf.add (x y : Inf) : Inf :=
  let (l, c) := addLoop (widen x.field y.field).reverse y.field.reverse 0
  if c ≠ 0 then ⟨UInt8.ofNat c :: l.reverse⟩ else ⟨l.reverse⟩

/-- The borrow computation of operator -=, src/libdar/real_infinint.cpp:261-279: new digit and borrow
from the signed `somme`. -/
def subDigit (somme : Int) : UInt8 × Nat :=
  if somme < 0 then
    let s := (-somme).toNat
    let tmp := s &&& 0xFF
    let ret := s >>> 8
    if tmp ≠ 0 then (UInt8.ofNat (0x100 - tmp), ret + 1) else (0, ret)
  else (UInt8.ofNat somme.toNat, 0)

/-- The borrow loop of operator -=, src/libdar/real_infinint.cpp:252-284, least significant first. -/
def subLoop : Bytes → Bytes → Nat → Bytes × Nat
  | [], _, c => ([], c)
  | r :: rs, [], 0 => (r :: rs, 0)
  | r :: rs, [], c + 1 =>
      let (d, c') := subDigit ((r.toNat : Int) - ((c + 1 : Nat) : Int))
      let (l, c'') := subLoop rs [] c'
      (d :: l, c'')
  | r :: rs, a :: as, c =>
      let (d, c') := subDigit ((r.toNat : Int) - (a.toNat : Int) - (c : Int))
      let (l, c'') := subLoop rs as c'
      (d :: l, c'')

/-- infinint::operator -= , src/libdar/real_infinint.cpp:241-294.  The comparison at l.246 reduces both
operands to canonical form (difference() is called on them), hence `reduceIfNeeded`. -/
def Inf.sub (x y : Inf) : Res Inf :=
  if x.lt y then .error .range
  else
    let (l, _) := subLoop (reduceIfNeeded x.field).reverse (reduceIfNeeded y.field).reverse 0
    .ok ⟨l.reverse⟩

/-- The loop of operator *= (unsigned char), src/libdar/real_infinint.cpp:304-315, least significant
first. -/
def mulLoop (arg : Nat) : Bytes → Nat → Bytes × Nat
  | [], c => ([], c)
  | d :: ds, c =>
      let produit := d.toNat * arg + c
      let (l, c') := mulLoop arg ds (produit >>> 8)
      (UInt8.ofNat (produit &&& 0xFF) :: l, c')

/-- infinint::operator *= (unsigned char), src/libdar/real_infinint.cpp:296-329. -/
def Inf.mulByte (x : Inf) (arg : UInt8) : Inf :=
  let (l, c) := mulLoop arg.toNat x.field.reverse 0
  let f := if c ≠ 0 then UInt8.ofNat c :: l.reverse else l.reverse
  if arg = 0 then ⟨reduceField f⟩ else ⟨f⟩

/-- int_tools_contract_byte on the field `i < k ? 0 : 1` (src/libdar/int_tools.cpp:55-67 as used at
real_infinint.cpp:442-444 and 514-516): the byte whose `8 - k` low bits are set. -/
def lowMask (k : Nat) : UInt8 := UInt8.ofNat (2 ^ (8 - k) - 1)

/-- The bit-shifting loop of operator <<= (U_32), src/libdar/real_infinint.cpp:518-526, most significant
digit first; `r2` is the carry coming from the digit on the left.  (`>>`, `|` on a byte, and the
implicit truncation to a byte on assignment.) -/
def shlLoop (bit : Nat) : Bytes → UInt8 → Bytes
  | [], _ => []
  | d :: ds, r2 =>
      -- carry produced by digit d goes to the digit on its right in the already byte-shifted field
      let r1 := UInt8.ofNat (((d &&& lowMask bit).toNat <<< bit))
      (UInt8.ofNat (d.toNat >>> (8 - bit)) ||| r2) :: shlLoop bit ds r1

/-- infinint::operator <<= (U_32), src/libdar/real_infinint.cpp:482-530. -/
def Inf.shl (x : Inf) (bit : Nat) : Inf :=
  if x.isZero then x
  else
    let b := bit % 8
    let byte := if b ≠ 0 then bit / 8 + 1 else bit / 8
    let f := x.field ++ List.replicate byte 0
    if b ≠ 0 then ⟨shlLoop b f 0⟩ else ⟨f⟩

/-- The bit-shifting loop of operator >>= (U_32), src/libdar/real_infinint.cpp:446-455.  `r1` is an
`unsigned char`: `r1 <<= shift_retenue` keeps the low 8 bits. -/
def shrLoop (bit : Nat) : Bytes → UInt8 → Bytes
  | [], _ => []
  | d :: ds, r2 =>
      let r1 := UInt8.ofNat (((d &&& lowMask (8 - bit)).toNat <<< (8 - bit)))
      (UInt8.ofNat (d.toNat >>> bit) ||| r2) :: shrLoop bit ds r1

/-- infinint::operator >>= (U_32), src/libdar/real_infinint.cpp:420-461. -/
def Inf.shr (x : Inf) (bit : Nat) : Inf :=
  let byte := bit / 8
  let b := bit % 8
  if byte ≥ x.field.length then ⟨[0]⟩
  else
    let f := x.field.take (x.field.length - byte)
    if b ≠ 0 then ⟨shrLoop b f 0⟩ else ⟨f⟩

/-- infinint::operator *= (const infinint &), src/libdar/real_infinint.cpp:331-350. -/
def Inf.mul (x y : Inf) : Inf :=
  x.field.foldl (fun ret d => (ret.shl 8).add (y.mulByte d)) ⟨[0]⟩

/-- Digit-wise loop of &=, |=, ^= (src/libdar/real_infinint.cpp:359-366, 390-394, 406-415), least
significant first: stops at the end of the shorter operand; returns (processed, untouched rest). -/
def bitLoop (op : UInt8 → UInt8 → UInt8) : Bytes → Bytes → Bytes × Bytes
  | [], _ => ([], [])
  | r :: rs, [] => ([], r :: rs)
  | r :: rs, a :: as => let (l, rest) := bitLoop op rs as; (op r a :: l, rest)

/-- infinint::operator &= , src/libdar/real_infinint.cpp:352-381. -/
def Inf.land (x y : Inf) : Inf :=
  let (l, rest) := bitLoop (· &&& ·) (widen x.field y.field).reverse y.field.reverse
  if rest ≠ [] then ⟨reduceField (l ++ rest.map (fun _ => 0)).reverse⟩ else ⟨l.reverse⟩

/-- infinint::operator |= , src/libdar/real_infinint.cpp:383-397. -/
def Inf.lor (x y : Inf) : Inf :=
  let (l, rest) := bitLoop (· ||| ·) (widen x.field y.field).reverse y.field.reverse
  ⟨(l ++ rest).reverse⟩

/-- infinint::operator ^= , src/libdar/real_infinint.cpp:399-418. -/
def Inf.lxor (x y : Inf) : Inf :=
  let (l, rest) := bitLoop (· ^^^ ·) (widen x.field y.field).reverse y.field.reverse
  ⟨(l ++ rest).reverse⟩

/-- First loop of euclide, src/libdar/real_infinint.cpp:856-857: shift `r` left by bytes until its
field is longer than the one of `a`. -/
def euclideUp : Nat → Inf → Inf → Res Inf
  | 0, _, _ => .error .diverge
  | n + 1, a, r => if a.field.length ≥ r.field.length then euclideUp n a (r.shl 8) else .ok r

/-- Inner loop of euclide, src/libdar/real_infinint.cpp:864-868: subtract `r` from `a` while possible. -/
def euclideInner : Nat → Inf → Inf → Inf → Res (Inf × Inf)
  | 0, _, _, _ => .error .diverge
  | n + 1, a, q, r =>
      if r.le a then do
        let a' ← a.sub r
        euclideInner n a' (q.add ⟨[1]⟩) r
      else .ok (a, q)

/-- Outer loop of euclide, src/libdar/real_infinint.cpp:860-869. -/
def euclideOuter : Nat → Inf → Inf → Inf → Inf → Res (Inf × Inf)
  | 0, _, _, _, _ => .error .diverge
  | n + 1, a, b, q, r =>
      if b.lt r then do
        let r' := r.shr 8
        let (a', q') ← euclideInner 257 a (q.shl 8) r'
        euclideOuter n a' b q' r'
      else .ok (a, q)

/-- euclide, src/libdar/real_infinint.cpp:837-872: quotient and remainder.  `fuel` bounds the number of
iterations of the two outer loops (the inner one is given 257 steps); exhausting it is
`Err.diverge`.  The theorems show `a.field.length + 2` is always enough. -/
def Inf.euclide (fuel : Nat) (a b : Inf) : Res (Inf × Inf) :=
  if b.isZero then .error .infinint
  else if a.lt b then .ok (⟨[0]⟩, a)
  else do
    let a := ⟨reduceIfNeeded a.field⟩
    let r := ⟨reduceIfNeeded b.field⟩
    let r ← euclideUp fuel a r
    let (a', q) ← euclideOuter fuel a b ⟨[0]⟩ r
    .ok (q, a')

/-- The bytes of a machine integer of `size` bytes, most significant first (endianness handling of
src/libdar/real_infinint.hpp:252-275). -/
def beBytes : Nat → Nat → Bytes
  | 0, _ => []
  | n + 1, a => beBytes n (a / 256) ++ [UInt8.ofNat (a % 256)]

/-- infinint::infinint_from, src/libdar/real_infinint.hpp:250-305: from a machine integer of `size`
bytes; leading zero bytes are skipped, keeping one byte for zero. -/
def Inf.ofMachine (size : Nat) (a : Nat) : Inf :=
  match stripZeros (beBytes size a) with
  | [] => ⟨[0]⟩
  | l => ⟨l⟩

/-- infinint::infinint_unstack_to, src/libdar/real_infinint.hpp:323-358, for a target type of `size`
bytes with maximum value `maxT` holding `a`.  Returns the remaining infinint and the new value of
the target.  The `step` infinint is built from a machine integer of 8 bytes (size_t). -/
def Inf.unstack (size maxT : Nat) (x : Inf) (a : Nat) : Res (Inf × Nat) :=
  let step := Inf.ofMachine 8 (maxT - a)
  if x.lt step then
    -- comparison reduces x; then the low `size` digits are copied in `transfert`
    let f := reduceIfNeeded x.field
    let low := f.drop (f.length - size)
    let transfert := low.foldl (fun acc b => acc * 256 + b.toNat) 0
    do
      let x' ← Inf.sub ⟨f⟩ ⟨f⟩
      .ok (x', a + transfert)
  else do
    let x' ← x.sub step
    .ok (x', maxT)

/-- infinint::operator >>= (infinint) and <<= (infinint), src/libdar/real_infinint.cpp:463-480 and
532-546: the shift amount is unstacked in 32-bit pieces, `sh` being the shift by one piece.  `fuel`
bounds the number of turns of the do/while loop. -/
def Inf.shiftBy (sh : Inf → Nat → Inf) : Nat → Inf → Inf → Nat → Res Inf
  | 0, _, _, _ => .error .diverge
  | n + 1, x, bit, delta => do
      let x' := sh x delta
      let (bit', delta') ← Inf.unstack 4 (2 ^ 32 - 1) bit 0
      if delta' > 0 then Inf.shiftBy sh n x' bit' delta' else .ok x'

/-- infinint::operator >>= (infinint), src/libdar/real_infinint.cpp:463-480. -/
def Inf.shrInf (fuel : Nat) (x bit : Inf) : Res Inf := do
  let (bit', delta) ← Inf.unstack 4 (2 ^ 32 - 1) bit 0
  Inf.shiftBy Inf.shr fuel x bit' delta

/-- infinint::operator <<= (infinint), src/libdar/real_infinint.cpp:532-546. -/
def Inf.shlInf (fuel : Nat) (x bit : Inf) : Res Inf := do
  let (bit', delta) ← Inf.unstack 4 (2 ^ 32 - 1) bit 0
  Inf.shiftBy Inf.shl fuel x bit' delta

/-- infinint::power, src/libdar/real_infinint.hpp:225-232 (exponent a machine integer or an infinint). -/
def Inf.power (x : Inf) : Nat → Inf
  | 0 => Inf.ofMachine 4 1
  | n + 1 => (Inf.power x n).mul x

/-- infinint::modulo, src/libdar/real_infinint.hpp:234-263, for a machine type of `size` bytes. -/
def Inf.modulo (fuel size : Nat) (x : Inf) (arg : Nat) : Res Nat := do
  let (_, r) ← Inf.euclide fuel x (Inf.ofMachine size arg)
  let low := r.field.drop (r.field.length - size)
  let high := r.field.take (r.field.length - size)
  if high.all (· == 0) then .ok (low.foldl (fun acc b => acc * 256 + b.toNat) 0) else .error .bug

/-- infinint::operator [], src/libdar/real_infinint.cpp:548-569: byte number `i`, least significant
first. -/
def Inf.byteAt (x : Inf) (i : Nat) : UInt8 :=
  if i < x.field.length then x.field.getD (x.field.length - (i + 1)) 0 else 0

/-- Size of a digit group, src/libdar/real_infinint.hpp:143 (`TG = 4`), also limitint.hpp. -/
def TG : Nat := 4

/-- The preamble written by infinint::dump, src/libdar/real_infinint.cpp:130-178, for a field of
`size` bytes: zero bytes, then one byte with one bit set, then justification zeros.  The widths are
infinints in the code; the model uses `Nat` for them (see the exactness theorems on infinint). -/
def dumpPreamble (size : Nat) : Bytes :=
  let justification := size % TG
  let width := size / TG + (if justification ≠ 0 then 1 else 0)
  let pos := width % 8
  let (nz, last) : Nat × UInt8 :=
    if pos = 0 then (width / 8 - 1, (0x80 : UInt8) >>> 7)
    else (width / 8, (0x80 : UInt8) >>> (UInt8.ofNat (pos - 1)))
  List.replicate nz 0 ++ [last] ++ (if justification ≠ 0 then List.replicate (TG - justification) 0 else [])

/-- infinint::dump, src/libdar/real_infinint.cpp:117-195. -/
def Inf.dump (x : Inf) : Bytes :=
  let f := reduceIfNeeded x.field
  dumpPreamble f.length ++ f

/-- int_tools_expand_byte, src/libdar/int_tools.cpp:44-53: the 8 bits, most significant first. -/
def expandByte (a : UInt8) : List Nat :=
  (List.range 8).map (fun i => (a.toNat >>> (7 - i)) &&& 1)

/-- Number of bits set and position of the first bit set (plus one) in a preamble byte, as computed at
src/libdar/real_infinint.cpp:76-90: `none` if not exactly one bit is set. -/
def preambleBit (a : UInt8) : Option Nat :=
  let bf := expandByte a
  if bf.sum ≠ 1 then none else some (bf.findIdx (· ≠ 0) + 1)

/-- Scan of the preamble: src/libdar/real_infinint.cpp:63-95.  `skip` counts the zero bytes already
read.  Returns the number of bytes of the integer's field. -/
def readPreamble : Nat → Bytes → Res (Nat × Bytes)
  | _, [] => .error .range
  | skip, a :: rest =>
      if a = 0 then readPreamble (skip + 1) rest
      else match preambleBit a with
        | none => .error .range
        | some pos => .ok ((skip * 8 + pos) * TG, rest)

/-- infinint::build_from_file, src/libdar/real_infinint.cpp:56-115.  The field is read by
storage::storage(proto_generic_file &, size), src/libdar/storage.cpp:54-84 (Erange when data is
missing), then reduced. -/
def Inf.read : Reader Inf := fun s => do
  let (n, s) ← readPreamble 0 s
  let (f, s) ← readExact n s
  .ok (⟨reduceField f⟩, s)

/-- A canonical infinint of the given value (as any constructor followed by `reduce` yields). -/
def Inf.ofNat (n : Nat) : Inf := ⟨reduceField (beBytes (Nat.log2 n / 8 + 1) n)⟩

/-- Writing an infinint of value `n` (infinint::dump); used by the models of the upper layers, where
infinints are represented by their value. -/
def putInt (n : Nat) : Bytes := (Inf.ofNat n).dump

/-- Reading an infinint, keeping its value (infinint::read / infinint(f)); used by the upper layers. -/
def getInt : Reader Nat := fun s => do
  let (x, rest) ← Inf.read s
  .ok (x.field.foldl (fun acc b => acc * 256 + b.toNat) 0, rest)

end Dar
