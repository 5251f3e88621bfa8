import Verif.Model.Infinint
/-
Model of the template class `limitint<B>` (bounded integers), src/libdar/limitint.hpp, which replaces
`infinint` when libdar is built with --enable-mode=32 or 64.  `w` is `sizeof(B)` (4 or 8); a value is
a `Nat` meant to be below `256 ^ w`.  Machine arithmetic on `B` is arithmetic modulo `256 ^ w`.
-/
namespace Dar

/-- `256 ^ sizeof(B)`: one more than `max_value`, src/libdar/limitint.hpp:193. -/
def Lim.modulus (w : Nat) : Nat := 256 ^ w

/-- int_tools_higher_power_of_2, src/libdar/int_tools.hpp:60-68: the loop
`while((val >> i) > 1) i++`, started at `i`, with a bound `n` on the number of steps (the loop ends by
itself; `n` = number of bits of the type suffices, see theorem hp2_spec). -/
def hp2Loop (val : Nat) : Nat → Nat → Nat
  | 0, i => i
  | n + 1, i => if val >>> i > 1 then hp2Loop val n (i + 1) else i

/-- int_tools_higher_power_of_2 for a type of `w` bytes, src/libdar/int_tools.hpp:60-68. -/
def hp2 (w val : Nat) : Nat := hp2Loop val (8 * w) 0

/-- limitint::operator += , src/libdar/limitint.hpp:409-418. -/
def Lim.add (w a b : Nat) : Res Nat :=
  let res := (a + b) % Lim.modulus w
  if res < a ∨ res < b then .error .limitint else .ok res

/-- limitint::operator -= , src/libdar/limitint.hpp:420-429. -/
def Lim.sub (a b : Nat) : Res Nat :=
  if a < b then .error .range else .ok (a - b)

/-- limitint::operator *= , src/libdar/limitint.hpp:432-450. -/
def Lim.mul (w a b : Nat) : Res Nat :=
  let maxPower := w * 8 - 1
  let total := hp2 w a + hp2 w b + 1
  if total > maxPower then .error .limitint
  else
    let total := (a * b) % Lim.modulus w
    if a ≠ 0 ∧ b ≠ 0 ∧ (total < a ∨ total < b) then .error .limitint else .ok total

/-- limitint::power, src/libdar/limitint.hpp:452-459. -/
def Lim.power (w a : Nat) : Nat → Res Nat
  | 0 => .ok 1
  | n + 1 => do let r ← Lim.power w a n; Lim.mul w r a

/-- limitint::operator /= , src/libdar/limitint.hpp:461-468. -/
def Lim.div (a b : Nat) : Res Nat :=
  if b = 0 then .error .infinint else .ok (a / b)

/-- limitint::operator %= , src/libdar/limitint.hpp:470-477. -/
def Lim.mod (a b : Nat) : Res Nat :=
  if b = 0 then .error .infinint else .ok (a % b)

/-- C++ `field << bit` on a type of `w` bytes: undefined when `bit` is not below the width. -/
def machineShl (w a bit : Nat) : Res Nat :=
  if bit < 8 * w then .ok ((a <<< bit) % Lim.modulus w) else .error .ub

/-- C++ `field >> bit` on a type of `w` bytes: undefined when `bit` is not below the width. -/
def machineShr (w a bit : Nat) : Res Nat :=
  if bit < 8 * w then .ok (a >>> bit) else .error .ub

/-- limitint::operator >>= (U_32), src/libdar/limitint.hpp:479-486. -/
def Lim.shr (w a bit : Nat) : Res Nat :=
  if bit ≥ w * 8 then .ok 0 else machineShr w a bit

/-- limitint::operator >>= (limitint), src/libdar/limitint.hpp:488-492: no guard on the amount. -/
def Lim.shrLim (w a bit : Nat) : Res Nat := machineShr w a bit

/-- limitint::operator <<= (U_32), src/libdar/limitint.hpp:494-500.  `bit + higher_power` is computed in
the wider of U_32 and B. -/
def Lim.shl (w a bit : Nat) : Res Nat :=
  if (bit + hp2 w a) % 256 ^ (max 4 w) ≥ w * 8 then .error .limitint else machineShl w a bit

/-- limitint::operator <<= (limitint), src/libdar/limitint.hpp:502-508: the sum is computed in B. -/
def Lim.shlLim (w a bit : Nat) : Res Nat :=
  if (bit + hp2 w a) % Lim.modulus w ≥ w * 8 then .error .limitint else machineShl w a bit

/-- limitint::limitint_from, src/libdar/limitint.hpp:533-539, from a machine integer of `tsize` bytes. -/
def Lim.ofMachine (w tsize a : Nat) : Res Nat :=
  if tsize ≤ w ∨ a ≤ Lim.modulus w - 1 then .ok (a % Lim.modulus w) else .error .limitint

/-- A target machine-integer type of `limitint_unstack_to`: its size in bytes and signedness. -/
structure MType where
  size : Nat
  signed : Bool
  deriving DecidableEq, Repr

/-- limitint::max_val_of / infinint::max_val_of, src/libdar/limitint.hpp:541-554. -/
def MType.max (t : MType) : Nat := if t.signed then 2 ^ (8 * t.size - 1) - 1 else 2 ^ (8 * t.size) - 1

/-- C++ conversion `(T)(x)` of an unsigned value to the type (modulo, two's complement). -/
def MType.cast (t : MType) (x : Nat) : Int :=
  let r := x % 2 ^ (8 * t.size)
  if t.signed ∧ r ≥ 2 ^ (8 * t.size - 1) then (r : Int) - 2 ^ (8 * t.size) else r

/-- limitint::limitint_unstack_to, src/libdar/limitint.hpp:556-575.  Returns (new field, new target).
`a` is the initial value of the target, assumed non-negative and at most `t.max`. -/
def Lim.unstack (w : Nat) (t : MType) (field a : Nat) : Nat × Nat :=
  let step := t.max - a
  if field < step % Lim.modulus w ∧ t.cast field < (step : Int) then (0, a + field)
  else (((field : Int) - (step : Int)).emod (Lim.modulus w) |>.toNat, t.max)

/-- limitint::get_storage_size, src/libdar/limitint.hpp:577-589 (bound `n` on the loop steps). -/
def Lim.storageSize : Nat → Nat → Nat
  | 0, _ => 0
  | n + 1, tmp => if tmp = 0 then 0 else Lim.storageSize n (tmp >>> 8) + 1

/-- limitint::operator [], src/libdar/limitint.hpp:591-603: byte at `position`, little endian order. -/
def Lim.byteAt (a : Nat) : Nat → UInt8
  | 0 => UInt8.ofNat (a &&& 0xFF)
  | n + 1 => Lim.byteAt (a >>> 8) n

/-- limitint::dump, src/libdar/limitint.hpp:314-406: bytes of the field, most significant first, leading
zero bytes skipped (one byte kept for zero), preceded by the same preamble as infinint::dump. -/
def Lim.dump (w field : Nat) : Bytes :=
  match stripZeros (beBytes w field) with
  | [] => dumpPreamble 1 ++ [0]
  | l => dumpPreamble l.length ++ l

/-- limitint::build_from_file, src/libdar/limitint.hpp:258-311.
The number of bytes obtained by `x.read(ptr, skip.field)` (l.299) is *not* checked by the code: missing
bytes keep the value 0 given at l.298, then the area of `skip.field` bytes is byte-swapped (little
endian, l.303-304) or shifted (big endian, l.306); in both cases the bytes read are the most
significant ones.  Simplification: overflow of the zero-byte counter `skip` itself (2^28 zero bytes
or more) is not modelled; past that point the size test fails as well. -/
def Lim.read (w : Nat) : Reader Nat := fun s => do
  let (n, s) ← readPreamble 0 s
  if n > w then .error .limitint
  else
    let got := s.take n
    .ok (beVal (got ++ List.replicate (n - got.length) 0), s.drop n)
where
  /-- value of bytes, most significant first -/
  beVal (l : Bytes) : Nat := l.foldl (fun acc b => acc * 256 + b.toNat) 0


end Dar
