import Verif.Model.Basic
/-
Specification vocabulary for integers: the number denoted by a big-endian byte string.
-/
namespace Dar

/-- The natural number written by `l` in base 256, most significant byte first. -/
def beVal (l : Bytes) : Nat := l.foldl (fun acc b => acc * 256 + b.toNat) 0

/-- The natural number written by `l` in base 256, least significant byte first. -/
def leVal : Bytes → Nat
  | [] => 0
  | b :: l => b.toNat + 256 * leVal l

end Dar
