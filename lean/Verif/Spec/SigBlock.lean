import Verif.Model.SigBlock
/- Specification of the block size of delta signatures, from the manual page of dar (option --delta sig). -/
namespace Dar.Sb

/-- `v` is what the function gives for a file of this size: 1; the size; the number of its binary digits; a power of two close to its square root; a power of two
close to its cube root. -/
def FnValue (fn : Fn) (size v : Nat) : Prop := match fn with
  | .fixed => v = 1
  | .linear => v = size
  | .log2 => size < 2 ^ v ∧ (0 < v → 2 ^ v ≤ 2 * size)
  | .root2 => (∃ k, v = 2 ^ k) ∧ size < 2 * v ^ 2 ∧ v ^ 2 ≤ 2 * max size 1
  | .root3 => (∃ k, v = 2 ^ k) ∧ size < 4 * v ^ 3 ∧ v ^ 3 ≤ 2 * max size 1

/-- "If this calculated value is lower than min, it is set to min.  If the calculated value is greater than max it is set to max unless max is set to zero": from the value `x`, of at
most 64 bits, the size `n`. -/
structure Bounded (lo hi x n : Nat) : Prop where
  low : x < lo → n = lo
  high : lo ≤ x → hi ≠ 0 → hi < x → n = hi
  kept : lo ≤ x → (hi = 0 ∨ x ≤ hi) → n = x

/-- The formula of the manual: block_len = function(filesize)*multiplier/divisor, between min and max. -/
def BlockLen (s : Sig) (size n : Nat) : Prop := ∃ v, FnValue s.fn size v ∧ Bounded s.lo s.hi (min (v * s.mult / s.dvs) (2 ^ 64 - 1)) n

/-- The texts that name a function, the old names included. -/
def FnText (fn : Fn) (t : Bytes) : Prop := match fn with
  | .fixed => t = asc "fixed"
  | .linear => t = asc "linear"
  | .log2 => t = asc "log2"
  | .root2 => t = asc "root2" ∨ t = asc "square2"
  | .root3 => t = asc "root3" ∨ t = asc "square3"

/-- a field of the option: not empty, without ':' -/
def Field (t : Bytes) : Prop := t ≠ [] ∧ (58 : UInt8) ∉ t
/-- the fields behind one another, each after a ':' -/
def withColons : List Bytes → Bytes
  | [] => []
  | t :: l => 58 :: (t ++ withColons l)

end Dar.Sb
