import Verif.Spec.Decimal
/- Specification vocabulary for sets of numbers and their text form. -/
namespace Dar

/-- Cutting a text at every occurrence of a character. -/
def cutAt (sep : UInt8) : Bytes → List Bytes
  | [] => [[]]
  | c :: t =>
    if c = sep then [] :: cutAt sep t
    else match cutAt sep t with
      | [] => [[c]]
      | w :: ws => (c :: w) :: ws

/-- `x` is among the numbers denoted by the text: items separated by commas, an item being a number or
two numbers separated by a dash (first and last of an interval); the empty text denotes no number. -/
def textDenotes (t : Bytes) (x : Nat) : Prop :=
  t ≠ [] ∧ ∃ item ∈ cutAt 44 t,
    (∃ a, cutAt 45 item = [a] ∧ x = decVal a) ∨
    (∃ a b, cutAt 45 item = [a, b] ∧ decVal a ≤ x ∧ x ≤ decVal b)

end Dar
