import Verif.Model.Basic
/- Specification vocabulary for decimal text (independent of the model of class deci). -/
namespace Dar

/-- A character is a decimal digit. -/
def isDigitByte (c : UInt8) : Prop := 48 ≤ c.toNat ∧ c.toNat ≤ 57

/-- The number written in decimal by a text. -/
def decVal (s : Bytes) : Nat := s.foldl (fun acc c => acc * 10 + (c.toNat - 48)) 0

/-- The usual decimal text of a number: Lean's own `Nat.toDigits` as ASCII bytes. -/
def decText (n : Nat) : Bytes := (Nat.toDigits 10 n).map fun c => UInt8.ofNat c.toNat

end Dar
