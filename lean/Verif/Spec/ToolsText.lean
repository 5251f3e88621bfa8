import Verif.Spec.Decimal
/- Specification vocabulary for size expressions, octal text and command substitution. -/
namespace Dar

/-- The documented unit letters (man page of dar, "-s"): each with the power of the base it stands for. -/
def unitTable : List (Char × Nat) :=
  [('k', 1), ('K', 1), ('M', 2), ('G', 3), ('T', 4), ('P', 5), ('E', 6), ('Z', 7), ('Y', 8), ('R', 9), ('Q', 10)]

/-- A character as a byte. -/
def chr (c : Char) : UInt8 := UInt8.ofNat c.toNat

/-- A text as bytes. -/
def txt (s : String) : Bytes := s.toList.map chr

/-- The number written in octal by a text of digits. -/
def octVal (s : Bytes) : Nat := s.foldl (fun acc c => acc * 8 + (c.toNat - 48)) 0

def isOctByte (c : UInt8) : Prop := 48 ≤ c.toNat ∧ c.toNat ≤ 55

/-- A user command line as a sequence of pieces. -/
inductive Piece where
  | lit (c : UInt8)       -- an ordinary character
  | mac (c : UInt8)     -- `%` followed by this character

/-- What the user typed for a piece. -/
def Piece.text : Piece → Bytes
  | .lit c => [c]
  | .mac c => [chr '%', c]

/-- What the piece stands for. -/
def Piece.value (corres : UInt8 → Option Bytes) : Piece → Option Bytes
  | .lit c => some [c]
  | .mac c => corres c

/-- Ordinary characters are not `%`. -/
def Piece.ok : Piece → Prop
  | .lit c => c ≠ chr '%'
  | .mac _ => True

end Dar
