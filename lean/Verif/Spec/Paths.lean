import Verif.Model.Basic
/- Specification vocabulary for paths: what a normal form is. -/
namespace Dar

/-- An ordinary file name: not empty, no slash, neither "." nor "..". -/
def isName (d : Bytes) : Prop := d ≠ [] ∧ (47 : UInt8) ∉ d ∧ d ≠ [46] ∧ d ≠ [46, 46]

/-- The first component of a URL-like path: a word without slash, then ":/" (as in "ftp://host/dir"). -/
def isUrlHead (d : Bytes) : Prop := ∃ w : Bytes, (47 : UInt8) ∉ w ∧ d = w ++ [58, 47]

/-- Normal form of the components of a path: some "..", then names; the first component may be a URL head; the
relative path with no component is written ".". -/
def normalForm (relative : Bool) (dirs : List Bytes) : Prop :=
  (relative = true ∧ dirs = [[46]]) ∨
  ((relative = true → dirs ≠ []) ∧ ∃ k names, dirs = List.replicate k [46, 46] ++ names ∧ (∀ d ∈ names, isName d)) ∨
  ∃ u names, isUrlHead u ∧ dirs = u :: names ∧ ∀ d ∈ names, isName d

end Dar
