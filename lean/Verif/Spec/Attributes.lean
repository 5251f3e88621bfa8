import Verif.Model.Attributes
import Verif.Props.Datetime
/- Specification of sets of attributes. -/
namespace Dar

/-- the value an extended attribute has after a sequence of assignments: that of the last one concerning it -/
def lastValue (l : List (Bytes × Bytes)) (k : Bytes) : Option Bytes := l.foldl (fun r p => if p.1 = k then some p.2 else r) none

/-- a set of filesystem specific attributes: at most one of each type, in increasing order of family then nature -/
def FsaSet (t : List Fsa) : Prop := t.Pairwise (fun a b => a.fam.idx < b.fam.idx ∨ (a.fam = b.fam ∧ a.nat.idx < b.nat.idx))
/-- the attributes have a same type -/
def SameType (a b : Fsa) : Prop := a.fam = b.fam ∧ a.nat = b.nat
/-- the creation date is a date (in canonical form, see C22), the others are booleans -/
def Fsa.Typed (x : Fsa) : Prop :=
  match x.val with
  | .bool _ => x.nat ≠ .creationDate
  | .time d => x.nat = .creationDate ∧ d.Canonical

end Dar
