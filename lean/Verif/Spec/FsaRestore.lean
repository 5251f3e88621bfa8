import Verif.Model.FsaRestore
import Verif.Spec.Attributes
/- What is expected of the restoration of the flags of files (C86), from the manual of dar (option -4 and the overwriting policy). -/
namespace Dar.Ff
open Dar

/-- the value a set of attributes has for a flag, if any -/
def val (l : List Fsa) (n : FsaNat) : Option Bool :=
  if (⟨.extX, n, .bool true⟩ : Fsa) ∈ l then some true
  else if (⟨.extX, n, .bool false⟩ : Fsa) ∈ l then some false
  else none

/-- a set of attributes, with the values of the right type -/
def Good (l : List Fsa) : Prop := FsaSet l ∧ ∀ x ∈ l, x.Typed

/-- the value a flag must have after the restoration of an entry over an existing file: `old` the value before, `arch` the one of the archive -/
def wanted (arch : Option Bool) (old : Bool) : OverEa → Bool
  -- "the Attributes of the file in filesystem will not be changed"
  | .preserve => old
  | .preserveMark => old
  -- "replaced by those of the file in the archive"; a flag that the archive does not have stays
  | .overwrite => arch.getD old
  | .overwriteMark => arch.getD old
  -- "this action does not modify FSA at all in case of archive extraction"
  | .clear => old
  -- "its already existing Attributes will stay untouched": a file has all the flags, set or not
  | .mergePreserve => old
  -- "enriched by ones of the file in the archive with some of them possibly been overwritten"
  | .mergeOverwrite => arch.getD old
  | .undefined => old
  | .ask => old

/-- the system accepts everything -/
def Cfg.Allows (c : Cfg) : Prop := c.openOk = true ∧ c.plainOk = true ∧ c.immOk = true ∧ c.resOk = true

/-- the data of the file in place is not replaced: it is preserved, or there is nothing to replace it with, or only the inode is concerned -/
def Kept (it : Item) (d : OverData) : Prop := it.saved = false ∨ ((it.dir = true → it.same = true) ∧ (d = .preserve ∨ d = .preserveMark)) ∨
  ((it.dir = true ∨ it.inodeOnly = true) ∧ it.same = true ∧ (d = .overwrite ∨ d = .overwriteMark))

end Dar.Ff
