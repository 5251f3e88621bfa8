import Verif.Model.EaRestore
import Verif.Props.Attributes
/- What is expected of the restoration of extended attributes (C81), from the manual of dar (options -u and -U, and the overwriting policy). -/
namespace Dar.Eas
open Dar

/-- the value an attribute must have after the restoration of an entry over an existing file: `old` is the value before, `arch` the one the archive has -/
def wanted (removed : Bool) (covered : Bool) (arch old : Option Bytes) : OverEa → Option Bytes
  -- "the Attributes of the file in filesystem will not be changed"
  | .preserve => old
  | .preserveMark => old
  -- "the EA set of the file in filesystem will be removed and replaced by the EA entries of the file in archive" that are covered
  | .overwrite => if covered then arch else none
  | .overwriteMark => if covered then arch else none
  | .clear => none
  -- "the file in the filesystem will have its EA set enriched by the ones of the file in the archive that do not exist on filesystem, but its already existing
  -- Attributes will stay untouched"; the archive may also have recorded that the attributes were removed
  | .mergePreserve => if removed then none else old.or (if covered then arch else none)
  -- "enriched by ones of the file in the archive with some of them possibly been overwritten"
  | .mergeOverwrite => if removed then none else (if covered then arch else none).or old
  | .undefined => old
  | .ask => old

/-- the system accepts to set and to remove every attribute -/
def Cfg.Allows (c : Cfg) : Prop := ∀ k, c.setOk k = true ∧ c.delOk k = true

/-- the attributes of the inode have not been restored through another name -/
def FirstLink (w : W) (it : Item) : Prop := ∀ k, it.label = some k → ∀ q, w.seen k ≠ some (q, true)
/-- nor has its data -/
def NewLink (w : W) (it : Item) : Prop := ∀ k, it.label = some k → w.seen k = none

end Dar.Eas
