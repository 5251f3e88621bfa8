import Verif.Model.SliceCreate
/- What is expected of the creation of the files of an archive. -/
namespace Dar

/-- the name of a file of an archive: a slice, whatever its number and the way it is written, or the hash file of a slice -/
def ArchiveFile (o : SlOpts) (n : Bytes) : Prop :=
  ∃ digits : Bytes, digits ≠ [] ∧ (∀ c ∈ digits, 48 ≤ c ∧ c ≤ 57) ∧
    (n = o.base ++ [46] ++ digits ++ [46] ++ o.ext ∨ ∃ h, (h ∈ maskHashes ∨ o.hash = some h) ∧ n = o.base ++ [46] ++ digits ++ [46] ++ o.ext ++ [46] ++ h)
/-- the user has agreed to the loss of the file `n`: all the old slices may be removed, or this slice (or the slice it is the hash of) may be overwritten -/
def Agreed (o : SlOpts) (n : Bytes) (yes : List SlAsk) : Prop :=
  SlAsk.removeOld ∈ yes ∨ ∃ name, SlAsk.overwrite name ∈ yes ∧ (n = name ∨ ∃ h, o.hash = some h ∧ n = hashName name h)

end Dar
