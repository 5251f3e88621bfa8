import Verif.Model.Xform
namespace Dar

/-- the number of bytes of the header of the first slice -/
def headLen (iname dname : Bytes) (old : Bool) (dst : XDst) : Nat := ((newHdr iname dname old dst).out true flagAtEnd).length
/-- there is room in the slices for their headers, the flag at the end of a slice and at least one byte of data -/
def Room (iname dname : Bytes) (old : Bool) : XDst → Prop
  | .single => True
  | .slices first other => headLen iname dname old (.slices first other) < first ∧ (if old then 16 < other else headLen iname dname old (.slices first other) + 1 < other)
/-- the sizes of the files are those asked for: one file, or a first file of `first` bytes and others of `other` bytes, the last one possibly smaller -/
def Sized : XDst → List Bytes → Prop
  | .single, files => files.length = 1
  | .slices first other, files => ∀ (i : Nat) f, files[i]? = some f →
      f.length ≤ (if i = 0 then first else other) ∧ (i + 1 < files.length → f.length = (if i = 0 then first else other))

end Dar
