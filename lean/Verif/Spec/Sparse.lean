import Verif.Model.Sparse
import Verif.Spec.Marks
/- What the stored form of a file with holes stands for, independently of the algorithms: data, then holes, each followed by
its own data. -/
namespace Dar

/-- the file content described by some data and a list of (length of a hole, data that follows it) -/
def spContent (d : Bytes) (hs : List (Nat × Bytes)) : Bytes := d ++ hs.flatMap fun h => List.replicate h.1 0 ++ h.2

/-- how the holes are stored: a mark, the length of the hole, the data that follows -/
def spStream (hs : List (Nat × Bytes)) : List (SeqT × Bytes) := hs.map fun h => (.file, putInt h.1 ++ h.2)

end Dar
