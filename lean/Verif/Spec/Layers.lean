import Verif.Model.Layers
import Verif.Spec.Marks
import Verif.Props.BlockComp
/- Specification for the stack of layers: what each operation becomes at the level of the marks. -/
namespace Dar

attribute [local instance] escNormal

/-- What the data of an item is stored as: compressed in blocks when a compression is used and the item is to be compressed. -/
def itemBytes (z : Option (Codec × Nat)) (stored : Bool) (d : Bytes) : Bytes :=
  match z, stored with
  | some (c, B), false => zipItem c B d
  | _, _ => d

/-- What the mark layer is asked for an operation; without mark layer only the items are written. -/
def lowOp (z : Option (Codec × Nat)) (marks : Bool) : ArcOp → List EscOp
  | .mark t => if marks then [.mark t] else []
  | .direct b => if marks then [.write b] else []
  | .item stored l => [.write (itemBytes z stored l.flatten)]

/-- The same for a list of operations. -/
def lowOps (z : Option (Codec × Nat)) (marks : Bool) (ops : List ArcOp) : List EscOp := (ops.map (lowOp z marks)).flatten

/-- The data written since the last mark (`acc` is what was already there). -/
def sinceMark : Bytes → List EscOp → Bytes
  | acc, [] => acc
  | acc, .write a :: l => sinceMark (acc ++ a) l
  | _, .mark _ :: l => sinceMark [] l
  | acc, .sync :: l => sinceMark acc l

/-- The data written before the next mark. -/
def untilMark : List EscOp → Bytes
  | [] => []
  | .write a :: l => a ++ untilMark l
  | .mark _ :: _ => []
  | .sync :: l => untilMark l

/-- No occurrence of the escape pattern starts in the bytes of `before` in `before ++ after`. -/
def NoPatternIn (before after : Bytes) : Prop := ∀ k, k < before.length → ¬ escPattern <+: (before ++ after).drop k

end Dar
