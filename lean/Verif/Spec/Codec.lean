import Verif.Model.Flat
/- Specification for block compression. -/
namespace Dar

/-- A block codec as the layer uses it (src/libdar/compress_module.hpp:38-90): compression of a block, decompression, size of
the buffer needed for the compression of a block of a given size. -/
structure Codec where
  zip : Bytes → Bytes
  unzip : Bytes → Res Bytes
  room : Nat → Nat

/-- The law: blocks of at most `B` bytes are restored, their compressed form is not empty and fits in the buffer, whose size is
a machine integer. -/
structure Codec.Lawful (c : Codec) (B : Nat) : Prop where
  inv : ∀ x, x ≠ [] → x.length ≤ B → c.unzip (c.zip x) = .ok x
  some : ∀ x, x ≠ [] → x.length ≤ B → c.zip x ≠ []
  fits : ∀ x, x ≠ [] → x.length ≤ B → (c.zip x).length ≤ c.room B
  u64 : c.room B < 2 ^ 64

/-- Successive reads of a plain file holding `d`, from position `pos`. -/
def plainReads (d : Bytes) (pos : Nat) : List Nat → List Bytes
  | [] => []
  | n :: l => (d.drop pos).take n :: plainReads d (pos + ((d.drop pos).take n).length) l

end Dar
