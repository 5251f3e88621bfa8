import Verif.Model.Basic
/- Specification of the checksum: byte `i` of the checksum of width `w` is the exclusive or of all the data
bytes whose position in the stream is congruent to `i` modulo `w`. -/
namespace Dar

/-- Xor of the bytes of `data` (the first one being at position `off` of the stream) whose position is
`i` modulo `w`. -/
def crcByte (w i : Nat) : Nat → Bytes → UInt8
  | _, [] => 0
  | off, b :: l => (if off % w = i then b else 0) ^^^ crcByte w i (off + 1) l

/-- The checksum of width `w` of a data stream. -/
def crcSpec (w : Nat) (data : Bytes) : Bytes := (List.range w).map fun i => crcByte w i 0 data

end Dar
