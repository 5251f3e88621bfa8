import Verif.Model.Infinint
/- Model of src/libdar/tlv.{hpp,cpp} and tlv_list.{hpp,cpp}: typed records. -/
namespace Dar

/-- class tlv, src/libdar/tlv.hpp:41-66: the type (U_16) and the content of the memory_file it derives from. -/
structure Tlv where
  type : Nat
  value : Bytes
  deriving DecidableEq, Repr

/-- tlv::dump, src/libdar/tlv.cpp:36-48: htons(type), size, content. -/
def Tlv.dump (t : Tlv) : Bytes :=
  [UInt8.ofNat (t.type / 256), UInt8.ofNat (t.type % 256)] ++ putInt t.value.length ++ t.value

/-- tlv::init, src/libdar/tlv.cpp:55-65.  The number of bytes obtained for the type is not checked, but when fewer than two
bytes remain the reading of the length raises Erange, as `readExact` does. -/
def tlvRead : Reader Tlv := do
  let t ← readExact 2
  let n ← getInt
  let v ← readExact n
  pure ⟨(t.getD 0 0).toNat * 256 + (t.getD 1 0).toNat, v⟩

/-- tlv_list::dump, src/libdar/tlv_list.cpp:30-42 -/
def tlvsDump (l : List Tlv) : Bytes := putInt l.length ++ l.flatMap Tlv.dump

/-- reading `n` records one after the other, src/libdar/tlv_list.cpp:63-67 -/
def tlvReadN : Nat → Reader (List Tlv)
  | 0 => pure []
  | n + 1 => do
    let t ← tlvRead
    let l ← tlvReadN n
    pure (t :: l)

/-- tlv_list::init, src/libdar/tlv_list.cpp:56-68 -/
def tlvsRead : Reader (List Tlv) := do
  let n ← getInt
  tlvReadN n

/-- tlv_list::operator[], src/libdar/tlv_list.cpp:44-54: the test is `item > size`, so that `item = size` reaches
std::deque::operator[] out of its range (undefined behaviour). -/
def tlvsAt (l : List Tlv) (item : Nat) : Res Tlv :=
  if item > l.length then .error .range
  else match l[item]? with
    | some t => .ok t
    | none => .error .ub

end Dar
