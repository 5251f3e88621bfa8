import Verif.Lemmas.Reader
/- Model of src/libdar/archive_version.{hpp,cpp}. -/
namespace Dar

/-- src/libdar/archive_version.hpp:47-86: the two fields of the class. -/
structure ArchVer where
  version : UInt16
  fix : UInt8
  deriving DecidableEq, Repr

/-- src/libdar/archive_version.cpp:31, `EMPTY_VALUE`. -/
def emptyVersionValue : Nat := 48 * 256 + 48

/-- src/libdar/archive_version.cpp:44-53, the constructor. -/
def ArchVer.make (x : UInt16) (f : UInt8) : Res ArchVer :=
  if x.toNat > emptyVersionValue then .error .unsupported else .ok ⟨x, f⟩

/-- src/libdar/archive_version.cpp:39-42. -/
def emptyArchVer : Res ArchVer := ArchVer.make (UInt16.ofNat emptyVersionValue) 0

/-- src/libdar/archive_version.cpp:129-135 `to_digit` (unsigned char arithmetic). -/
def verToDigit (v : UInt8) : UInt8 := if v < 48 then v + 208 else v - 48

/-- src/libdar/archive_version.cpp:137-143 `to_char` (unsigned char arithmetic). -/
def verToChar (v : UInt8) : UInt8 := if v < 208 then v + 48 else v - 208

/-- src/libdar/archive_version.cpp:55-75 `dump`. -/
def ArchVer.dump (a : ArchVer) : Bytes :=
  let t0 := verToChar (UInt8.ofNat (a.version.toNat / 256))
  let t1 := verToChar (UInt8.ofNat (a.version.toNat % 256))
  let t2 := verToChar a.fix
  if a.version ≥ 8 then [t0, t1, t2, 0] else [t0, t1, 0]

/-- src/libdar/archive_version.cpp:90 `tmp[0]*256+tmp[1]` stored in a U_16. -/
def verOf (d0 d1 : UInt8) : UInt16 := UInt16.ofNat (d0.toNat * 256 + d1.toNat)

/-- src/libdar/archive_version.cpp:78-107 `read`, on an object holding `old` before the call (its `fix`
field is left as it was when the version read is below 8). -/
def ArchVer.read (old : ArchVer) : Reader ArchVer := do
  let t ← readExact 3
  let d0 := verToDigit (t.getD 0 0)
  let d1 := verToDigit (t.getD 1 0)
  let v := verOf d0 d1
  if v < 8 then
    if t.getD 2 0 ≠ 0 then Reader.fail .range else pure ⟨v, old.fix⟩
  else
    let c ← readByte
    if c ≠ 0 then Reader.fail .range else pure ⟨v, verToDigit (t.getD 2 0)⟩

/-- src/libdar/archive_version.hpp:82 `value()`. -/
def ArchVer.value (a : ArchVer) : Nat := a.version.toNat * 256 + a.fix.toNat

/-- src/libdar/archive_version.hpp:66-71, the comparison operators. -/
def ArchVer.lt (a b : ArchVer) : Bool := a.value < b.value
def ArchVer.ge (a b : ArchVer) : Bool := a.value ≥ b.value
def ArchVer.eq (a b : ArchVer) : Bool := a.value = b.value
def ArchVer.ne (a b : ArchVer) : Bool := a.value ≠ b.value
def ArchVer.gt (a b : ArchVer) : Bool := a.value > b.value
def ArchVer.le (a b : ArchVer) : Bool := a.value ≤ b.value

end Dar
