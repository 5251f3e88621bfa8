import Verif.Model.Infinint
import Verif.Model.ArchiveVersion
import Verif.Lemmas.Reader
/- Model of src/libdar/datetime.{hpp,cpp} and of tools_is_equal_with_hourshift.  infinint values are natural numbers
(their exactness is C02). -/
namespace Dar

/-- src/libdar/datetime.hpp:62, in increasing order. -/
inductive TimeUnit where | ns | us | s
  deriving DecidableEq, Repr

/-- The enumeration values, used by `<` on units. -/
def TimeUnit.idx : TimeUnit → Nat | .ns => 0 | .us => 1 | .s => 2

/-- src/libdar/datetime.hpp:155-156 -/
structure DateT where
  val : Nat
  uni : TimeUnit
  deriving DecidableEq, Repr

/-- src/libdar/datetime.cpp:437-467 get_scaling_factor -/
def scaling (source dest : TimeUnit) : Res Nat :=
  if dest.idx > source.idx then .error .bug
  else match source, dest with
  | .s, .s => .ok 1
  | .s, .us => .ok 1000000
  | .s, .ns => .ok 1000000000
  | .us, .us => .ok 1
  | .us, .ns => .ok 1000
  | .ns, .ns => .ok 1
  | _, _ => .error .bug

/-- src/libdar/datetime.cpp:51-76 operator < -/
def DateT.lt (d r : DateT) : Res Bool :=
  if d.uni.idx ≤ r.uni.idx ∧ d.val < r.val then .ok true
  else if d.uni.idx < r.uni.idx then do
    let f ← scaling r.uni d.uni
    .ok (decide (d.val / f < r.val))
  else if d.uni = r.uni then .ok (decide (d.val < r.val))
  else do
    let f ← scaling d.uni r.uni
    .ok (decide ((d.val = r.val / f ∧ r.val % f ≠ 0) ∨ d.val < r.val / f))

/-- src/libdar/datetime.hpp:91, datetime.hpp:90 -/
def DateT.ge (d r : DateT) : Res Bool := (d.lt r).map (!·)
def DateT.gt (d r : DateT) : Res Bool := r.lt d
def DateT.le (d r : DateT) : Res Bool := r.ge d

/-- src/libdar/datetime.cpp:78-82 operator == -/
def DateT.eq (d r : DateT) : Bool := d.uni = r.uni ∧ d.val = r.val

/-- src/libdar/datetime.cpp:207-253 reduce_to_largest_unit -/
def DateT.reduceUs (d : DateT) : DateT :=
  if d.val % 1000000 ≠ 0 then d else ⟨d.val / 1000000, .s⟩
def DateT.reduce (d : DateT) : DateT :=
  if d.val = 0 then ⟨0, .s⟩
  else match d.uni with
  | .ns => if d.val % 1000 ≠ 0 then d else DateT.reduceUs ⟨d.val / 1000, .us⟩
  | .us => d.reduceUs
  | .s => d

/-- src/libdar/datetime.cpp:84-107 operator -= -/
def DateT.sub (d r : DateT) : Res DateT := do
  let d ← (if r.uni.idx < d.uni.idx then do
      let f ← scaling d.uni r.uni
      .ok (⟨d.val * f, r.uni⟩ : DateT)
    else .ok d)
  if r.uni = d.uni then
    if d.val < r.val then .error .bug else .ok (DateT.reduce ⟨d.val - r.val, d.uni⟩)
  else do
    let f ← scaling r.uni d.uni
    if r.val * f > d.val then .error .bug else .ok (DateT.reduce ⟨d.val - r.val * f, d.uni⟩)

/-- src/libdar/datetime.cpp:109-126 operator += -/
def DateT.add (d r : DateT) : Res DateT := do
  let d ← (if r.uni.idx < d.uni.idx then do
      let f ← scaling d.uni r.uni
      .ok (⟨d.val * f, r.uni⟩ : DateT)
    else .ok d)
  if r.uni = d.uni then .ok (DateT.reduce ⟨d.val + r.val, d.uni⟩)
  else do
    let f ← scaling r.uni d.uni
    .ok (DateT.reduce ⟨d.val + r.val * f, d.uni⟩)

/-- src/libdar/datetime.cpp:411-417 max -/
def unitMax (a b : TimeUnit) : TimeUnit := if a.idx < b.idx then b else a

/-- value expressed in a unit not smaller (src/libdar/datetime.cpp:137-145, 169-177) -/
def DateT.inUnit (d : DateT) (u : TimeUnit) : Res Nat :=
  if d.uni.idx < u.idx then do
    let f ← scaling u d.uni
    .ok (d.val / f)
  else .ok d.val

/-- src/libdar/datetime.cpp:128-149 loose_equal -/
def DateT.looseEqual (d r : DateT) : Res Bool :=
  if d.uni = r.uni then .ok (decide (d.val = r.val))
  else do
    let v1 ← d.inUnit (unitMax d.uni r.uni)
    let v2 ← r.inUnit (unitMax d.uni r.uni)
    .ok (decide (v1 = v2))

/-- src/libdar/datetime.cpp:151-184 loose_diff; `capa` is the accuracy of the system, fixed at compilation. -/
def DateT.looseDiff (capa : TimeUnit) (d r : DateT) : Res DateT := do
  let u := unitMax d.uni r.uni
  let u := if u.idx < capa.idx then capa else u
  let v ← d.inUnit u
  let aux ← r.inUnit u
  if v < aux then .error .bug else .ok (DateT.reduce ⟨v - aux, u⟩)

/-- src/libdar/datetime.cpp:255-262 get_value -/
def DateT.getValue (d : DateT) (unit : TimeUnit) : Res (Nat × Nat) := do
  let f ← scaling .s d.uni
  let sub := d.val % f
  let sub ← (if unit.idx < d.uni.idx then do
      let g ← scaling d.uni unit
      .ok (sub * g)
    else .ok sub)
  let sub ← (if unit.idx > d.uni.idx then do
      let g ← scaling unit d.uni
      .ok (sub / g)
    else .ok sub)
  .ok (d.val / f, sub)

/-- src/libdar/datetime.cpp:264-309 build; `fits` tells the values the integer type can hold (all for infinint; under
2^32 or 2^64 in the bounded builds, where the multiplication or the addition throws Elimitint). -/
def dateBuildSec (sec : Nat) : DateT := DateT.reduce ⟨sec, .s⟩
def dateBuildUs (fits : Nat → Bool) (sec sub : Nat) : DateT :=
  if fits (sec * 1000000) ∧ fits (sec * 1000000 + sub) then DateT.reduce ⟨sec * 1000000 + sub, .us⟩
  else dateBuildSec sec
def dateBuild (fits : Nat → Bool) (sec sub : Nat) (unit : TimeUnit) : DateT :=
  match unit with
  | .s => dateBuildSec sec
  | .us => dateBuildUs fits sec sub
  | .ns =>
    if fits (sec * 1000000000) ∧ fits (sec * 1000000000 + sub) then DateT.reduce ⟨sec * 1000000000 + sub, .ns⟩
    else dateBuildUs fits sec (sub / 1000)

/-- src/libdar/datetime.cpp:419-431 time_unit_to_char, 433-446 char_to_time_unit -/
def unitToChar : TimeUnit → UInt8 | .ns => 110 | .us => 117 | .s => 115
def charToUnit (c : UInt8) : Res TimeUnit :=
  if c = 110 then .ok .ns else if c = 115 then .ok .s else if c = 117 then .ok .us else .error .range

/-- src/libdar/datetime.cpp:341-358 dump -/
def DateT.dump (d : DateT) : Res Bytes := do
  let (sec, sub) ← d.getValue d.uni
  .ok ([unitToChar d.uni] ++ putInt sec ++ (if d.uni.idx < TimeUnit.s.idx then putInt sub else []))

/-- src/libdar/datetime.cpp:360-382 read.  A missing unit character is reported as an error (the code does not check
the number of bytes read and would use an uninitialised character). -/
def dateRead (fits : Nat → Bool) (ver : ArchVer) : Reader DateT := do
  let u ← (if ver.lt ⟨9, 0⟩ then pure TimeUnit.s else do
      let c ← readByte
      match charToUnit c with
      | .error e => Reader.fail e
      | .ok u => pure u)
  let sec ← getInt
  let sub ← (if u.idx < TimeUnit.s.idx then getInt else pure 0)
  pure (dateBuild fits sec sub u)

/-- src/libdar/tools.cpp:726-749 tools_is_equal_with_hourshift -/
def equalHourshift (capa : TimeUnit) (hourshift : Nat) (d1 d2 : DateT) : Res Bool := do
  let g ← d1.gt d2
  let delta ← (if g then d1.looseDiff capa d2 else d2.looseDiff capa d1)
  if delta.val = 0 then .ok true
  else if delta.uni ≠ .s then .ok false
  else
    let (sec, _) ← delta.getValue delta.uni
    if sec % 3600 ≠ 0 then .ok false else .ok (decide (sec / 3600 ≤ hourshift))

end Dar
