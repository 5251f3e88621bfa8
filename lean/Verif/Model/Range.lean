import Verif.Model.Deci
/- Model of src/libdar/range.{hpp,cpp}. -/
namespace Dar

/-- src/libdar/range.hpp:81-112, class range::segment. -/
structure Seg where
  low : Nat
  high : Nat
  deriving DecidableEq, Repr

/-- src/libdar/range.hpp:94-95, `operator <` and `operator >`. -/
def Seg.lt (a b : Seg) : Bool := a.high + 1 < b.low
def Seg.gt (a b : Seg) : Bool := b.lt a
/-- src/libdar/range.hpp:90 -/
def Seg.overlaps (a b : Seg) : Bool := !(b.lt a) && !(b.gt a)
/-- src/libdar/range.hpp:100-102 -/
def Seg.le (a b : Seg) : Bool := b.low < a.low && a.low ≤ b.high + 1 && b.high < a.high
def Seg.ge (a b : Seg) : Bool := b.le a
def Seg.contains (a b : Seg) : Bool := a.low ≤ b.low && b.high ≤ a.high

/-- src/libdar/range.cpp:99-113 `merge_with` -/
def Seg.merge (a b : Seg) : Res Seg :=
  if a.le b then .ok { a with low := b.low }
  else if a.ge b then .ok { a with high := b.high }
  else if a.contains b then .ok a
  else if b.contains a then .ok b
  else .error .bug

/-- src/libdar/range.cpp:37-66, one round of the loop of `operator +=`: adding segment `r` to the list. -/
def rangeAdd (parts : List Seg) (r : Seg) : Res (List Seg) :=
  match parts with
  | [] => .ok [r]
  | it :: rest =>
    if it.lt r then
      match rangeAdd rest r with
      | .error e => .error e
      | .ok l => .ok (it :: l)
    else if r.lt it then .ok (r :: it :: rest)
    else if !it.overlaps r then .error .bug
    else match it.merge r with
      | .error e => .error e
      | .ok m =>
        match rest with
        | [] => .ok [m]
        | next :: rest' =>
          if m.overlaps next then
            match m.merge next with
            | .error e => .error e
            | .ok m' => .ok (m' :: rest')
          else .ok (m :: next :: rest')

/-- src/libdar/range.cpp:31-69 `operator +=`. -/
def rangeAddAll (parts : List Seg) (ref : List Seg) : Res (List Seg) :=
  ref.foldlM rangeAdd parts

/-- src/libdar/range.cpp:115-131 `segment::display`, as characters. -/
def Seg.display (s : Seg) : Res Bytes :=
  match deciHuman (deciOfNat s.low) with
  | .error e => .error e
  | .ok l =>
    if s.low = s.high then .ok l
    else match deciHuman (deciOfNat s.high) with
      | .error e => .error e
      | .ok h => .ok (l ++ [45] ++ h)

/-- src/libdar/range.cpp:71-88 `range::display`: the segments separated by commas. -/
def rangeDisplay : List Seg → Res Bytes
  | [] => .ok []
  | [s] => s.display
  | s :: t => do
    let a ← s.display
    let b ← rangeDisplay t
    .ok (a ++ [44] ++ b)

end Dar
