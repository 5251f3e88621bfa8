import Verif.Model.Basic
/-
Model of class `deci` (decimal text of integers), src/libdar/deci.{hpp,cpp}.
A `deci` is a storage of bytes holding two decimal digits each (nibbles), the nibble 0xF meaning
"no digit".  Infinints are represented by their value (the exactness of infinint arithmetic used here
is C02).  Characters are bytes.
-/
namespace Dar

/-- get_left, src/libdar/deci.cpp:38. -/
def getLeft (a : UInt8) : UInt8 := (a &&& (0xF0 : UInt8)) >>> (4 : UInt8)
/-- get_right, src/libdar/deci.cpp:39. -/
def getRight (a : UInt8) : UInt8 := a &&& 0x0F
/-- set_left, src/libdar/deci.cpp:40. -/
def setLeft (a val : UInt8) : UInt8 := (a &&& (0x0F : UInt8)) ||| (val <<< (4 : UInt8))
/-- set_right, src/libdar/deci.cpp:41. -/
def setRight (a val : UInt8) : UInt8 := (a &&& 0xF0) ||| (val &&& 0x0F)

/-- digit_htoc, src/libdar/deci.cpp:43-48. -/
def digitHtoc (c : UInt8) : Res UInt8 := if c < 48 ∨ c > 57 then .error .deci else .ok (c - 48)

/-- digit_ctoh, src/libdar/deci.cpp:50-54. -/
def digitCtoh (c : UInt8) : Res UInt8 := if c > 9 then .error .bug else .ok (48 + c)

/-- `PAS`, src/libdar/deci.cpp:37. -/
def PAS : Nat := 5

/-- The loop of decicoupe, src/libdar/deci.cpp:77-100.  `free` is the number of bytes of the storage
still unwritten in front (all 0xFF), `done` the bytes already written.  When no free byte remains,
PAS bytes are inserted at the beginning (l.90-94). -/
def decicoupeLoop (x : Nat) (recule : Bool) (tmp : UInt8) (free : Nat) (done : Bytes) : Bytes :=
  if 0 < x ∨ recule = true then
    let r : UInt8 := if 0 < x then UInt8.ofNat (x % 10) else 0xF
    let x' := if 0 < x then x / 10 else x
    if recule = true then
      let tmp := setLeft tmp r
      let free := if free = 0 then PAS else free
      decicoupeLoop x' false tmp (free - 1) (tmp :: done)
    else decicoupeLoop x' true (setRight tmp r) free done
  else List.replicate free 0xFF ++ done
termination_by 2 * x + (if recule then 1 else 0)
decreasing_by
  all_goals (rename_i h; simp_all; try split) <;> omega

/-- decicoupe, src/libdar/deci.cpp:56-113. -/
def decicoupe (x : Nat) : Bytes := decicoupeLoop x false 0 PAS []

/-- The loop of deci::reduce, src/libdar/deci.cpp:218-253: replaces leading zero digits by 0xF until a
non-zero digit is met; returns the bytes and the number of bytes without any digit in front. -/
def deciReduceLoop : Bytes → Bytes × Nat
  | [] => ([], 0)
  | b :: l =>
      let left := getLeft b
      let b := if left = 0 then setLeft b 0xF else b
      if left ≠ 0 ∧ left ≠ 0xF then (b :: l, 0)
      else
        let right := getRight b
        let b := if right = 0 then setRight b 0xF else b
        if right ≠ 0 ∧ right ≠ 0xF then (b :: l, 0)
        else
          let (l', j) := deciReduceLoop l
          (b :: l', j + 1)

/-- deci::reduce, src/libdar/deci.cpp:207-263. -/
def deciReduce (l : Bytes) : Bytes :=
  let (l', j) := deciReduceLoop l
  if j = l'.length then (l'.dropLast ++ [0xF0]).drop (j - 1)
  else l'.drop j

/-- deci::deci(const infinint &), src/libdar/deci.cpp:172-185. -/
def deciOfNat (x : Nat) : Bytes := deciReduce (decicoupe x)

/-- The loop of deci::deci(string), src/libdar/deci.cpp:140-158, on the reversed text, two characters
per turn; yields the storage bytes, last one first.  (The storage has exactly one byte per pair, so
the SRC_BUG of l.148 cannot happen; it is not modelled.) -/
def deciTextLoop : Bytes → Res Bytes
  | [] => .ok []
  | [c] => do
      let d ← digitHtoc c
      .ok [setLeft (setRight 0xFF d) 0xF]
  | c1 :: c2 :: rest => do
      let d1 ← digitHtoc c1
      let d2 ← digitHtoc c2
      let l ← deciTextLoop rest
      .ok (setLeft (setRight 0xFF d1) d2 :: l)

/-- deci::deci(string), src/libdar/deci.cpp:115-170. -/
def deciOfText (s : Bytes) : Res Bytes :=
  if s.length = 0 then .error .range
  else do
    let l ← deciTextLoop s.reverse
    .ok (deciReduce l.reverse)

/-- The digits of a storage in order (both loops of human() and computer() visit the left then the right
nibble of each byte and skip 0xF), src/libdar/deci.cpp:272-286, 298-315. -/
def deciDigits (l : Bytes) : List UInt8 := (l.flatMap fun b => [getLeft b, getRight b]).filter (· ≠ 0xF)

/-- deci::human, src/libdar/deci.cpp:265-289. -/
def deciHuman (l : Bytes) : Res Bytes := (deciDigits l).mapM digitCtoh

/-- deci::computer, src/libdar/deci.cpp:291-318. -/
def deciComputer (l : Bytes) : Nat := (deciDigits l).foldl (fun r c => r * 10 + c.toNat) 0

end Dar
