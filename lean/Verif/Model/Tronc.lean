import Verif.Model.Flat
/- Model of src/libdar/tronc.cpp over an ordinary file. -/
namespace Dar

/-- class tronc, src/libdar/tronc.hpp:108-117; `check` is check_pos -/
structure Tronc where
  ref : Flat
  start : Nat
  sz : Nat
  current : Nat
  limited : Bool
  check : Bool
  deriving DecidableEq, Repr

/-- tronc::tronc with a size, src/libdar/tronc.cpp:48-68 -/
def troncNew (ref : Flat) (start size : Nat) : Tronc := ⟨ref, start, size, size, true, true⟩
/-- tronc::tronc without size, src/libdar/tronc.cpp:70-90 -/
def troncOpen (ref : Flat) (start : Nat) : Tronc := ⟨ref, start, 0, 0, false, true⟩

/-- tronc::modify(offset), src/libdar/tronc.cpp:101-110 -/
def Tronc.modifyOpen (t : Tronc) (start : Nat) : Tronc :=
  { t with start := start, current := if t.current + t.start ≤ start then 0 else t.current + t.start - start, limited := false }
/-- tronc::modify(offset, size), src/libdar/tronc.cpp:92-99 -/
def Tronc.modify (t : Tronc) (start size : Nat) : Tronc :=
  let t := t.modifyOpen start
  { t with sz := size, limited := true, current := if t.current > size then size else t.current }

/-- tronc::skip, src/libdar/tronc.cpp:122-146; an ordinary file can be positioned anywhere -/
def Tronc.skip (t : Tronc) (p : Nat) : Tronc × Bool :=
  if t.current = p ∧ t.check then (t, true)
  else if t.limited ∧ p > t.sz then ({ t with ref := t.ref.skip (t.start + t.sz), current := t.sz }, false)
  else ({ t with ref := t.ref.skip (t.start + p), current := p }, true)

/-- tronc::set_back_current_position, src/libdar/tronc.cpp:325-345 -/
def Tronc.setBack (t : Tronc) : Res Tronc :=
  if t.ref.pos < t.start then .error .bug
  else if t.limited ∧ t.ref.pos > t.start + t.sz then .error .bug
  else .ok { t with current := t.ref.pos - t.start }

/-- tronc::skip_to_eof, src/libdar/tronc.cpp:148-173 -/
def Tronc.skipEof (t : Tronc) : Res Tronc :=
  if t.limited then .ok { t with ref := t.ref.skip (t.start + t.sz), current := t.sz }
  else Tronc.setBack { t with ref := t.ref.skipEof }

/-- tronc::skip_relative, src/libdar/tronc.cpp:175-218 -/
def Tronc.skipRel (t : Tronc) (x : Int) : Tronc × Bool :=
  if x < 0 then
    if t.current < x.natAbs then ({ t with ref := t.ref.skip t.start, current := 0 }, false)
    else
      if (t.ref.skipRel x).2 then ({ t with ref := (t.ref.skipRel x).1, current := t.current - x.natAbs }, true)
      else ({ t with ref := (t.ref.skipRel x).1.skip (t.start + t.current) }, false)
  else if x > 0 then
    if t.limited ∧ t.current + x.natAbs ≥ t.sz then ({ t with ref := t.ref.skip (t.start + t.sz), current := t.sz }, false)
    else
      if (t.ref.skipRel x).2 then ({ t with ref := (t.ref.skipRel x).1, current := t.current + x.natAbs }, true)
      else ({ t with ref := (t.ref.skipRel x).1.skip (t.start + t.current) }, false)
  else (t, true)

/-- infinint::unstack into a U_32: moves as much as fits from `avail` to `mac` -/
def unstack32 (avail mac : Nat) : Nat × Nat :=
  let m := min avail (2 ^ 32 - 1 - mac)
  (avail - m, mac + m)

/-- the position check before reading or writing, src/libdar/tronc.cpp:243-247 and 286-290 -/
def Tronc.sync (t : Tronc) : Flat := if t.check then t.ref.skip (t.start + t.current) else t.ref

/-- micro_pas, src/libdar/tronc.cpp:258 and 302 -/
def troncMicro (left mac : Nat) : Nat := if left > mac then mac else left

/-- loop of tronc::inherited_read, src/libdar/tronc.cpp:255-271 -/
def troncReadLoop (ref : Flat) (avail mac : Nat) (want : Nat) (got : Bytes) : Nat → Flat × Bytes
  | 0 => (ref, got)
  | fuel + 1 =>
    let am := unstack32 avail mac
    let micro := troncMicro (want - got.length) am.2
    if micro > 0 then
      let r := ref.read micro
      if r.2.length > 0 then troncReadLoop r.1 am.1 (am.2 - r.2.length) want (got ++ r.2) fuel
      else (r.1, got)
    else (ref, got)

/-- tronc::inherited_read, src/libdar/tronc.cpp:238-280 -/
def Tronc.read (t : Tronc) (n : Nat) : Tronc × Bytes :=
  let r := if t.limited then troncReadLoop t.sync (t.sz - t.current) 0 n [] (n + 1) else t.sync.read n
  ({ t with ref := r.1, current := t.current + r.2.length }, r.2)

/-- loop of tronc::inherited_write, src/libdar/tronc.cpp:297-307; the boolean is false when Erange is raised -/
def troncWriteLoop (ref : Flat) (avail mac : Nat) (b : Bytes) : Nat → Flat × Bool
  | 0 => (ref, true)
  | fuel + 1 =>
    let am := unstack32 avail mac
    if am.2 = 0 ∧ 0 < b.length then (ref, false)
    else
      let micro := troncMicro b.length am.2
      let ref := ref.write (b.take micro)
      if 0 < (b.drop micro).length then troncWriteLoop ref am.1 (am.2 - micro) (b.drop micro) fuel
      else (ref, true)

/-- tronc::inherited_write, src/libdar/tronc.cpp:282-316; the boolean is false when Erange is raised, the position is
then left as it was but the data which fit in have been written -/
def Tronc.write (t : Tronc) (b : Bytes) : Tronc × Bool :=
  if t.limited then
    let r := troncWriteLoop t.sync (t.sz - t.current) 0 b (b.length + 1)
    if r.2 then ({ t with ref := r.1, current := t.current + b.length }, true) else ({ t with ref := r.1 }, false)
  else ({ t with ref := t.sync.write b, current := t.current + b.length }, true)

/-- tronc::inherited_truncate, src/libdar/tronc.cpp:318-330 -/
def Tronc.truncate (t : Tronc) (p : Nat) : Res Tronc :=
  Tronc.setBack (if t.limited then (if p < t.sz then { t with ref := t.ref.truncate (t.start + p) } else t)
    else { t with ref := t.ref.truncate (t.start + p) })

end Dar
