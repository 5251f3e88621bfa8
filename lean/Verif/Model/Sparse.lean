import Verif.Model.Escape
import Verif.Model.Infinint
import Verif.Model.Flat
/- Files with holes: src/libdar/sparse_file.cpp. The layer inherits from `escape` (with its own first byte for the pattern); the
calls it makes on it are those of Model/Escape.lean. Not modelled: skip, skippable, skip_to_eof, the checksum returned
by copy_to (the chunks given to it are recorded) and has_escaped_data. -/
namespace Dar

/-- U_I is a 32-bit unsigned integer -/
def maxUI : Nat := 2 ^ 32 - 1

/-- UI_min_hole_size: the minimum size if it fits, else 0, which disables the detection. sparse_file.cpp:90-95 -/
def uiMin (minHole : Nat) : Nat := if minHole ≤ maxUI then minHole else 0

/-- look_for_hole: the first run of zeros longer than `min` (its start and length). src/libdar/sparse_file.cpp:649-681 -/
def lookForHole (min : Nat) (base : Nat) (a : Bytes) : Option (Nat × Nat) :=
  if h : a = [] then none
  else
    let p := (a.takeWhile (· ≠ 0)).length
    let z := ((a.drop p).takeWhile (· = 0)).length
    if 0 < min ∧ min < z then some (base + p, z)
    else lookForHole min (base + p + z + 1) (a.drop (p + z + 1))
termination_by a.length
decreasing_by
  have : 0 < a.length := List.length_pos_iff.2 h
  simp only [List.length_drop]; omega

/-- count_initial_zeros, src/libdar/sparse_file.cpp:684-692 -/
def countZeros (a : Bytes) : Nat := (a.takeWhile (· = 0)).length

/-- State while writing: `hole`: mode == hole; `zc`: zero_count; `offset`; what was asked to the escape layer so far -/
structure SpWr where
  hole : Bool
  zc : Nat
  offset : Nat
  ops : List EscOp
  deriving DecidableEq, Repr

/-- just created: src/libdar/sparse_file.cpp:65-96, reset:636-645 -/
def SpWr.init : SpWr := ⟨false, 0, 0, []⟩

/-- write_hole: src/libdar/sparse_file.cpp:617-633; the integer is written with the hole detection disabled -/
def SpWr.writeHole (s : SpWr) (len : Nat) : SpWr := { s with ops := s.ops ++ [EscOp.mark .file, EscOp.write (putInt len)] }

/-- dump_pending_zeros, src/libdar/sparse_file.cpp:575-614; the zeros are written by blocks of 40960 in the code -/
def SpWr.dumpZeros (minHole : Nat) (s : SpWr) : Res SpWr :=
  if s.hole = false then .error .bug
  else
    let s' := { s with offset := s.offset + s.zc, zc := 0, hole := false }
    .ok (if s.zc ≤ minHole then { s' with ops := s'.ops ++ [EscOp.write (List.replicate s.zc 0)] } else s'.writeHole s.zc)

/-- The loop of inherited_write in mode `normal`: `a` is the whole buffer, `written` bytes of it are treated.
src/libdar/sparse_file.cpp:513-547 -/
def spWriteNormal (minHole : Nat) (a : Bytes) (written : Nat) (s : SpWr) : Res SpWr :=
  if h : a.length ≤ written then .ok s
  else
    match lookForHole (uiMin minHole) 0 (a.drop written) with
    | some (start, len) =>
      if len < uiMin minHole then .error .bug
      else
        let s1 := { s with ops := s.ops ++ [EscOp.write ((a.drop written).take start)] }
        if _ : start + len = 0 then .error .diverge  -- does not happen
        else if written + start + len < a.length then
          spWriteNormal minHole a (written + start + len) (s1.writeHole len)
        else .ok { s1 with hole := true, zc := len, offset := s1.offset + written + start }
    | none => .ok { s with ops := s.ops ++ [EscOp.write (a.drop written)], offset := s.offset + a.length }
termination_by a.length - written

/-- inherited_write, src/libdar/sparse_file.cpp:497-559 -/
def spWrite (minHole : Nat) (a : Bytes) (s : SpWr) : Res SpWr :=
  if a = [] then .ok s
  else if s.hole then
    let w := countZeros a
    if w < a.length then do
      let s1 ← SpWr.dumpZeros minHole { s with zc := s.zc + w }
      spWriteNormal minHole a w { s1 with offset := s1.offset - w }
    else .ok { s with zc := s.zc + a.length }
  else spWriteNormal minHole a 0 s

/-- inherited_sync_write: src/libdar/sparse_file.cpp:561-573 (escape::inherited_sync_write flushes what is pending) -/
def spSync (minHole : Nat) (s : SpWr) : Res SpWr := do
  let s1 ← if s.hole then SpWr.dumpZeros minHole s else .ok s
  .ok { s1 with ops := s1.ops ++ [.sync] }

/-- successive writes -/
def spWrites (minHole : Nat) : List Bytes → SpWr → Res SpWr
  | [], s => .ok s
  | a :: l, s => do
    let s1 ← spWrite minHole a s
    spWrites minHole l s1

/-- get_position while writing: src/libdar/sparse_file.cpp:394-395 -/
def SpWr.position (s : SpWr) : Nat := s.offset + s.zc

/-- What is found in the archive when data was written by `chunks`, followed by sync_write (as filtre.cpp does:
src/libdar/filtre.cpp, save_inode) -/
def spProduce [EscByte] (minHole : Nat) (chunks : List Bytes) : Res Bytes := do
  let s ← spWrites minHole chunks SpWr.init
  let s ← spSync minHole s
  escProduce s.ops

/-! ### Reading -/

variable [EscByte]

/-- The scan of the first bytes of an integer read through the escape layer, as in readPreamble (real_infinint.cpp:63-95) -/
def escPreamble : Nat → Nat → EscRd → Res (Nat × EscRd)
  | 0, _, _ => .error .diverge
  | f + 1, skip, st => do
    let (b, st1) ← escRead st 1
    match b with
    | [] => .error .range
    | a :: _ =>
      if a = 0 then escPreamble f (skip + 1) st1
      else match preambleBit a with
        | none => .error .range
        | some pos => .ok ((skip * 8 + pos) * TG, st1)

/-- infinint::read through the escape layer (read_as_escape(true)): the same function as getInt, on another file.
src/libdar/real_infinint.cpp:56-115 -/
def escGetInt (st : EscRd) : Res (Nat × EscRd) := do
  let (n, st1) ← escPreamble (st.buf.length + st.below.length + 1) 0 st
  let (f, st2) ← escRead st1 n
  if f.length < n then .error .range
  else .ok ((reduceField f).foldl (fun acc b => acc * 256 + b.toNat) 0, st2)

/-- State while reading: src/libdar/sparse_file.hpp:144-156 -/
structure SpRd where
  esc : EscRd
  hole : Bool
  zc : Nat
  offset : Nat
  deriving DecidableEq, Repr

/-- opened for reading, src/libdar/sparse_file.cpp:65-96 -/
def SpRd.init (file : Bytes) : SpRd := ⟨escOpen file, false, 0, 0⟩

/-- `case hole` of inherited_read when no hole is under way: src/libdar/sparse_file.cpp:416-463. The boolean is `eof`. -/
def spNextHole (s : SpRd) : Res (Bool × SpRd) := do
  let (m, e1) ← escNextMark s.esc
  match m with
  | none => .ok (true, { s with esc := e1 })
  | some .file =>
    let (found, e2) ← escSkip .file false [] e1
    if found then
      let (n, e3) ← escGetInt e2
      .ok (false, { s with esc := e3, zc := n, offset := s.offset + n })
    else .error .bug
  | some _ => .error .range

/-- `case hole` of inherited_read in a hole: src/libdar/sparse_file.cpp:464-489. Gives the number of zeros delivered. -/
def spZeros (s : SpRd) (needed : Nat) : Nat × SpRd :=
  let available := min s.zc maxUI
  let rest := s.zc - available
  let n := min needed available
  let zc := rest + (available - n)
  (n, { s with zc := zc, hole := decide (zc ≠ 0) })

/-- inherited_read, src/libdar/sparse_file.cpp:404-509; `need` is size - lu -/
def spReadF : Nat → SpRd → Nat → Res (Bytes × SpRd)
  | 0, _, _ => .error .diverge
  | f + 1, s, need =>
    if need = 0 then .ok ([], s)
    else if s.hole = false then do
      let (b, e1) ← escRead s.esc need
      let s1 := { s with esc := e1, offset := s.offset + b.length }
      if b.length < need then
        let (r, s2) ← spReadF f { s1 with zc := 0, hole := true } (need - b.length)
        .ok (b ++ r, s2)
      else .ok (b, s1)
    else if s.zc = 0 then do
      let (eof, s1) ← spNextHole s
      if eof then .ok ([], s1) else spReadF f s1 need
    else do
      let (n, s1) := spZeros s need
      let (r, s2) ← spReadF f s1 (need - n)
      .ok (List.replicate n 0 ++ r, s2)

/-- inherited_read with enough turns -/
def spRead (s : SpRd) (need : Nat) : Res (Bytes × SpRd) :=
  spReadF (s.esc.buf.length + s.esc.below.length + need + 4) s need

/-- get_position while reading: src/libdar/sparse_file.cpp:390-393 -/
def SpRd.position (s : SpRd) : Res Nat := if s.offset < s.zc then .error .bug else .ok (s.offset - s.zc)

/-- BUFFER_SIZE, src/libdar/sparse_file.cpp:45 -/
def spBuf : Nat := 102400

/-- The loop of copy_to: `tgt` is the file copied to, `fed` the chunks given to the checksum with their offset.
src/libdar/sparse_file.cpp:118-201 -/
def spCopyF (noSkip : Bool) : Nat → SpRd → Flat → Bool → List (Nat × Bytes) → Res (Flat × List (Nat × Bytes))
  | 0, _, _, _, _ => .error .diverge
  | f + 1, s, tgt, lastSkip, fed => do
    let (b, e1) ← escRead s.esc spBuf
    if b ≠ [] then
      spCopyF noSkip f { s with esc := e1, offset := s.offset + b.length } (tgt.write b) false (fed ++ [(s.offset, b)])
    else
      let (m, e2) ← escNextMark e1
      match m with
      | some .file =>
        let (found, e3) ← escSkip .file false [] e2
        if found then
          let (n, e4) ← escGetInt e3
          if noSkip then spCopyF noSkip f { s with esc := e4 } (tgt.write (List.replicate n 0)) lastSkip fed
          else spCopyF noSkip f { s with esc := e4, offset := s.offset + n } (tgt.skip (s.offset + n)) true fed
        else .error .bug
      | some _ => .error .range
      | none =>
        if lastSkip then .ok ((tgt.skipRel (-1)).1.write [0], fed) else .ok (tgt, fed)

/-- copy_to, src/libdar/sparse_file.cpp:98-212, called on an object just opened (escape::skip(0) has no effect then) -/
def spCopyTo (noSkip : Bool) (s : SpRd) (tgt : Flat) : Res (Flat × List (Nat × Bytes)) :=
  spCopyF noSkip (s.esc.buf.length + s.esc.below.length + 3) s tgt false []

end Dar
