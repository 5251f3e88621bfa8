import Verif.Model.Infinint
/- Model of src/libdar/slice_layout.cpp and of the data path of src/libdar/sar.cpp (slices of an archive).
Not modelled here: the user interaction when a slice is missing (it ends the session with an error), the
lax mode, hooks and pauses between slices, hash files, pipes (sequential mode where the slice size is unknown). -/
namespace Dar

/-- src/libdar/slice_layout.hpp:54-58 -/
structure SliceLayout where
  firstSize : Nat
  otherSize : Nat
  firstHdr : Nat
  otherHdr : Nat
  old : Bool
  deriving DecidableEq, Repr

/-- src/libdar/slice_layout.cpp:29-53 `read` -/
def SliceLayout.read : Reader SliceLayout := do
  let a ← getInt
  let b ← getInt
  let c ← getInt
  let d ← getInt
  let t ← readByte
  if t = 55 then pure ⟨a, b, c, d, true⟩
  else if t = 56 then pure ⟨a, b, c, d, false⟩
  else Reader.fail .bug

/-- src/libdar/slice_layout.cpp:55-63 `write` -/
def SliceLayout.dump (l : SliceLayout) : Bytes :=
  putInt l.firstSize ++ putInt l.otherSize ++ putInt l.firstHdr ++ putInt l.otherHdr ++
    [if l.old then 55 else 56]

/-- infinint subtraction throws when it would be negative (real_infinint.cpp `operator -=`, modelled and proved
in C02). -/
def isub (a b : Nat) : Res Nat := if b ≤ a then .ok (a - b) else .error .range

/-- src/libdar/slice_layout.cpp:74-123 `which_slice` -/
def SliceLayout.which (l : SliceLayout) (offset : Nat) : Res (Nat × Nat) :=
  if l.firstSize = 0 ∨ l.otherSize = 0 then .ok (1, offset + l.firstHdr)
  else if l.firstSize < l.firstHdr then .error .bug
  else if l.otherSize < l.otherHdr then .error .bug
  else if l.firstHdr = 0 then .error .bug
  else if l.otherHdr = 0 then .error .bug
  else do
    let inFirst ← isub (l.firstSize - l.firstHdr) (if l.old then 0 else 1)
    let perFile ← isub (l.otherSize - l.otherHdr) (if l.old then 0 else 1)
    if offset < inFirst then .ok (1, offset + l.firstHdr)
    else if perFile = 0 then .error .infinint     -- euclide by zero
    else .ok ((offset - inFirst) / perFile + 2, (offset - inFirst) % perFile + l.otherHdr)

/-! ### Slices -/

/-- src/libdar/slice_header.hpp:49-54 -/
def flagTerminal : UInt8 := 84
def flagNonTerminal : UInt8 := 78
def flagAtEnd : UInt8 := 69

/-- What the slicing layer knows: the layout and the slice header as written by slice_header::write
(slice_header.cpp:236-307), for the first and for the other slices, as a function of its flag.  The headers are
opaque here; they are modelled in Model/SliceHeader.lean. -/
structure SarCfg where
  lay : SliceLayout
  hdr1 : UInt8 → Bytes
  hdrN : UInt8 → Bytes

def SarCfg.hdr (c : SarCfg) (num : Nat) : UInt8 → Bytes := if num = 1 then c.hdr1 else c.hdrN
/-- slice size by slice number, e.g. sar.cpp:785 -/
def SarCfg.size (c : SarCfg) (num : Nat) : Nat := if num = 1 then c.lay.firstSize else c.lay.otherSize
def SarCfg.hlen (c : SarCfg) (num : Nat) : Nat := if num = 1 then c.lay.firstHdr else c.lay.otherHdr
/-- `delta` / `trailer_size`, e.g. sar.cpp:775 -/
def SarCfg.delta (c : SarCfg) : Nat := if c.lay.old then 0 else 1

/-- State while writing: the slices already closed, the content of the open slice (`file_offset` is its length). -/
structure SarW where
  done : List Bytes
  cur : Bytes
  deriving DecidableEq, Repr

/-- `of_current` -/
def SarW.num (w : SarW) : Nat := w.done.length + 1

/-- src/libdar/sar.cpp:1113-1300 open_writeonly: a new slice starts with its header. -/
def sarOpenW (c : SarCfg) (done : List Bytes) : SarW := ⟨done, c.hdr (done.length + 1) flagAtEnd⟩

/-- src/libdar/sar.cpp:810-850 close_file in write mode; the result is the final content of the slice file.
Seeking past the end of the file leaves zeros (fichier_local). -/
def sarClose (c : SarCfg) (num : Nat) (cur : Bytes) (terminal : Bool) : Res Bytes :=
  let flag := if terminal then flagTerminal else flagNonTerminal
  if c.lay.old then .ok (c.hdr num flag ++ cur.drop (c.hdr num flag).length)
  else do
    let last ← isub (c.size num) 1
    let cur' := if terminal then cur else
      (if last ≤ cur.length then cur.take last else cur ++ List.replicate (last - cur.length) 0)
    if cur'.length > last then .error .bug
    else .ok (cur' ++ [flag] ++ (if terminal then [] else cur.drop (last + 1)))

/-- src/libdar/sar.cpp:771-808 inherited_write, with a step counter for its loop. -/
def sarWrite (c : SarCfg) : Nat → SarW → Bytes → Res SarW
  | _, w, [] => .ok w
  | 0, _, _ :: _ => .error .diverge
  | fuel + 1, w, a@(_ :: _) => do
    let room ← isub (c.size w.num) w.cur.length
    let room ← isub room c.delta
    let n := min room a.length
    if n > 0 then sarWrite c fuel { w with cur := w.cur ++ a.take n } (a.drop n)
    else
      let closed ← sarClose c w.num w.cur false
      sarWrite c fuel (sarOpenW c (w.done ++ [closed])) a

/-- A whole archive: construction opens slice 1, a sequence of writes, termination closes the last slice
(sar.cpp:149-225). -/
def sarProduce (c : SarCfg) (writes : List Bytes) : Res (List Bytes) := do
  let w ← writes.foldlM (fun w a => sarWrite c (2 * a.length + 1) w a) (sarOpenW c [])
  let last ← sarClose c w.num w.cur true
  .ok (w.done ++ [last])

/-- State while reading: slice opened (1, 2, ...), position in its file, `file_offset`, flag of the slice
(`slicing.flag`), number of the last slice when known. -/
structure SarR where
  num : Nat
  fd : Nat
  off : Nat
  flag : UInt8
  last : Option Nat
  deriving DecidableEq, Repr

/-- The flag of a slice file as open_readonly finds it (sar.cpp:975-1030): last byte, or byte 14 of the header
for the old format (after the magic number and the internal name). -/
def sarFlagOf (c : SarCfg) (f : Bytes) : Option UInt8 := if c.lay.old then f[14]? else f.getLast?

/-- src/libdar/sar.cpp:852-1110 and 1317-1395: open_file in read mode (random access).  A missing slice makes the
program ask the user: here the session ends.  -/
def sarOpenR (c : SarCfg) (files : List Bytes) (r : SarR) (num : Nat) : Res SarR :=
  if r.num = num then .ok r
  else match files[num - 1]? with
    | none => .error .userAbort
    | some f => match sarFlagOf c f with
      | none => .error .userAbort
      | some fl =>
        if fl = flagTerminal then
          match r.last with
          | some k => if k ≠ num then .error .range else .ok ⟨num, c.hlen num, c.hlen num, fl, some k⟩
          | none => .ok ⟨num, c.hlen num, c.hlen num, fl, some num⟩
        else if fl = flagNonTerminal then .ok ⟨num, c.hlen num, c.hlen num, fl, r.last⟩
        else .error .range

/-- Initial state: no slice opened, then the first slice is (skip(0), sar.cpp:262-281). -/
def sarStart (c : SarCfg) (files : List Bytes) : Res SarR := sarOpenR c files ⟨0, 0, 0, 0, none⟩ 1

/-- src/libdar/sar.cpp:575-610 get_position -/
def sarPos (c : SarCfg) (r : SarR) : Nat :=
  if r.num > 1 then
    c.lay.firstSize - c.lay.firstHdr - c.delta + (r.num - 2) * (c.lay.otherSize - c.lay.otherHdr - c.delta)
      + r.off - c.lay.otherHdr
  else r.off - c.lay.firstHdr

/-- sar.cpp:295 `of_last_file_known && dest_file > of_last_file_num` -/
def SarR.beyond (r : SarR) (dest : Nat) : Bool := match r.last with | some k => decide (dest > k) | none => false

/-- src/libdar/sar.cpp:255-317 skip -/
def sarSkip (c : SarCfg) (files : List Bytes) (r : SarR) (pos : Nat) : Res (Bool × SarR) :=
  if sarPos c r = pos then .ok (true, r)
  else do
    let (dest, off) ← c.lay.which pos
    if r.beyond dest then
      let r ← sarOpenR c files r (r.last.getD 0)
      let len := (files.getD (r.num - 1) []).length
      .ok (false, { r with fd := len, off := len })
    else
      let r ← sarOpenR c files r dest
      .ok (true, { r with fd := off, off := off })

/-- sar.cpp:698-699 `of_last_file_known == true && of_current >= of_last_file_num` -/
def SarR.lastReached (r : SarR) : Bool := match r.last with | some k => decide (k ≤ r.num) | none => false

/-- src/libdar/sar.cpp:645-719 inherited_read with a step counter for its loop: reads up to `sz` bytes.
The flag test at the end of a slice (l. 671-694) only matters when the flag was not known at opening,
which does not happen in random access mode. -/
def sarRead (c : SarCfg) (files : List Bytes) : Nat → SarR → Nat → Res (Bytes × SarR)
  | _, r, 0 => .ok ([], r)
  | 0, _, _ + 1 => .error .diverge
  | fuel + 1, r, sz@(_ + 1) =>
    let f := files.getD (r.num - 1) []
    let got := (f.drop r.fd).take sz
    let fd' := r.fd + got.length
    let data := if c.lay.old = false ∧ fd' = f.length ∧ 0 < got.length then got.dropLast else got
    if data.length = 0 then
      if r.flag = flagTerminal ∨ r.lastReached = true then
        .ok ([], { r with fd := fd' })
      else if r.off ≥ c.size r.num - c.delta then do
        let r ← sarOpenR c files { r with fd := fd' } (r.num + 1)
        sarRead c files fuel r sz
      else do
        let place := min (c.size r.num - r.off - c.delta) sz
        let (rest, r') ← sarRead c files fuel { r with fd := fd', off := r.off + place } (sz - place)
        .ok (List.replicate place 0 ++ rest, r')
    else do
      let (rest, r') ← sarRead c files fuel { r with fd := fd', off := r.off + data.length } (sz - data.length)
      .ok (data ++ rest, r')

/-- src/libdar/sar.cpp:374-390 and 1407-1460: skip_to_eof in read mode, all slices being present: the last one is
opened (the one known as last, else the highest numbered) and the position set before its trailing flag. -/
def sarSkipEof (c : SarCfg) (files : List Bytes) (r : SarR) : Res SarR := do
  let r ← sarOpenR c files r (r.last.getD files.length)
  if r.flag ≠ flagTerminal then .error .userAbort
  else
    let len := (files.getD (r.num - 1) []).length - c.delta
    .ok { r with fd := len, off := len }

/-- src/libdar/sar.cpp:446-452, the loop of skip_forward. -/
def sarFwdLoop (c : SarCfg) (last : Option Nat) : Nat → Nat → Nat → Nat × Nat
  | 0, number, offset => (number, offset)
  | fuel + 1, number, offset =>
    if offset + c.delta ≥ c.size number ∧ (last = none ∨ number ≤ last.getD 0) then
      sarFwdLoop c last fuel (number + 1) (offset - (c.size number - c.delta) + c.lay.otherHdr)
    else (number, offset)

/-- src/libdar/sar.cpp:423-463 skip_forward.  `fuel` bounds the loop, which makes at most one turn per slice. -/
def sarSkipFwd (c : SarCfg) (files : List Bytes) (fuel : Nat) (r : SarR) (x : Nat) : Res (Bool × SarR) :=
  let (number, offset) := sarFwdLoop c r.last fuel r.num (r.off + x)
  if offset + c.delta < c.size number then do
    let r ← sarOpenR c files r number
    .ok (true, { r with fd := offset, off := offset })
  else .ok (false, r)

/-- src/libdar/sar.cpp:489-498, the loop of skip_backward. -/
def sarBackLoop (c : SarCfg) : Nat → Nat → Nat → Nat × Nat × Nat
  | 0, offset, neg => (0, offset, neg)
  | number + 1, offset, neg =>
    if number + 1 > 1 ∧ neg + c.lay.otherHdr > offset then
      sarBackLoop c number (c.size number - 1 - c.delta) (neg - (offset - c.lay.otherHdr + 1))
    else (number + 1, offset, neg)

/-- src/libdar/sar.cpp:466-513 skip_backward.  In the last branch only the file position is set, not
`file_offset` (which open_file resets only when another slice was opened). -/
def sarSkipBack (c : SarCfg) (files : List Bytes) (r : SarR) (x : Nat) : Res (Bool × SarR) :=
  let (number, offset, neg) := sarBackLoop c r.num r.off x
  if neg + c.hlen number ≤ offset then do
    let r ← sarOpenR c files r number
    .ok (true, { r with fd := offset - neg, off := offset - neg })
  else do
    let r ← sarOpenR c files r 1
    .ok (false, { r with fd := c.lay.firstHdr })

/-- src/libdar/sar.cpp:515-524 skip_relative -/
def sarSkipRel (c : SarCfg) (files : List Bytes) (fuel : Nat) (r : SarR) (x : Int) : Res (Bool × SarR) :=
  if x > 0 then sarSkipFwd c files fuel r x.toNat
  else if x < 0 then sarSkipBack c files r (-x).toNat
  else .ok (true, r)

end Dar
