import Verif.Model.Basic
/- Model of the saving of the data of a plain file that may change meanwhile: save_inode, src/libdar/filtre.cpp:3092-3905, as filtre_sauvegarde calls it (check_change and compute_crc true, keep_mode normal,
repair_mode false).

The stack of the archive is a file with a position.  What the marks for sequential reading are (escape_catalogue::pre_add and the like, nothing if there are none), what compression makes of the data
(with the detection of holes), the CRC and the delta signature are arbitrary.  A failing operation does not move the position (the code checks it).  Hooks, dates of last access and messages are left out;
an error while reading ends the saving of the file and is not modelled here. -/
namespace Dar

/-- the archive under construction -/
structure ArchAt where
  bytes : Bytes
  pos : Nat
  deriving DecidableEq
/-- writing at the position -/
def ArchAt.write (a : ArchAt) (b : Bytes) : ArchAt := ⟨a.bytes.take a.pos ++ b ++ a.bytes.drop (a.pos + b.length), a.pos + b.length⟩
/-- pdesc.stack->truncate -/
def ArchAt.cut (a : ArchAt) (p : Nat) : ArchAt := ⟨a.bytes.take p, p⟩
/-- pdesc.stack->skip -/
def ArchAt.goto (a : ArchAt) (p : Nat) : ArchAt := ⟨a.bytes, p⟩
/-- truncatable and truncate: not possible, done, failed -/
inductive CutAns where
  | no
  | done
  | fails
  deriving DecidableEq
/-- skippable and skip: not possible, done, failed, failed once and done the second time -/
inductive SkipAns where
  | no
  | done
  | fails
  | late
  deriving DecidableEq
/-- what happens during the reading number k of the file: the data read, the modification date after (none: the file has disappeared), the date and the size told when it is to be read again (none: it has
disappeared), and the answers of the archive when it has to go back to the beginning of the file (`cut0`, `skip0`) or of its data (`cut1`, `skip1`) -/
structure ReadEv where
  data : Bytes
  mtime : Option Nat
  again : Option (Nat × Nat)
  cut0 : CutAns
  skip0 : SkipAns
  cut1 : CutAns
  skip1 : SkipAns
/-- what the object tells of the file (cat_file): last_modif, size, offset, storage_size, dirty, the CRC, and whether it is stored compressed -/
structure FicRec where
  mtime : Nat
  size : Nat
  offset : Nat
  storage : Nat
  dirty : Bool
  crc : Bytes
  compressed : Bool
  deriving DecidableEq
/-- the option retry-on-change (repeat_count, repeat_byte), never_resave_uncompressed, what the marks and the compression make -/
structure SaveOpts where
  repeatCount : Nat
  repeatByte : Nat
  neverResave : Bool
  header : FicRec → Bytes
  crcMark : Bytes → Bytes
  waste : Bytes
  dirtyMark : Bytes
  sig : Bytes
  enc : Bytes → Bytes
  crcOf : Bytes → Bytes
/-- the end: the value of save_inode, the object, the archive, current_wasted_bytes, the number of readings -/
structure SaveOut where
  ret : Bool
  fic : FicRec
  arch : ArchAt
  wasted : Nat
  reads : Nat
  deriving DecidableEq
/-- the variables of the loops: current_repeat_count, resave_uncompressed, current_wasted_bytes, the number of readings so far -/
structure SaveSt where
  fic : FicRec
  arch : ArchAt
  count : Nat
  resave : Bool
  wasted : Nat
  k : Nat
/-- the data is compressed or not -/
def SaveOpts.stored (o : SaveOpts) (compressed : Bool) (d : Bytes) : Bytes := if compressed then o.enc d else d
/-- the data and its CRC written at the position, src/libdar/filtre.cpp:3351-3577: the archive, and the object with its CRC -/
def putData (o : SaveOpts) (s : SaveSt) (d : Bytes) : SaveSt :=
  { s with arch := (s.arch.write (o.stored s.fic.compressed d)).write (o.crcMark (o.crcOf d)), fic := { s.fic with crc := o.crcOf d } }
/-- going back, src/libdar/filtre.cpp:3590-3657: to the beginning of the file for the data to be saved without compression -/
def backForResave (rewinder : Nat) (e : ReadEv) (a : ArchAt) : Option ArchAt :=
  match e.cut0 with
  | .done => some (a.cut rewinder)
  | _ => match e.skip0 with
    | .done => some (a.goto rewinder)
    | _ => none
/-- src/libdar/filtre.cpp:3701-3749: to the beginning of the data, to read the file again; current_wasted_bytes grows if it cannot be -/
def backForRetry (start : Nat) (e : ReadEv) (a : ArchAt) (wasted : Nat) : Res (ArchAt × Nat) :=
  match e.cut1 with
  | .done => .ok (a.cut start, wasted)
  | _ => match e.skip1 with
    | .done => .ok (a.goto start, wasted)
    | .late => if a.pos = start then .ok (a, wasted + (a.pos - start)) else .error .bug
    | _ => .ok (a, wasted + (a.pos - start))
/-- what is decided at the end of a reading: the file is done, or it is read again -/
inductive SaveStep where
  | done (r : SaveOut)
  | again (s : SaveSt) (outer : Bool)
/-- the end of a file: the delta signature, src/libdar/filtre.cpp:3795-3865 -/
def endFile (o : SaveOpts) (ret : Bool) (s : SaveSt) : SaveStep := .done ⟨ret, s.fic, s.arch.write o.sig, s.wasted, s.k + 1⟩
/-- the file is told to be modified, src/libdar/filtre.cpp:3693-3788 -/
def changedFile (o : SaveOpts) (start : Nat) (e : ReadEv) (s : SaveSt) : Res SaveStep :=
  if s.count < o.repeatCount then do
    let b ← backForRetry start e s.arch s.wasted
    if o.repeatByte = 0 ∨ b.2 < o.repeatByte then
      let a := if b.1.pos ≠ start then b.1.write o.waste else b.1
      match e.again with
      | none => .error .range
      | some (m, z) => .ok (.again { s with fic := { s.fic with mtime := m, size := z }, arch := a, count := s.count + 1, wasted := b.2, k := s.k + 1 } false)
    else .ok (endFile o false { s with fic := { s.fic with dirty := true }, arch := b.1, count := s.count + 1, wasted := b.2 })
  else .ok (endFile o false { s with fic := { s.fic with dirty := true }, arch := s.arch.write o.dirtyMark })
/-- offset and storage size set, then the date is looked at, src/libdar/filtre.cpp:3661-3692 -/
def checkFile (o : SaveOpts) (start storage : Nat) (e : ReadEv) (s : SaveSt) : Res SaveStep :=
  let s := { s with fic := { s.fic with offset := start, storage := storage } }
  match e.mtime with
  | none => .ok (endFile o true s)
  | some m => if m = s.fic.mtime then .ok (endFile o true s) else changedFile o start e s
/-- one turn of the inner loop, src/libdar/filtre.cpp:3257-3877 -/
def saveTurn (o : SaveOpts) (rewinder : Nat) (e : ReadEv) (s : SaveSt) : Res SaveStep :=
  let start := s.arch.pos
  let storage := (o.stored s.fic.compressed e.data).length
  let s' := putData o s e.data
  if !o.neverResave && decide (s.fic.size ≤ storage) && s.fic.compressed then
    match backForResave rewinder e s'.arch with
    | some a => if s.resave then .error .bug else .ok (.again { s' with arch := a, resave := true, fic := { s'.fic with compressed := false }, k := s.k + 1 } true)
    | none => checkFile o start storage e { s' with resave := false }
  else checkFile o start storage e { s' with resave := false }
/-- the loops, at most `n` readings; pre_add writes the inode at each turn of the outer one (`outer`), src/libdar/filtre.cpp:3164-3168 -/
def saveLoop (o : SaveOpts) (ev : Nat → ReadEv) (rewinder : Nat) : Nat → SaveSt → Bool → Res SaveOut
  | 0, _, _ => .error .diverge
  | n + 1, s, outer => do
    let s := if outer then { s with arch := s.arch.write (o.header s.fic) } else s
    let r ← saveTurn o rewinder (ev s.k) s
    match r with
    | .done r => .ok r
    | .again s' outer' => saveLoop o ev rewinder n s' outer'
/-- save_inode for a plain file to save: `a` is the archive so far (positioned at its end), `wasted` the bytes wasted so far -/
def saveFile (o : SaveOpts) (ev : Nat → ReadEv) (n : Nat) (fic : FicRec) (a : ArchAt) (wasted : Nat) : Res SaveOut :=
  saveLoop o ev a.pos n ⟨fic, a, 0, false, wasted, 0⟩ true

end Dar
