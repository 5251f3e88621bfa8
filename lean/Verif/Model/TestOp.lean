import Verif.Model.Difference
/- Model of the test of an archive: filtre_test (src/libdar/filtre.cpp:1409-1707), op_test (src/libdar/i_archive.cpp:1560-1655), the test of the
command-line tool (src/dar_suite/dar.cpp:1146-1150), with what they rest on: the cursor of a catalogue (src/libdar/catalogue.cpp:282-411,
src/libdar/cat_directory.cpp:402-462 and 520-583, src/libdar/escape_catalogue.cpp:447-877), the path of the current entry (src/libdar/defile.cpp),
the reading of attributes (src/libdar/cat_inode.cpp:708-827 and 1066-1195) and of signatures (src/libdar/cat_file.cpp:1311-1388,
src/libdar/cat_delta_signature.cpp:51-124 and 319-393).

What the layers below the catalogue give (the bytes of each object or the exception met while reading them, the checksum recorded for it or the
exception met while fetching it) is part of the entry.  Not modelled: the messages, the cancellation of threads (C43), the failures of the masks,
the early release of memory. -/
namespace Dar

/-! ### what the archive gives -/

/-- one copy of the data of a file: what is read up to the end, what get_crc gives once the data are read (src/libdar/cat_file.cpp:1014-1110) -/
structure DataPiece where
  bytes : Res Bytes
  crc : Res (Option Crc)

/-- Extended Attributes or filesystem-specific attributes recorded as "full": going to their place, the bytes taken by the attributes when they are
well formed, the recorded checksum, the recorded size -/
structure AttrPiece where
  seek : Res Unit
  bytes : Res Bytes
  crc : Res Crc
  size : Nat

/-- a signature: reading its metadata, whether there is one (can_obtain_sig), its bytes, its checksum, its size -/
structure SigPiece where
  head : Res Unit
  here : Bool
  bytes : Res Bytes
  crc : Res Crc
  size : Nat

/-- an inode of the archive.  `data`: for a plain file having data (saved, or a delta patch), its copies in the order of the archive (several when
the file was changing while it was saved, src/libdar/filtre.cpp:1564-1577); none otherwise -/
structure TIno where
  size : Nat
  data : Option (List DataPiece)
  sig : Option SigPiece
  ea : Option AttrPiece
  fsa : Option AttrPiece

/-- an entry of the archive: an inode other than a directory, a directory, a name of a hard-linked inode, a deletion record.  `broken e`: reading the
next entry throws (sequential reading only) -/
inductive TEntry where
  | plain (name : Bytes) (i : TIno)
  | dir (name : Bytes) (i : TIno) (ch : List TEntry)
  | link (name : Bytes) (k : Nat)
  | gone (name : Bytes)
  | broken (e : Err)

/-- the options of the test.  `subtree`: is a path covered; `names`: is a name covered; `inos`: the hard-linked inodes; `seq`: sequential reading;
`dryRun`: the "empty" option; `repairing`: the test is the one done by the repairing of an archive; `addr`: address of buffers -/
structure TOpts where
  subtree : List Bytes → Bool
  names : Bytes → Bool
  inos : Nat → TIno
  seq : Bool
  dryRun : Bool
  repairing : Bool
  addr : Nat

/-! ### the test of an inode -/

/-- the width of the checksum to compute, src/libdar/filtre.cpp:1513-1514, with get_crc_size (src/libdar/cat_file.cpp:1107-1116): in sequential reading the
recorded checksum has not been read at that time -/
def dataWidth (o : TOpts) (size : Nat) (p : DataPiece) : Res Nat :=
  if o.seq then crcSizeFor size
  else match p.crc with
    | .ok (some c) => .ok c.st.cyc.length
    | _ => crcSizeFor size
/-- the comparison of two checksums of the same class, `*check != *original`, src/libdar/filtre.cpp:1546-1549 -/
def sameCrc (a b : Crc) : Res Unit := do
  let e ← a.eqv b
  unlessRange e
/-- the checksum fetched once the data are read, src/libdar/filtre.cpp:1538-1550 -/
def checkCrc (p : DataPiece) (value : Crc) : Res Unit := do
  let c ← p.crc
  match c with
  | none => .ok ()
  | some c => sameCrc value c
/-- one copy, src/libdar/filtre.cpp:1505-1560: a failure in fetching the checksum replaces a failure in reading the data -/
def testCopy (o : TOpts) (size : Nat) (p : DataPiece) : Res Unit := do
  let w ← dataWidth o size p
  match p.bytes with
  | .error e => do
    let _ ← p.crc
    .error e
  | .ok d => do
    let value ← genericCopyCrc genericBuffer o.addr d w
    checkCrc p value
/-- all the copies but the first, src/libdar/filtre.cpp:1487-1580 -/
def testCopies (o : TOpts) (size : Nat) : List DataPiece → Res Unit
  | [] => .ok ()
  | p :: l => do
    testCopy o size p
    testCopies o size l
/-- src/libdar/filtre.cpp:1473-1582; no copy at all: get_data returned no file -/
def testData (o : TOpts) (i : TIno) : Res Unit :=
  match i.data with
  | none => .ok ()
  | some l =>
    if o.dryRun then .ok ()
    else match l with
      | [] => .error .range
      | p :: l => testCopies o i.size (p :: l)

/-- what stays in memory for the hard-linked inodes: those having been inspected (is_inode_wrote), those whose EA, respectively FSA, have been read but
not released, those whose signature structure has been destroyed -/
structure TMem where
  wrote : List Nat
  eaIn : List Nat
  fsaIn : List Nat
  sigGone : List Nat
  deriving DecidableEq

/-- `k` is the hard-linked inode under inspection, if this is one -/
def holds (k : Option Nat) (l : List Nat) : Bool := match k with
  | none => false
  | some k => l.contains k
def hold (k : Option Nat) (l : List Nat) : List Nat := match k with
  | none => l
  | some k => k :: l

/-- the exceptions of the reading of attributes, src/libdar/cat_inode.cpp:774-789 and 1135-1150 -/
def attrErr (e : Err) : Err := match e with
  | .userAbort => .userAbort
  | .bug => .bug
  | .cancel => .cancel
  | .ub => .ub
  | .diverge => .diverge
  | _ => .range
/-- crc::OLD_CRC_SIZE, src/libdar/crc.hpp -/
def OLD_CRC_SIZE : Nat := 2
/-- the width of the checksum of EA, src/libdar/cat_inode.cpp:755-761 -/
def eaWidth (size : Nat) : Res Nat := if size = 0 then .ok OLD_CRC_SIZE else crcSizeFor size
/-- "typeid differ or values differ", src/libdar/cat_inode.cpp:804-805 and 1175-1176 -/
def attrCrcOk (value c : Crc) : Res Unit :=
  if value.impl ≠ c.impl then .error .range else sameCrc value c
/-- get_ea and get_fsa in an archive, src/libdar/cat_inode.cpp:708-820 and 1066-1190, when nothing is in memory; true when the attributes are in memory at the end (also
in the case of a wrong checksum) -/
def readAttr (addr : Nat) (width : Res Nat) (a : AttrPiece) : Res Unit × Bool :=
  match a.seek with
  | .error e => (.error e, false)
  | .ok () => match width with
    | .error e => (.error e, false)
    | .ok w => match crcCreate w with
      | .error e => (.error e, false)
      | .ok c => match a.bytes with
        | .error e => (.error (attrErr e), false)
        | .ok d => match c.compute addr d with
          | .error e => (.error e, true)
          | .ok value => match a.crc with
            | .error e => (.error e, true)
            | .ok c => (attrCrcOk value c, true)
/-- src/libdar/filtre.cpp:1611-1624 -/
def testEa (o : TOpts) (k : Option Nat) (i : TIno) (m : TMem) : Res Unit × TMem :=
  match i.ea with
  | none => (.ok (), m)
  | some a =>
    if o.dryRun then (.ok (), m)
    else if holds k m.eaIn then (.ok (), { m with eaIn := m.eaIn.filter (fun j => some j != k) })
    else match readAttr o.addr (eaWidth a.size) a with
      | (.ok (), _) => (.ok (), m)
      | (.error e, b) => (.error e, if b then { m with eaIn := hold k m.eaIn } else m)
/-- src/libdar/filtre.cpp:1626-1642 -/
def testFsa (o : TOpts) (k : Option Nat) (i : TIno) (m : TMem) : Res Unit × TMem :=
  match i.fsa with
  | none => (.ok (), m)
  | some a =>
    if o.dryRun then (.ok (), m)
    else if holds k m.fsaIn then (.ok (), { m with fsaIn := m.fsaIn.filter (fun j => some j != k) })
    else match readAttr o.addr (crcSizeFor a.size) a with
      | (.ok (), _) => (.ok (), m)
      | (.error e, b) => (.error e, if b then { m with fsaIn := hold k m.fsaIn } else m)
/-- cat_delta_signature::fetch_data, src/libdar/cat_delta_signature.cpp:319-393 -/
def fetchSig (o : TOpts) (s : SigPiece) : Res Unit := do
  let d ← s.bytes
  let w ← crcSizeFor s.size
  let value ← genericCopyCrc genericBuffer o.addr d w
  let c ← s.crc
  sameCrc c value
/-- src/libdar/filtre.cpp:1587-1608, whatever the dry-run option is; read_delta_signature, src/libdar/cat_file.cpp:1311-1374 -/
def testSig (o : TOpts) (k : Option Nat) (i : TIno) (m : TMem) : Res Unit × TMem :=
  match i.sig with
  | none => (.ok (), m)
  | some s =>
    if holds k m.sigGone then (.ok (), m)
    else match s.head with
      | .error e => (.error e, { m with sigGone := hold k m.sigGone })
      | .ok () => if s.here then (fetchSig o s, m) else (.ok (), m)
/-- the test of an inode, src/libdar/filtre.cpp:1471-1642 -/
def testIno (o : TOpts) (k : Option Nat) (i : TIno) (m : TMem) : Res Unit × TMem :=
  match testData o i with
  | .error e => (.error e, m)
  | .ok () => match testSig o k i m with
    | (.error e, m) => (.error e, m)
    | (.ok (), m) => match testEa o k i m with
      | (.error e, m) => (.error e, m)
      | (.ok (), m) => testFsa o k i m

/-! ### the cursor of the catalogue and the path -/

/-- a directory being read: has something been read from it (`it != begin`), what follows the cursor -/
structure Frame where
  begun : Bool
  rest : List TEntry

/-- what catalogue::read gives: an entry, the end of a directory, the end of the archive (false), an exception -/
inductive TItem where
  | entry (e : TEntry)
  | eod
  | theEnd
  | failed (e : Err)

/-- catalogue::read, src/libdar/catalogue.cpp:312-349, cat_directory::read_children, cat_directory.cpp:414-426; in sequential reading escape_catalogue::read,
src/libdar/escape_catalogue.cpp:471-830 -/
def tRead : List Frame → TItem × List Frame
  | [] => (.theEnd, [])
  | ⟨_, .dir n i ch :: l⟩ :: up => (.entry (.dir n i ch), ⟨false, ch⟩ :: ⟨true, l⟩ :: up)
  | ⟨_, .broken e :: l⟩ :: up => (.failed e, ⟨true, l⟩ :: up)
  | ⟨_, e :: l⟩ :: up => (.entry e, ⟨true, l⟩ :: up)
  | ⟨b, []⟩ :: [] => (.theEnd, [⟨b, []⟩])
  | ⟨_, []⟩ :: p :: up => (.eod, p :: up)
/-- catalogue::skip_read_to_parent_dir, src/libdar/catalogue.cpp:301-310, and, in sequential reading, the entries of that directory ignored up to its end,
src/libdar/escape_catalogue.cpp:447-469 and 604-616: a failure of the reading of one of them is not ignored.  Called once the directory has been entered: what follows it
is read from its parent -/
def brokenIn : List TEntry → Option Err
  | [] => none
  | .broken e :: _ => some e
  | .dir _ _ ch :: l => match brokenIn ch with
    | some e => some e
    | none => brokenIn l
  | _ :: l => brokenIn l
def tSkip : List Frame → List Frame
  | ⟨_, l⟩ :: p :: up => match brokenIn l with
    | some e => ⟨p.begun, .broken e :: p.rest⟩ :: up
    | none => p :: up
  | fs => fs
/-- remove_last_read.  In direct access, src/libdar/catalogue.cpp:393-411 and cat_directory::remove_last_read, src/libdar/cat_directory.cpp:434-462: the cursor of the
directory is set to its end; when nothing has been read from the current directory this is the directory itself which is removed from its parent.
In sequential reading, src/libdar/escape_catalogue.cpp:863-877: the last entry is removed from the directory entries are added to; when it is itself that directory it is not
found there -/
def tForget (seq : Bool) (isDir : Bool) : List Frame → Res (List Frame)
  | [] => .ok []
  | f :: up =>
    if seq then (if isDir then .error .range else .ok (f :: up))
    else if f.begun then .ok (⟨true, []⟩ :: up)
    else match up with
      | [] => .ok [f]
      | p :: up => .ok (p :: up)

/-- class defile, src/libdar/defile.hpp: the path (last component first), and whether its last component is a directory that has just been entered -/
structure Defile where
  rpath : List Bytes
  entered : Bool
/-- the place the next entry will be added to, src/libdar/defile.cpp:38-45 -/
def Defile.place (d : Defile) : List Bytes := if d.entered then d.rpath else d.rpath.tail
/-- enfile of an entry, src/libdar/defile.cpp:31-58 -/
def Defile.push (d : Defile) (name : Bytes) (isDir : Bool) : Defile := ⟨name :: d.place, isDir⟩
/-- enfile of an end of directory -/
def Defile.close (d : Defile) : Defile := ⟨d.place, false⟩
/-- get_path, relative to the root -/
def Defile.path (d : Defile) : List Bytes := d.rpath.reverse

/-! ### filtre_test -/

/-- the counters, class statistics -/
structure TStat where
  treated : Nat
  skipped : Nat
  errored : Nat
  deriving DecidableEq

/-- everything that changes along the test -/
structure TSt where
  frames : List Frame
  file : Defile
  mem : TMem
  stat : TStat

/-- e_nom->get_name() -/
def TEntry.name : TEntry → Bytes
  | .plain n _ => n
  | .dir n _ _ => n
  | .link n _ => n
  | .gone n => n
  | .broken _ => []
/-- e_dir != nullptr -/
def TEntry.isDir : TEntry → Bool
  | .dir _ _ _ => true
  | _ => false
/-- the checks done on an entry, src/libdar/filtre.cpp:1457-1464 and 1471-1642: those of the inode, unless it is a hard-linked one already inspected -/
def testEntry (o : TOpts) (e : TEntry) (m : TMem) : Res Unit × TMem := match e with
  | .plain _ i => testIno o none i m
  | .dir _ i _ => testIno o none i m
  | .link _ k => if m.wrote.contains k then (.ok (), m) else testIno o (some k) (o.inos k) m
  | _ => (.ok (), m)
/-- set_inode_wrote(true), src/libdar/filtre.cpp:1647-1648 -/
def TEntry.done (e : TEntry) (m : TMem) : TMem := match e with
  | .link _ k => { m with wrote := k :: m.wrote }
  | _ => m
/-- src/libdar/filtre.cpp:1468 -/
def chosen (o : TOpts) (path : List Bytes) (e : TEntry) : Bool := o.subtree path && (e.isDir || o.names e.name)

/-- the exceptions that the loop does not count, src/libdar/filtre.cpp:1670-1686; an undefined behaviour has no handler -/
def uncounted (o : TOpts) (e : Err) : Bool := match e with
  | .bug => true
  | .script => true
  | .cancel => true
  | .userAbort => !o.repairing
  | .ub => true
  | .diverge => true
  | _ => false

/-- one entry, src/libdar/filtre.cpp:1451-1697: the new state, and the exception that leaves the loop, if any -/
def tEntry (o : TOpts) (e : TEntry) (c : TSt) : TSt × Option Err :=
  let d := c.file.push e.name e.isDir
  if chosen o d.path e then
    match testEntry o e c.mem with
    | (.ok (), m) => ({ c with file := d, mem := e.done m, stat := { c.stat with treated := c.stat.treated + 1 } }, none)
    | (.error x, m) =>
      if uncounted o x then ({ c with file := d, mem := m }, some x)
      else
        let c := { c with file := d, mem := m, stat := { c.stat with errored := c.stat.errored + 1 } }
        match tForget o.seq e.isDir c.frames with
        | .ok fs => ({ c with frames := fs }, none)
        | .error x => (c, some x)
  else if e.isDir then
    ({ c with file := d.close, frames := tSkip c.frames, stat := { c.stat with skipped := c.stat.skipped + 1 } }, none)
  else ({ c with file := d, stat := { c.stat with skipped := c.stat.skipped + 1 } }, none)

/-- the loop, src/libdar/filtre.cpp:1443-1698 -/
def tLoop (o : TOpts) : Nat → TSt → TStat × Option Err
  | 0, c => (c.stat, some .diverge)
  | n + 1, c => match tRead c.frames with
    | (.theEnd, _) => (c.stat, none)
    | (.failed e, _) => (c.stat, some e)
    | (.eod, fs) => tLoop o n { c with frames := fs, file := c.file.close }
    | (.entry e, fs) => match tEntry o e { c with frames := fs } with
      | (c, some x) => (c.stat, some x)
      | (c, none) => tLoop o n c

/-- a bound on the number of turns of the loop -/
def tSize : List TEntry → Nat
  | [] => 0
  | .dir _ _ ch :: l => tSize ch + 2 + tSize l
  | _ :: l => 1 + tSize l

def TSt.start (l : List TEntry) : TSt := ⟨[⟨false, l⟩], ⟨[], true⟩, ⟨[], [], [], []⟩, ⟨0, 0, 0⟩⟩
/-- the handler around the loop, src/libdar/filtre.cpp:1699-1706; an undefined behaviour has no handler -/
def outer (o : TOpts) (r : TStat × Option Err) : TStat × Option Err := match r with
  | (st, some e) => if o.repairing ∧ e ≠ .userAbort ∧ e ≠ .ub ∧ e ≠ .diverge then (st, none) else (st, some e)
  | (st, none) => (st, none)
/-- filtre_test, src/libdar/filtre.cpp:1409-1707: the statistics and the exception thrown, if any -/
def filtreTest (o : TOpts) (l : List TEntry) : TStat × Option Err := outer o (tLoop o (tSize l + 1) (TSt.start l))

/-- op_test, src/libdar/i_archive.cpp:1560-1655: an Erange gives only a message.  For an isolated catalogue nothing is tested. -/
def opTest (o : TOpts) (isolated : Bool) (l : List TEntry) : Res TStat :=
  if isolated then .ok ⟨0, 0, 0⟩
  else match filtreTest o l with
    | (st, none) => .ok st
    | (st, some e) => if e = .range then .ok st else .error e
/-- "dar -t", src/dar_suite/dar.cpp:1146-1150 -/
def darTest (o : TOpts) (isolated : Bool) (l : List TEntry) : Res Unit := do
  let st ← opTest o isolated l
  if st.errored > 0 then .error .data else .ok ()

end Dar
