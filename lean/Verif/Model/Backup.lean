import Verif.Model.Criterium
/- Model of the backup operation seen as a transformation of trees: src/libdar/filtre.cpp:545-1200 filtre_sauvegarde, the parts of
src/libdar/catalogue.cpp it relies on (add, compare), cat_inode::has_changed_since, cat_file::has_changed_since and the counters of
src/libdar/statistics.hpp.
Not modelled: how an entry is written to the archive (save_inode, save_ea, save_fsa are one step that works or fails), the messages, the
user commands run between files, the security warning, the choice of the compression and sparse settings, the delta signatures to compute,
Ethread_cancel and the failures of the writing side (they stop the operation). -/
namespace Dar

/-- comparison_fields, src/libdar/archive_aux.hpp -/
inductive CmpFields where | all | ignoreOwner | mtime | inodeType
  deriving DecidableEq, Repr
/-- modified_data_detection, src/libdar/archive_aux.hpp -/
inductive ModData where | anyInodeChange | mtimeSize
  deriving DecidableEq, Repr
/-- fsa_saved_status, src/libdar/fsa_family.hpp -/
inductive FsaSt where | none | part | full
  deriving DecidableEq, Repr

/-- cat_inode: its name, what the criteria look at, the status of its filesystem specific attributes, and what is attached to it: the data of a
plain file, the extended attributes, the filesystem specific attributes.  In an archive each of the latter three is meaningful only
when the corresponding status says it is stored. -/
structure Obj where
  name : Bytes
  ino : Ino
  fsa : FsaSt
  data : Bytes
  eas : Bytes
  fsas : Bytes
  deriving DecidableEq, Repr

/-- The objects found in a directory of a catalogue.  A mirage is a name and the label of the hard linked inode, held in a separate table. -/
inductive BEntry where
  | node (o : Obj)
  | dir (o : Obj) (children : List BEntry)
  | mirage (name : Bytes) (label : Nat)
  | detruit (name : Bytes) (kind : InoKind) (date : DateT)
  | ignored (name : Bytes)
  | ignoredDir (o : Obj)

/-- cat_nomme::get_name -/
def BEntry.name : BEntry → Bytes
  | .node o => o.name
  | .dir o _ => o.name
  | .mirage n _ => n
  | .detruit n _ _ => n
  | .ignored n => n
  | .ignoredDir o => o.name

/-- dynamic_cast<cat_inode *>, through cat_mirage::get_inode for a hard link, which gives the inode the name of the hard link
(src/libdar/cat_mirage.cpp:269-282) -/
def BEntry.obj (stars : Nat → Obj) : BEntry → Option Obj
  | .node o => some o
  | .dir o _ => some o
  | .mirage n k => some { stars k with name := n }
  | .detruit _ _ _ => none
  | .ignored _ => none
  | .ignoredDir o => some o

/-- cat_directory::search_children, src/libdar/cat_directory.cpp:616-650 -/
def findChild (l : List BEntry) (n : Bytes) : Option BEntry := l.find? (fun e => e.name = n)

/-- cat_inode::same_as, src/libdar/cat_inode.cpp:365-368: same name and same type
(cat_signature::compatible_signature, the letters 'e' and 'f' of the old formats being both plain files) -/
def Obj.sameAs (e f : Obj) : Bool := e.name = f.name ∧ e.ino.kind = f.ino.kind

/-- the comparison of the modification times in cat_inode::has_changed_since, src/libdar/cat_inode.cpp:377 -/
def mtimeDiffers (capa : TimeUnit) (hs : Nat) (ref e : DateT) : Res Bool :=
  if hs ≠ 0 then (equalHourshift capa hs ref e).map (!·) else (ref.looseEqual e).map (!·)

/-- cat_inode::has_changed_since, src/libdar/cat_inode.cpp:375-381 -/
def inodeChanged (capa : TimeUnit) (hs : Nat) (what : CmpFields) (e ref : Ino) : Res Bool := do
  let t ← (if what ≠ .inodeType then mtimeDiffers capa hs ref.mtime e.mtime else .ok false)
  .ok (t || (decide (what = .all) && decide (e.uid ≠ ref.uid)) || (decide (what = .all) && decide (e.gid ≠ ref.gid))
    || (decide (what ≠ .mtime) && decide (what ≠ .inodeType) && decide (e.perm ≠ ref.perm)))

/-- the virtual method: cat_file::has_changed_since, src/libdar/cat_file.cpp:490-497, or cat_inode::has_changed_since -/
def hasChangedSince (capa : TimeUnit) (hs : Nat) (what : CmpFields) (e ref : Ino) : Res Bool :=
  if e.isFile then
    if ref.isFile then do
      let c ← inodeChanged capa hs what e ref
      .ok (c || decide (e.size ≠ ref.size))
    else .error .bug
  else inodeChanged capa hs what e ref

/-- cat_file::same_data_as (check_data false), src/libdar/cat_file.cpp:1452-1510 -/
def sameDataAs (capa : TimeUnit) (hs : Nat) (e f : Ino) : Res Bool :=
  if e.size ≠ f.size then .ok false else equalHourshift capa hs e.mtime f.mtime

/-- Where saving an entry fails, for a reason that is not the writing of the archive. -/
inductive FailAt where | inode | ea
  deriving DecidableEq, Repr

/-- The parameters of filtre_sauvegarde the decisions depend on.  `cov`: the four filters taken together, for an entry at the given path,
the flag telling whether it is a hard link to an inode already saved (in which case the filters on the inode do not apply).  `dirty`: save_inode
returns false, the file changed while it was read.  `fails`: what happens when saving the entry at this path. -/
structure BkOpts where
  capa : TimeUnit
  hourshift : Nat
  what : CmpFields
  snapshot : Bool
  fixed : Nat
  deltaDiff : Bool
  modData : ModData
  emptyDir : Bool
  cov : List Bytes → Bool → Bool
  dirty : List Bytes → Bool
  fails : List Bytes → Option FailAt

/-- "the archive of reference has the inode and it has not changed": the third case of avoid_saving_inode, src/libdar/filtre.cpp:799-802 -/
def unchangedSince (o : BkOpts) (e : Obj) (f : Option Obj) : Res Bool :=
  match f with
  | none => .ok false
  | some f => do
    let c ← hasChangedSince o.capa o.hourshift o.what e.ino f.ino
    .ok (!c && (!f.ino.isFile || !f.ino.dirty))

/-- avoid_saving_inode, src/libdar/filtre.cpp:794-804.  `f` is f_ino after the test on `snapshot` (773-774). -/
def avoidInode (o : BkOpts) (e : Obj) (f : Option Obj) : Res Bool :=
  if o.snapshot then .ok true
  else if o.fixed ≠ 0 then e.ino.mtime.lt (dateBuildSec o.fixed)
  else unchangedSince o e f

/-- e_ino->get_last_change() <= f_ino->get_last_change() || loose_equal -/
def ctimeNotAfter (e f : DateT) : Res Bool := do
  let a ← e.le f
  let b ← e.looseEqual f
  .ok (a || b)

/-- avoid_saving_ea, src/libdar/filtre.cpp:812-819 -/
def avoidEa (o : BkOpts) (e : Obj) (f : Option Obj) : Res Bool :=
  if o.snapshot then .ok true
  else if o.fixed ≠ 0 then
    if e.ino.eaStatus ≠ .none then e.ino.ctime.lt (dateBuildSec o.fixed) else .ok false
  else match f with
    | none => .ok false
    | some f => if e.ino.eaStatus = .full ∧ f.ino.eaStatus ≠ .none then ctimeNotAfter e.ino.ctime f.ino.ctime else .ok false

/-- avoid_saving_fsa, src/libdar/filtre.cpp:821-828 -/
def avoidFsa (o : BkOpts) (e : Obj) (f : Option Obj) : Res Bool :=
  if o.snapshot then .ok true
  else if o.fixed ≠ 0 then
    if e.fsa ≠ .none then e.ino.ctime.lt (dateBuildSec o.fixed) else .ok false
  else match f with
    | none => .ok false
    | some f => if e.fsa = .full ∧ f.fsa ≠ .none then ctimeNotAfter e.ino.ctime f.ino.ctime else .ok false

/-- change_to_remove_ea, src/libdar/filtre.cpp:786-791 -/
def removeEa (e : Obj) (f : Option Obj) : Bool :=
  match f with
  | none => false
  | some f => e.ino.eaStatus = .none ∧ f.ino.eaStatus ≠ .none ∧ f.ino.eaStatus ≠ .removed

/-- e_file != nullptr && f_file != nullptr -/
def bothFiles (e : Obj) (f : Option Obj) : Bool :=
  match f with
  | none => false
  | some f => e.ino.isFile && f.ino.isFile
/-- f_file->has_delta_signature_available() -/
def refSig (f : Option Obj) : Bool :=
  match f with
  | none => false
  | some f => f.ino.deltaSig

/-- the test for saved_status::inode_only, src/libdar/filtre.cpp:849-884 -/
def onlyInode (o : BkOpts) (e : Obj) (f : Option Obj) : Res Bool :=
  match f with
  | none => .ok false
  | some f => if e.ino.isFile && f.ino.isFile && decide (o.modData = .mtimeSize) then sameDataAs o.capa o.hourshift e.ino f.ino else .ok false

/-- the status of the inode, src/libdar/filtre.cpp:838-889, make_delta_diff being evaluated at 805-810 -/
def newStatus (o : BkOpts) (e : Obj) (f : Option Obj) : Res SavedStatus := do
  let avoid ← avoidInode o e f
  if avoid then .ok .notSaved
  else do
    let same ← onlyInode o e f
    .ok (if same then .inodeOnly else if o.deltaDiff && bothFiles e f && refSig f then .delta else .saved)

/-- ea_set_saved_status, src/libdar/filtre.cpp:891-895 and 903-904 -/
def newEa (o : BkOpts) (e : Obj) (f : Option Obj) : Res EaStatus := do
  let a ← avoidEa o e f
  let s := if a && decide (e.ino.eaStatus = .full) then EaStatus.part else e.ino.eaStatus
  .ok (if removeEa e f then .removed else s)

/-- fsa_set_saved_status, src/libdar/filtre.cpp:897-901 -/
def newFsa (o : BkOpts) (e : Obj) (f : Option Obj) : Res FsaSt := do
  let a ← avoidFsa o e f
  .ok (if a && decide (e.fsa = .full) then FsaSt.part else e.fsa)

/-- the whole decision, src/libdar/filtre.cpp:773-904; a source inode always comes with the status `saved` (835-836) -/
def decideEntry (o : BkOpts) (e : Obj) (f : Option Obj) : Res Obj :=
  let f := if o.snapshot then none else f
  if e.ino.status ≠ .saved then .error .bug
  else do
    let s ← newStatus o e f
    let a ← newEa o e f
    let x ← newFsa o e f
    .ok { e with ino := { e.ino with status := s, eaStatus := a }, fsa := x }

/-- statistics, src/libdar/statistics.hpp:295-310 -/
structure Stats where
  treated : Nat
  hardLinks : Nat
  skipped : Nat
  inodeOnly : Nat
  ignored : Nat
  tooold : Nat
  errored : Nat
  deleted : Nat
  eaTreated : Nat
  fsaTreated : Nat
  deriving DecidableEq, Repr
/-- statistics::clear -/
def Stats.zero : Stats := ⟨0, 0, 0, 0, 0, 0, 0, 0, 0, 0⟩
/-- statistics::total, src/libdar/statistics.cpp:57-72 -/
def Stats.total (s : Stats) : Nat := s.treated + s.skipped + s.inodeOnly + s.ignored + s.tooold + s.errored + s.deleted

/-- What fs.read gives, one at a time: an entry, or the end of the current directory. -/
inductive BEv where
  | entry (e : BEntry)
  | eod

mutual
/-- filesystem_backup::read, catalogue::read: the walk of a tree, an entry before its contents, then the end of directory -/
def BEntry.events (e : BEntry) : List BEv :=
  match e with
  | .node o => [.entry (.node o)]
  | .dir o c => .entry (.dir o c) :: (BEntry.eventsList c ++ [.eod])
  | .mirage n k => [.entry (.mirage n k)]
  | .detruit n k d => [.entry (.detruit n k d)]
  | .ignored n => [.entry (.ignored n)]
  | .ignoredDir o => [.entry (.ignoredDir o)]
def BEntry.eventsList (l : List BEntry) : List BEv :=
  match l with
  | [] => []
  | e :: l => BEntry.events e ++ BEntry.eventsList l
end

/-- current_compare (with its parents: the contents of the directories from the current one up to the root) and out_compare (the names below
"/", last first) of class catalogue -/
structure Cmp where
  stack : List (List BEntry)
  out : List Bytes
/-- catalogue::reset_compare, src/libdar/catalogue.cpp:509-517 -/
def Cmp.start (root : List BEntry) : Cmp := ⟨[root], []⟩

/-- what catalogue::compare returns -/
inductive CmpRes where
  | no
  | eod
  | obj (o : Obj)
  | det

/-- dynamic_cast<const cat_directory *>; a hard linked inode is never a directory (cat_etoile.cpp:44) -/
def BEntry.isDir : BEntry → Bool
  | .dir _ _ => true
  | _ => false
/-- "updating internal structure to follow directory tree", src/libdar/catalogue.cpp:578-586 -/
def Cmp.follow (c : Cmp) (target found : BEntry) : Cmp :=
  match target, found with
  | .dir _ _, .dir _ ch => ⟨ch :: c.stack, c.out⟩
  | .dir o _, _ => ⟨c.stack, o.name :: c.out⟩
  | _, _ => c
/-- "now comparing the objects", src/libdar/catalogue.cpp:588-612 -/
def compareObjs (src : Option Obj) (srcDet : Bool) (dst : Option Obj) (dstDet : Bool) : Res CmpRes :=
  match src, dst with
  | some a, some b => .ok (if a.sameAs b then .obj b else .no)
  | some _, none => .ok .no
  | none, _ => if srcDet then .ok (if dstDet then .det else .no) else .error .bug
/-- dynamic_cast<const cat_detruit *> -/
def BEntry.isDet : BEntry → Bool
  | .detruit _ _ _ => true
  | _ => false

/-- catalogue::compare, src/libdar/catalogue.cpp:519-626.  `stars`, `rstars`: the hard linked inodes of the target and of the catalogue. -/
def Cmp.compareEntry (stars rstars : Nat → Obj) (c : Cmp) (t : BEntry) : Res (CmpRes × Cmp) :=
  if c.out ≠ [] then .ok (.no, if t.isDir then ⟨c.stack, t.name :: c.out⟩ else c)
  else match findChild (c.stack.headD []) t.name with
    | none => .ok (.no, if t.isDir then ⟨c.stack, t.name :: c.out⟩ else c)
    | some found => do
      let r ← compareObjs (t.obj stars) t.isDet (found.obj rstars) found.isDet
      .ok (r, c.follow t found)
/-- catalogue::compare with an end of directory, src/libdar/catalogue.cpp:530-560 -/
def Cmp.compareEod (c : Cmp) : Res (CmpRes × Cmp) :=
  match c.out with
  | _ :: out => .ok (.no, ⟨c.stack, out⟩)
  | [] => match c.stack with
    | _ :: d :: st => .ok (.eod, ⟨d :: st, []⟩)
    | _ => .error .range

/-- What the loop of filtre_sauvegarde updates: the comparison state of `ref`, the catalogue under construction (the entries of the current
directory, then for each directory being filled its inode and the entries its parent had before), the current path (last name first), the
hard linked inodes met, the labels of those already saved, the counters, and the number of directories to leave before the end of what has to be skipped
(fs.skip_read_to_parent_dir). -/
structure BkSt where
  cmp : Cmp
  cur : List BEntry
  frames : List (Obj × List BEntry)
  path : List Bytes
  stars : Nat → Obj
  wrote : List Nat
  st : Stats
  skip : Nat

/-- ref.compare(e, f) when there is no fixed date, src/libdar/filtre.cpp:714-731 and 768-769; extracted objects that are inodes -/
def BkSt.refCompare (o : BkOpts) (rstars : Nat → Obj) (s : BkSt) (e : BEntry) : Res (Option Obj × Cmp) :=
  if o.fixed = 0 then do
    let (r, c) ← s.cmp.compareEntry s.stars rstars e
    .ok ((match r with | .obj x => some x | _ => none), c)
  else .ok (none, s.cmp)
/-- ref.compare(&tmp_eod, f) under the same condition -/
def cmpEodIf (o : BkOpts) (c : Cmp) : Res Cmp :=
  if o.fixed = 0 then do
    let (_, c) ← c.compareEod
    .ok c
  else .ok c

/-- the counters after save_inode succeeded: 842-846, 877-882, 948-953 -/
def Stats.afterInode (st : Stats) (status : SavedStatus) (dirty : Bool) : Stats :=
  let st := (match status with
    | .notSaved => { st with skipped := st.skipped + 1 }
    | .inodeOnly => { st with inodeOnly := st.inodeOnly + 1 }
    | _ => { st with treated := st.treated + 1 })
  if dirty then { st with tooold := st.tooold + 1 } else st
/-- the counters when save_inode failed: only those updated before it -/
def Stats.failInode (st : Stats) (status : SavedStatus) : Stats :=
  match status with
  | .notSaved => { st with skipped := st.skipped + 1 }
  | .inodeOnly => { st with inodeOnly := st.inodeOnly + 1 }
  | _ => st
/-- the counters of the attributes: 958-977 -/
def Stats.afterAttr (st : Stats) (ea : EaStatus) (fsa : FsaSt) : Stats :=
  let st := if ea = .full then { st with eaTreated := st.eaTreated + 1 } else st
  if fsa = .full then { st with fsaTreated := st.fsaTreated + 1 } else st
/-- st.incr_errored -/
def Stats.err (st : Stats) : Stats := { st with errored := st.errored + 1 }
/-- st.incr_ignored -/
def Stats.ign (st : Stats) : Stats := { st with ignored := st.ignored + 1 }
/-- st.incr_hard_links, st.incr_treated -/
def Stats.link (st : Stats) : Stats := { st with hardLinks := st.hardLinks + 1, treated := st.treated + 1 }

/-- a hard linked inode is changed.  The name held by the inode is not observable: cat_mirage::get_inode replaces it each time
(src/libdar/cat_mirage.cpp:269-282); it is left unchanged here. -/
def putStar (stars : Nat → Obj) (k : Nat) (x : Obj) : Nat → Obj := fun j => if j = k then { x with name := (stars k).name } else stars j
/-- the decided inode is put back in the entry (a hard link gives it to the table) -/
def BEntry.withObj (e : BEntry) (x : Obj) : BEntry :=
  match e with
  | .node _ => .node x
  | .dir _ c => .dir x c
  | e => e
def setStar (stars : Nat → Obj) (e : BEntry) (x : Obj) : Nat → Obj :=
  match e with
  | .mirage _ k => putStar stars k x
  | _ => stars
/-- e_mir->set_inode_wrote(true), src/libdar/filtre.cpp:988-989 -/
def markWrote (wrote : List Nat) (e : BEntry) : List Nat :=
  match e with
  | .mirage _ k => k :: wrote
  | _ => wrote
/-- known_hard_link, src/libdar/filtre.cpp:662-665 -/
def BEntry.known (wrote : List Nat) : BEntry → Bool
  | .mirage _ k => decide (k ∈ wrote)
  | _ => false
/-- the inode is reported dirty -/
def Obj.setDirty (x : Obj) (d : Bool) : Obj := if d && x.ino.isFile then { x with ino := { x.ino with dirty := true } } else x

/-- cat.add, src/libdar/catalogue.cpp:439-470: entering a directory.  The entry is given its contents when the directory is left.  (In the code
an entry of the same name already present would be replaced; the source of a backup has no such thing.) -/
def BkSt.add (s : BkSt) (e : BEntry) : BkSt :=
  match e with
  | .dir x _ => { s with frames := (x, s.cur) :: s.frames, cur := [] }
  | e => { s with cur := s.cur ++ [e] }

/-- an entry covered by the filters that is not a known hard link, src/libdar/filtre.cpp:703-1020 and, for the failures, 1110-1145 -/
def backupOne (o : BkOpts) (rstars : Nat → Obj) (s : BkSt) (e : BEntry) (x : Obj) : Res BkSt := do
  let (f, c) ← s.refCompare o rstars e
  let x' ← decideEntry o x f
  let p := e.name :: s.path
  let stars := setStar s.stars e x'
  let enter := if e.isDir then p else s.path
  let d := o.dirty p.reverse && x.ino.isFile && (decide (x'.ino.status = .saved) || decide (x'.ino.status = .delta))
  match o.fails p.reverse with
  | none =>
    let x'' := x'.setDirty d
    .ok { (s.add (e.withObj x'')) with
          cmp := c, path := enter, stars := setStar s.stars e x'', wrote := markWrote s.wrote e
          st := (s.st.afterInode x'.ino.status d).afterAttr x'.ino.eaStatus x'.fsa }
  | some w => do
    let c ← (if e.isDir then cmpEodIf o c else .ok c)
    let st := (match w with
      | .inode => s.st.failInode x'.ino.status
      | .ea => s.st.afterInode x'.ino.status d)
    .ok { s with cmp := c, cur := s.cur ++ [.ignored e.name], stars := stars, st := st.err, skip := if e.isDir then 1 else 0 }

/-- the status of an excluded directory kept as an empty one, src/libdar/filtre.cpp:1043-1076 -/
def emptyDirStatus (o : BkOpts) (x : Obj) (f : Option Obj) : Res SavedStatus := do
  let tosave ← (match f with
    | some y => hasChangedSince o.capa o.hourshift o.what x.ino y.ino
    | none => .ok true)
  .ok (if tosave && !o.snapshot then .saved else .notSaved)

/-- an entry the filters exclude, src/libdar/filtre.cpp:1022-1090 -/
def backupSkip (o : BkOpts) (rstars : Nat → Obj) (s : BkSt) (e : BEntry) : Res BkSt :=
  match e with
  | .dir x ch =>
    if o.emptyDir then do
      let (f, c) ← s.refCompare o rstars (.dir x ch)
      let status ← emptyDirStatus o x f
      let c ← cmpEodIf o c
      .ok { s with cmp := c, cur := s.cur ++ [.ignoredDir { x with ino := { x.ino with status := status } }], st := s.st.ign, skip := 1 }
    else .ok { s with cur := s.cur ++ [.ignored x.name], st := s.st.ign, skip := 1 }
  | e => .ok { s with cur := s.cur ++ [.ignored e.name], st := s.st.ign }

/-- one turn of the loop, src/libdar/filtre.cpp:643-1175 -/
def backupStep (o : BkOpts) (rstars : Nat → Obj) (s : BkSt) (ev : BEv) : Res BkSt :=
  if s.skip > 0 then
    match ev with
    | .entry e => .ok (if e.isDir then { s with skip := s.skip + 1 } else s)
    | .eod => .ok { s with skip := s.skip - 1 }
  else match ev with
    | .entry e =>
      if o.cov (e.name :: s.path).reverse (e.known s.wrote) then
        if e.known s.wrote then .ok { (s.add e) with st := s.st.link }
        else match e.obj s.stars with
          | none => .error .bug
          | some x => backupOne o rstars s e x
      else backupSkip o rstars s e
    | .eod => do
      let c ← cmpEodIf o s.cmp
      match s.frames with
      | [] => .error .bug
      | (x, before) :: fr => .ok { s with cmp := c, cur := before ++ [.dir x s.cur], frames := fr, path := s.path.tail }

/-- the loop -/
def backupLoop (o : BkOpts) (rstars : Nat → Obj) (s : BkSt) : List BEv → Res BkSt
  | [] => .ok s
  | ev :: l => do
    let s ← backupStep o rstars s ev
    backupLoop o rstars s l

/-- a catalogue: the contents of its root directory and the hard linked inodes -/
structure BCat where
  root : List BEntry
  stars : Nat → Obj

/-- filtre_sauvegarde, src/libdar/filtre.cpp:545-1200: the tree to save, the catalogue of reference (empty for a full backup) -/
def backup (o : BkOpts) (src ref : BCat) : Res (BCat × Stats) := do
  let s ← backupLoop o ref.stars ⟨Cmp.start ref.root, [], [], [], src.stars, [], Stats.zero, 0⟩ (BEntry.eventsList src.root)
  .ok (⟨s.cur, s.stars⟩, s.st)

end Dar
