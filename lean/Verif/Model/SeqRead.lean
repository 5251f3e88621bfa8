import Verif.Model.Catalogue
import Verif.Spec.Marks
/- Model of the sequential reading of an archive: src/libdar/escape_catalogue.cpp:428-981 (class escape_catalogue), with the part of
src/libdar/catalogue.cpp it uses: read, skip_read_to_parent_dir, add, drop_all_non_detruits, copy_detruits_from, and of src/libdar/cat_directory.cpp:
add_children, remove_all_mirages_and_reduce_dirs.

The escape layer is seen through the logical stream it gives (Spec/Marks.lean; C10 and C11 relate it with the bytes).
Not modelled: the early release of memory (taken as disabled; it empties directories of the catalogue in memory once read), the statistics, the
messages.  What reads the internal catalogue (C32), what compares it with what was read in line and what compares the signatories are parameters. -/
namespace Dar

/-! ### the reading of a catalogue held in memory -/

/-- current_read of a catalogue and the reading position of each directory from it up to the root: what remains to be read in the current directory,
then in its parent, and so on -/
abbrev MemRd := List (List Entry)

/-- catalogue::read without early memory release, src/libdar/catalogue.cpp:312-349.  `none`: false is returned, end of the root directory -/
def memRead : MemRd → Option Item × MemRd
  | [] => (none, [])
  | (.dir n st i ch :: l) :: up => (some (.entry (.dir n st i ch)), ch :: l :: up)
  | (e :: l) :: up => (some (.entry e), l :: up)
  | [] :: [] => (none, [[]])
  | [] :: p :: up => (some .eod, p :: up)

/-- catalogue::skip_read_to_parent_dir, src/libdar/catalogue.cpp:301-310 -/
def memSkip : MemRd → Res MemRd
  | _ :: p :: up => .ok (p :: up)
  | _ => .error .range

/-! ### the catalogue built in memory while reading -/

/-- get_name() -/
def Entry.title : Entry → Bytes
  | .node n => n.name
  | .dir n _ _ _ => n
  | .detruit n _ _ => n
  | .mirage n _ => n
  | .ignored n => n
/-- dynamic_cast<cat_directory *>(e) != nullptr -/
def Entry.isFolder : Entry → Bool
  | .dir _ _ _ _ => true
  | _ => false

/-- cat_directory::search_children, src/libdar/cat_directory.cpp:716-747 -/
def findNamed (name : Bytes) (l : List Entry) : Option Entry := l.find? fun e => decide (e.title = name)
/-- cat_directory::remove, src/libdar/cat_directory.cpp:520-583: the first child of that name -/
def dropNamed (name : Bytes) : List Entry → List Entry
  | [] => []
  | e :: l => if e.title = name then l else e :: dropNamed name l

/-- cat_directory::add_children, src/libdar/cat_directory.cpp:336-396.  When both the old and the new objects are directories `a_dir = d` copies the
pointer: nothing is merged, the new object is destroyed, and the caller catalogue::add keeps using it (src/libdar/catalogue.cpp:453-455):
use of freed memory. -/
def addChild (l : List Entry) (e : Entry) : Res (List Entry) :=
  match findNamed e.title l with
  | none => .ok (l ++ [e])
  | some old => if old.isFolder ∧ e.isFolder then .error .ub else .ok (dropNamed e.title l ++ [e])

/-- a directory being filled: what it is and its children so far -/
structure OpenDir where
  name : Bytes
  status : SavedStatus
  inode : InodeB
  children : List Entry
/-- current_add with the directories above it: the children of the current directory are in `cur`; `up` is the list of the directories from the
current one up to (not including) the root, each with the children its *parent* had before it -/
structure Built where
  cur : List Entry
  up : List OpenDir

/-- closing the current directory gives its parent its last child -/
def Built.close : Built → Built
  | ⟨cur, []⟩ => ⟨cur, []⟩
  | ⟨cur, d :: up⟩ => ⟨d.children ++ [.dir d.name d.status d.inode cur], up⟩
/-- all the open directories closed: the children of the root (`contenu`) -/
def Built.rootOf : List Entry → List OpenDir → List Entry
  | cur, [] => cur
  | cur, d :: up => Built.rootOf (d.children ++ [.dir d.name d.status d.inode cur]) up
def Built.root (b : Built) : List Entry := Built.rootOf b.cur b.up

/-- catalogue::add, src/libdar/catalogue.cpp:439-468 -/
def Built.add (b : Built) : Item → Res Built
  | .eod => match b.up with
    | [] => .error .bug
    | _ :: _ => .ok b.close
  | .entry (.dir n st i ch) => do
    -- the new directory becomes the last child of the current one and the current directory; the children of the current directory without it:
    let l ← addChild b.cur (.dir n st i ch)
    .ok ⟨ch, ⟨n, st, i, l.dropLast⟩ :: b.up⟩
  | .entry e => do
    let l ← addChild b.cur e
    .ok ⟨l, b.up⟩

/-! ### the deletion records of the internal catalogue -/

/-- ea_set_saved_status(partial) if full, fsa_set_saved_status(partial) if full, src/libdar/cat_directory.cpp:146-150,
src/libdar/cat_inode.cpp:654-685 and 970-1000 -/
def InodeB.unsaved (i : InodeB) : InodeB :=
  let i := if i.ea = .full then { i with ea := .part, eaOffset := none } else i
  if i.fsa = .full then { i with fsa := .part, fsaOffset := none } else i

/-- the loop of the reading constructor of cat_directory with only_detruit set, src/libdar/cat_directory.cpp:124-209: only directories, deletion
records and hard links are kept, directories lose their EA and FSA -/
def onlyDetruit : List Entry → List Entry
  | [] => []
  | .dir n st i ch :: l => .dir n st i.unsaved (onlyDetruit ch) :: onlyDetruit l
  | .detruit n s d :: l => .detruit n s d :: onlyDetruit l
  | .mirage n k :: l => .mirage n k :: onlyDetruit l
  | .node _ :: l => onlyDetruit l
  | .ignored _ :: l => onlyDetruit l
/-- cat_directory::remove_all_mirages_and_reduce_dirs, src/libdar/cat_directory.cpp:884-924 -/
def reduceDirs : List Entry → List Entry
  | [] => []
  | .dir n st i ch :: l =>
      let ch' := reduceDirs ch
      if ch'.isEmpty then reduceDirs l else .dir n st i ch' :: reduceDirs l
  | .mirage _ _ :: l => reduceDirs l
  | e :: l => e :: reduceDirs l
/-- catalogue::drop_all_non_detruits, src/libdar/catalogue.cpp:921-956 -/
def dropNonDetruits : List Entry → List Entry
  | [] => []
  | .dir n st i ch :: l =>
      let ch' := dropNonDetruits ch
      if ch'.isEmpty then dropNonDetruits l else .dir n st i ch' :: dropNonDetruits l
  | .detruit n s d :: l => .detruit n s d :: dropNonDetruits l
  | _ :: l => dropNonDetruits l
/-- cat_directory::remove_all_ea_and_fsa, src/libdar/cat_directory.cpp:926-960 -/
def dropEaFsa : List Entry → List Entry
  | [] => []
  | .dir n st i ch :: l => .dir n st i.unsaved (dropEaFsa ch) :: dropEaFsa l
  | .node n :: l => .node { n with inode := n.inode.unsaved } :: dropEaFsa l
  | e :: l => e :: dropEaFsa l

/-- re_add_in: the child of that name replaced by itself with other children -/
def changeFolder (name : Bytes) (f : List Entry → Res (List Entry)) : List Entry → Res (List Entry)
  | [] => .error .range
  | e :: l =>
    if e.title = name then match e with
      | .dir n st i ch => do let ch' ← f ch; .ok (.dir n st i ch' :: l)
      | _ => .error .range
    else do let l' ← changeFolder name f l; .ok (e :: l')
/-- catalogue::copy_detruits_from, src/libdar/catalogue.cpp:1350-1396, with re_add_in, 470-484; `l` is the current directory of the catalogue that
receives the records, the list the directory of the other one -/
def copyDetruits (l : List Entry) : List Entry → Res (List Entry)
  | [] => .ok l
  | .detruit n s d :: det => do
    let l' ← addChild l (.detruit n s d)
    copyDetruits l' det
  | .dir n _ _ ch :: det => do
    let l' ← changeFolder n (fun c => copyDetruits c ch) l
    copyDetruits l' det
  | _ :: det => copyDetruits l det

/-! ### escape_catalogue -/

/-- the status of the reading, src/libdar/escape_catalogue.hpp -/
inductive EcStatus where | init | marks | eod | signature | detruits | completed
  deriving DecidableEq, Repr

/-- where the escape layer is: at a place after which `s` remains, or before `min_read_offset` (the caller skipped backward) -/
inductive EcPos where
  | here (s : MarkStream)
  | behind

/-- the context of a sequential reading.  `fits`, `ver`, `dalgo`, `depth` (fuel) are those of cat_entree::read; `inBuf s`: what follows is in the
buffer of the escape layer; `goOn`: the user accepts to continue when asked; `isSigned`, `sameSig`: the archive is signed, the internal
catalogue is signed by the same; `readCat`: macro_tools_read_catalogue at that place (without filter; the children of the root); `subset`:
is_subset_of -/
structure SeqEnv where
  lax : Bool
  fits : Nat → Bool
  ver : ArchVer
  dalgo : Compr
  fuel : Nat
  inBuf : MarkStream → Bool
  goOn : Bool
  isSigned : Bool
  sameSig : Bool
  readCat : MarkStream → Res (List Entry)
  subset : List Entry → List Entry → Bool

/-- the data members of escape_catalogue, src/libdar/escape_catalogue.hpp; `floor` is the place recorded as min_read_offset; `dead` are the labels
in `corres` that lead to a destroyed object; `det` is cat_det (the children of its root) and its reading position; `mem` is the reading position of the catalogue in memory (none: not set since the catalogue
has been filled) -/
structure EC where
  status : EcStatus
  pos : EcPos
  floor : MarkStream
  corres : Corres
  dead : List Nat
  depth : Nat
  wait : Nat
  hasRead : Bool
  det : Option (List Entry × MemRd)
  built : Built
  mem : Option MemRd

/-- the reading constructor once the data name and the in_place path are read, src/libdar/escape_catalogue.cpp:57-76 -/
def EC.start (s : MarkStream) : EC :=
  { status := .init, pos := .here s, floor := s, corres := [], dead := [], depth := 0, wait := 0, hasRead := false, det := none,
    built := ⟨[], []⟩, mem := none }

/-- cat_entree::read with small set, seen from escape_catalogue::read.  `none`: a null pointer, no entry (unreadable signature or nothing to read,
src/libdar/cat_entree.cpp:77-95 and 180-184).  An object attached to a destroyed one (`dead`) is undefined behaviour. -/
def seqEntry (env : SeqEnv) (dead : List Nat) (c : Corres) (d : Bytes) : Res (Option (Item × Corres) × Bytes) :=
  match sigRead d with
  | .ok (none, r) => .ok (none, r)
  | _ => match entryReadInline env.fits env.ver env.dalgo env.fuel c d with
    | .error e => .error e
    | .ok ((.entry (.mirage n k), c'), r) =>
      if (c.find k).isSome ∧ k ∈ dead then .error .ub else .ok (some (.entry (.mirage n k), c'), r)
    | .ok ((it, c'), r) => .ok (some (it, c'), r)

/-- escape::next_to_read_is_mark(seqt_failed_backup), see C11: an internal error when the data that follow start with the escape pattern and
are not in the buffer -/
def nextIsFailed [EscByte] (env : SeqEnv) (s : MarkStream) : Res Bool :=
  match s.1, s.2 with
  | [], (t, _) :: _ => .ok (decide (t = .failedBackup))
  | [], [] => .ok false
  | d, _ => if escPattern.isPrefixOf d && !env.inBuf s then .error .bug else .ok false

/-- the end of an iteration of the loop of escape_catalogue::read: the loop ends (`ref` set, or `stop` set and `ref` null) or goes on -/
inductive EcStep where
  | ret (it : Option Item) (st : EC)
  | again (st : EC)

/-- the object has been read from the archive and is not a failed one, src/libdar/escape_catalogue.cpp:528-640 -/
def EC.take (env : SeqEnv) (st : EC) (it : Item) : Res EcStep :=
  let isEod := match it with | .eod => true | _ => false
  let isDir := match it with | .entry e => e.isFolder | _ => false
  if isEod && st.depth == 0 then
    if env.lax then .ok (.again st) else .error .range
  else do
    let depth := if isDir then st.depth + 1 else if isEod then st.depth - 1 else st.depth
    let b ← st.built.add it
    let st := { st with depth := depth, built := b }
    if st.wait ≠ 0 then
      if st.depth < st.wait then
        if isEod then .ok (.again { st with wait := 0 }) else .error .bug
      else .ok (.again st)
    else .ok (.ret (some it) st)

/-- a tape mark of an entry has been found and `s` follows, src/libdar/escape_catalogue.cpp:498-640.  When the reading of the entry fails and lax is
set the exact place is forgotten: only the next marks matter. -/
def EC.entryAt [EscByte] (env : SeqEnv) (st : EC) (s : MarkStream) : Res EcStep :=
  let st := { st with floor := s }
  match seqEntry env st.dead st.corres s.1 with
  | .error .range => if env.lax then .ok (.again { st with pos := .here ([], s.2) }) else .error .range
  | .error e => .error e
  | .ok (r, d) => do
    let failed ← nextIsFailed env (d, s.2)
    if failed then
      match s.2, r with
      | (_, d') :: ms, some (.entry (.mirage _ k), c') =>
        -- the object is destroyed, its entry in corres stays
        .ok (.again { st with pos := .here (d', ms), corres := c', dead := if (st.corres.find k).isSome then st.dead else k :: st.dead })
      | (_, d') :: ms, some (_, c') => .ok (.again { st with pos := .here (d', ms), corres := c' })
      | (_, d') :: ms, none => .ok (.again { st with pos := .here (d', ms) })
      | [], _ => .error .bug
    else match r with
      | none => .error .range
      | some (it, c') => EC.take env { st with pos := .here (d, s.2), corres := c' } it

/-- no more entry, at `s`: src/libdar/escape_catalogue.cpp:641-690 -/
def EC.noMore (env : SeqEnv) (st : EC) (s : MarkStream) : Res EcStep :=
  if st.depth ≠ 0 then .ok (.ret (some .eod) { st with status := .eod, pos := .here s, depth := st.depth - 1 })
  else
    match skipSpec .catalogue true [.catalogue] s.1 s.2 with
    | (true, s') => .ok (.again { st with status := .signature, pos := .here s', corres := [] })
    | (false, s') =>
      if env.lax then .ok (.ret none { st with status := .completed, pos := .here s', corres := [] }) else .error .range

/-- case ec_marks, src/libdar/escape_catalogue.cpp:485-691: back to min_read_offset if the caller went before, then the next tape mark of an entry,
not beyond the one of the catalogue -/
def EC.marksStep [EscByte] (env : SeqEnv) (st : EC) : Res EcStep :=
  let s := match st.pos with | .here s => s | .behind => st.floor
  match skipSpec .file true [.catalogue] s.1 s.2 with
  | (true, s') => EC.entryAt env st s'
  | (false, s') => EC.noMore env st s'

/-- a problem that only stops a reading outside lax mode, where the user is asked -/
def SeqEnv.complain (env : SeqEnv) (bad : Bool) : Res Unit :=
  if bad then (if env.lax then (if env.goOn then .ok () else .error .userAbort) else .error .data) else .ok ()

/-- case ec_signature, src/libdar/escape_catalogue.cpp:703-795 -/
def EC.signatureStep (env : SeqEnv) (st : EC) : Res EcStep :=
  let s := match st.pos with | .here s => s | .behind => st.floor
  match env.readCat s with
  | .error e => .error e
  | .ok cat => do
    let onlyDet := st.hasRead
    let compare := env.isSigned && onlyDet
    env.complain (!env.sameSig)
    env.complain (compare && !env.subset st.built.root cat)
    let t := if compare then dropNonDetruits cat else reduceDirs (onlyDetruit cat)
    if onlyDet then .ok (.again { st with status := .detruits, det := some (t, [t]) })
    else .ok (.again { st with status := .completed, built := ⟨cat, []⟩, mem := some [cat], det := none })

/-- case ec_detruits, src/libdar/escape_catalogue.cpp:796-825, with merge_cat_det (930-939); drop_all_ea_and_fsa concerns the whole tree, those of
its directories that remain to be read are given by the reading position -/
def EC.detStep (env : SeqEnv) (st : EC) : Res EcStep :=
  match st.det with
  | none => .error .bug
  | some (t, m) =>
    match memRead (if env.isSigned then m.map dropEaFsa else m) with
    | (none, _) => do
      let r ← copyDetruits st.built.root t
      .ok (.ret none { st with status := .completed, built := ⟨r, []⟩, det := none })
    | (some it, m') => .ok (.ret (some it) { st with det := some (t, m') })

/-- case ec_completed, src/libdar/escape_catalogue.cpp:826-827.  Without a reset_read the iterators of the directories have been invalidated by the
additions -/
def EC.memStep (st : EC) : Res EcStep :=
  match st.mem with
  | none => .error .ub
  | some m => match memRead m with
    | (r, m') => .ok (.ret r { st with mem := some m' })

/-- an iteration of the loop of escape_catalogue::read, src/libdar/escape_catalogue.cpp:476-831 -/
def EC.step [EscByte] (env : SeqEnv) (st : EC) : Res EcStep :=
  match st.status with
  | .init => EC.marksStep env { st with status := .marks }
  | .marks => EC.marksStep env st
  | .eod => if st.depth ≠ 0 then .ok (.ret (some .eod) { st with depth := st.depth - 1 }) else .ok (.again { st with status := .marks })
  | .signature => EC.signatureStep env st
  | .detruits => EC.detStep env st
  | .completed => EC.memStep st

/-- the loop and the end of escape_catalogue::read, src/libdar/escape_catalogue.cpp:476-850; what has been read from memory in ec_completed is
returned directly (has_read_data unchanged) -/
def EC.loop [EscByte] (env : SeqEnv) : Nat → EC → Res (Option Item × EC)
  | 0, _ => .error .diverge
  | n + 1, st => match EC.step env st with
    | .error e => .error e
    | .ok (.again st') => EC.loop env n st'
    | .ok (.ret none st') => .ok (none, st')
    | .ok (.ret (some it) st') => .ok (some it, { st' with hasRead := st'.hasRead || decide (st.status ≠ .completed) })

/-- the number of marks that remain -/
def EC.marksLeft (st : EC) : Nat :=
  match st.pos with
  | .here s => s.2.length
  | .behind => st.floor.2.length
/-- escape_catalogue::read, src/libdar/escape_catalogue.cpp:466-850: each iteration that does not end the loop passes a tape mark or changes the
status (C59 shows that this number of iterations is enough) -/
def EC.read [EscByte] (env : SeqEnv) (st : EC) : Res (Option Item × EC) := EC.loop env (st.marksLeft + 4) st

/-- escape_catalogue::skip_read_to_parent_dir, src/libdar/escape_catalogue.cpp:447-474 -/
def EC.skip (st : EC) : Res EC :=
  match st.status with
  | .init | .eod | .detruits => match st.det with
    | none => .error .bug
    | some (t, m) => do let m' ← memSkip m; .ok { st with det := some (t, m') }
  | .marks => .ok { st with wait := st.depth }
  | .completed => match st.mem with
    | none => .error .ub
    | some m => do let m' ← memSkip m; .ok { st with mem := some m' }
  | .signature => .error .bug

end Dar
