import Verif.Model.Destroyed
/- Model of the restoration: src/libdar/filtre.cpp:178-543 filtre_restore, src/libdar/filesystem_restore.cpp:176-640 filesystem_restore::write with
the actions it takes on existing files, src/libdar/filesystem_hard_link_write.cpp:120-480 and the part of src/libdar/filesystem_tools.cpp they use.
The filesystem is modelled by a map from paths (below the restoration root) to directories and inode numbers.
Not modelled: failures of system calls other than those due to a missing file or directory; the questions asked to the user (warn_overwrite); the
`empty`, `flat` and sequential reading modes; the birth time and access time; the hard links counter; the immutable flag and the second writing of the attributes when it only
repeats the first one for a plain call (set_fsa_to_filesystem_for with the last argument true). -/
namespace Dar

/-- A name of the filesystem: a directory with its inode, or the number of another inode. -/
inductive FEnt where
  | dir (o : Obj)
  | ino (id : Nat)
/-- The filesystem: the names (the empty path is the restoration root), the inodes that are not directories, a number above those used. -/
structure FS where
  ent : List Bytes → Option FEnt
  ino : Nat → Obj
  next : Nat

/-- lstat and what follows in make_read_entree (see_hard_link being false): the inode found at a path -/
def FS.obj (fs : FS) (p : List Bytes) : Option Obj :=
  match fs.ent p with
  | none => none
  | some (.dir o) => some o
  | some (.ino i) => some (fs.ino i)
/-- S_ISDIR -/
def FS.isDir (fs : FS) (p : List Bytes) : Bool :=
  match fs.ent p with
  | some (.dir _) => true
  | _ => false
/-- the modification date of a directory after a change in what it contains -/
def FEnt.touch (now : DateT) : FEnt → FEnt
  | .dir o => .dir { o with ino := { o.ino with mtime := now } }
  | .ino i => .ino i
/-- creation of a name: the containing directory is modified -/
def FS.put (fs : FS) (now : DateT) (p : List Bytes) (v : FEnt) : FS :=
  { fs with ent := fun q => if q = p then some v else if q = p.dropLast then (fs.ent q).map (FEnt.touch now) else fs.ent q }
/-- filesystem_tools_supprime, src/libdar/filesystem_tools.cpp:149-178: the name and, for a directory, all it contains -/
def FS.remove (fs : FS) (now : DateT) (p : List Bytes) : FS :=
  { fs with ent := fun q => if p.isPrefixOf q then none else if q = p.dropLast then (fs.ent q).map (FEnt.touch now) else fs.ent q }
/-- a change of the inode found at a path -/
def FS.upd (fs : FS) (p : List Bytes) (f : Obj → Obj) : FS :=
  match fs.ent p with
  | none => fs
  | some (.dir o) => { fs with ent := fun q => if q = p then some (.dir (f o)) else fs.ent q }
  | some (.ino i) => { fs with ino := fun j => if j = i then f (fs.ino i) else fs.ino j }

/-- What the restoration depends on.  `over`: crit_action::get_action for an existing inode and an entry of the archive.  `eaOver`, `fsaOver`: the result of
setting the attributes given second on an inode having those given first.  `patch`: the file the binary difference found in the archive gives from an
existing one.  `now`, `uid`, `gid`, `fsa0`: dates, owner and attributes the system gives to a new inode.  `cov`: the filters. -/
structure RsOpts where
  what : CmpFields
  over : Obj → BEntry → Res (OverData × OverEa)
  eaOver : Bytes → Bytes → Bytes
  fsaOver : Bytes → Bytes → Bytes
  patch : Bytes → Obj → Res Bytes
  now : DateT
  uid : Nat
  gid : Nat
  fsa0 : Bytes
  cov : List Bytes → BEntry → Bool
  onlyDeleted : Bool
  notDeleted : Bool

/-- current_dir; stack_dir (last first) with the restore_date flags; corres_write: for each label a path and whether the extended attributes have
been restored (last association first); the counters; the number of directories to leave before the end of what is skipped
(cat.skip_read_to_parent_dir) -/
structure RsSt where
  fs : FS
  cdir : List Bytes
  stack : List (Obj × Bool)
  corres : List (Nat × List Bytes × Bool)
  st : Stats
  skip : Nat

/-- a function that may throw: what was changed before remains -/
abbrev RsM (α : Type) := Except (Err × RsSt) α
/-- throw -/
def RsSt.throw {α : Type} (s : RsSt) (e : Err) : RsM α := .error (e, s)
/-- corres_write.find -/
def RsSt.label (s : RsSt) (k : Nat) : Option (List Bytes × Bool) := (s.corres.find? (fun p => p.1 = k)).map (·.2)
/-- known_etiquette, src/libdar/filesystem_hard_link_write.cpp:225-228 -/
def RsSt.knows (s : RsSt) : BEntry → Bool
  | .mirage _ k => (s.label k).isSome
  | _ => false
/-- corres_write[k] = ... -/
def RsSt.record (s : RsSt) (k : Nat) (p : List Bytes) (ea : Bool) : RsSt := { s with corres := (k, p, ea) :: s.corres }
/-- stack_dir.back().set_restore_date(true) -/
def RsSt.flag (s : RsSt) : RsSt :=
  match s.stack with
  | [] => s
  | (x, _) :: l => { s with stack := (x, true) :: l }

/-- The inode just created for `x` -/
def RsOpts.blank (o : RsOpts) (x : Obj) : Obj :=
  { name := [], fsa := .none, data := x.data, eas := [], fsas := o.fsa0
    ino := { x.ino with uid := o.uid, gid := o.gid, perm := 448, mtime := o.now, ctime := o.now, status := .saved, eaStatus := .none } }
/-- filesystem_tools_make_date, src/libdar/filesystem_tools.cpp:294-324 -/
def RsOpts.date (o : RsOpts) (x y : Obj) : Obj :=
  if o.what = .all ∨ o.what = .ignoreOwner ∨ o.what = .mtime then { y with ino := { y.ino with mtime := x.ino.mtime } } else y
/-- filesystem_tools_make_owner_perm, src/libdar/filesystem_tools.cpp:228-292 (values too large for the system excluded) -/
def RsOpts.ownerPerm (o : RsOpts) (x y : Obj) : Obj :=
  let y := if o.what = .all then { y with ino := { y.ino with uid := x.ino.uid, gid := x.ino.gid } } else y
  if (o.what = .all ∨ o.what = .ignoreOwner) ∧ x.ino.kind ≠ .symlink then { y with ino := { y.ino with perm := x.ino.perm } } else y
/-- filesystem_tools_widen_perm, src/libdar/filesystem_tools.cpp:180-226, run as root -/
def RsOpts.widen (o : RsOpts) (x y : Obj) : Obj :=
  if x.ino.kind = .dir ∧ o.what ≠ .ignoreOwner then { y with ino := { y.ino with perm := x.ino.perm ||| 128 } } else y

/-- mkdir, open, symlink, mknod, socket: a new inode -/
def RsSt.create (o : RsOpts) (s : RsSt) (p : List Bytes) (x : Obj) : RsM RsSt :=
  if s.fs.isDir p.dropLast then
    if x.ino.kind = .dir then .ok { s with fs := s.fs.put o.now p (.dir (o.blank x)) }
    else
      let fs := s.fs.put o.now p (.ino s.fs.next)
      .ok { s with fs := { fs with ino := fun j => if j = s.fs.next then o.blank x else fs.ino j, next := s.fs.next + 1 } }
  else s.throw .range
/-- the first time a hard linked inode is created: its path is recorded -/
def RsSt.createFirst (o : RsOpts) (s : RsSt) (p : List Bytes) (k : Nat) (x : Obj) : RsM RsSt := do
  let s ← s.create o p x
  .ok (s.record k p false)
/-- clear_corres_if_pointing_to -/
def RsSt.forget (s : RsSt) (k : Nat) : RsSt := { s with corres := s.corres.filter (fun q => q.1 ≠ k) }

/-- filesystem_hard_link_write::make_file, src/libdar/filesystem_hard_link_write.cpp:230-470.  For a hard link whose inode has already been restored: link(), and
when the recorded path is no more there, a new inode if the archive has its data, else nothing.  (link() fails on a directory: EPERM.) -/
def RsSt.makeFile (o : RsOpts) (s : RsSt) (e : BEntry) (x : Obj) (p : List Bytes) : RsM RsSt :=
  match e with
  | .mirage _ k =>
    (match s.label k with
    | none => s.createFirst o p k x
    | some (old, _) =>
      match s.fs.ent old with
      | some (.ino i) => if s.fs.isDir p.dropLast then .ok { s with fs := s.fs.put o.now p (.ino i) } else .ok s
      | some (.dir _) => (s.forget k).createFirst o p k x
      | none => if x.ino.status = .saved then (s.forget k).createFirst o p k x else .ok s)
  | _ => s.create o p x

/-- has_ea_saved -/
def Obj.eaSaved (x : Obj) : Bool := decide (x.ino.eaStatus = .full) || decide (x.ino.eaStatus = .removed)
/-- cat_inode::get_ea, src/libdar/cat_inode.cpp:708-822 -/
def Obj.getEa (x : Obj) : Bytes := if x.ino.eaStatus = .full then x.eas else []
/-- filesystem_hard_link_write::raw_set_ea, src/libdar/filesystem_hard_link_write.cpp:120-162 -/
def RsSt.setEa (o : RsOpts) (s : RsSt) (e : BEntry) (ea : Bytes) (p : List Bytes) : RsSt × Bool :=
  let write (s : RsSt) : RsSt × Bool := ({ s with fs := s.fs.upd p (fun y => { y with eas := o.eaOver y.eas ea }) }, true)
  match e with
  | .mirage _ k =>
    (match s.label k with
    | none => write (s.record k p true)
    | some (_, true) => (s, false)
    | some (old, false) => write (s.record k old true))
  | _ => write s
/-- filesystem_hard_link_write::raw_clear_ea_set, src/libdar/filesystem_hard_link_write.cpp:164-205 -/
def RsSt.clearEa (s : RsSt) (e : BEntry) (p : List Bytes) : RsSt × Bool :=
  let clear (s : RsSt) : RsSt × Bool := ({ s with fs := s.fs.upd p (fun y => { y with eas := [] }) }, true)
  match e with
  | .mirage _ k =>
    (match s.label k with
    | none => clear (s.record k p false)
    | some (_, true) => (s, false)
    | some (_, false) => clear s)
  | _ => clear s
/-- set_fsa_to_filesystem_for -/
def RsSt.setFsa (o : RsOpts) (s : RsSt) (fsa : Bytes) (p : List Bytes) : RsSt := { s with fs := s.fs.upd p (fun y => { y with fsas := o.fsaOver y.fsas fsa }) }
/-- make_date on a path: it fails if there is nothing there, when there is a date to set -/
def RsSt.setDate (o : RsOpts) (s : RsSt) (x : Obj) (p : List Bytes) : RsM RsSt :=
  match s.fs.ent p with
  | none => if o.what = .inodeType then .ok s else s.throw .range
  | some _ => .ok { s with fs := s.fs.upd p (o.date x) }
/-- make_owner_perm on a path: a failure is only displayed -/
def RsSt.setOwner (o : RsOpts) (s : RsSt) (x : Obj) (p : List Bytes) : RsSt := { s with fs := s.fs.upd p (o.ownerPerm x) }

/-- action_done_for_data -/
inductive RsDone where | restored | noData | policy | removed
  deriving DecidableEq, Repr

/-- "no conflict", src/libdar/filesystem_restore.cpp:285-432 -/
def RsSt.writeNew (o : RsOpts) (s : RsSt) (e : BEntry) (x : Obj) (p : List Bytes) : RsM (RsSt × RsDone) :=
  if (x.ino.status = .saved ∨ s.knows e = true ∨ e.isDir = true) ∧ o.onlyDeleted = false then do
    let s ← s.makeFile o e x p
    let s := s.flag
    let s := if x.eaSaved then (s.setEa o e x.getEa p).1 else s
    let s := if x.fsa = .full then s.setFsa o x.fsas p else s
    let s ← (if e.isDir then .ok s else do
      let s ← s.setDate o x p
      .ok (s.setOwner o x p))
    let s := if x.eaSaved then (s.setEa o e x.getEa p).1 else s
    .ok (s, .restored)
  else .ok (s, .noData)

/-- action_over_remove, src/libdar/filesystem_restore.cpp:643-690 -/
def RsSt.overRemove (o : RsOpts) (s : RsSt) (p : List Bytes) (a : OverData) : RsM RsSt :=
  match a with
  | .preserve => .ok s
  | .preserveMark => .ok s
  | .overwrite => .ok { s with fs := s.fs.remove o.now p }
  | .overwriteMark => .ok { s with fs := s.fs.remove o.now p }
  | .remove => .ok { s with fs := s.fs.remove o.now p }
  | .undefined => s.throw .range
  | .ask => s.throw .bug

/-- tba_ino->same_as( *in_place ), src/libdar/cat_inode.cpp:365-368: the inode read from the filesystem has the name of the entry, and so has the inode of the archive, for a hard link too
(cat_mirage::get_inode, src/libdar/cat_mirage.cpp:269-282), so that only the types are compared -/
def sameInPlace (x y : Obj) : Bool := decide (x.ino.kind = y.ino.kind)

/-- the replacement of an existing inode, src/libdar/filesystem_restore.cpp:754-850: the attributes it had are given to the new one -/
def RsSt.replace (o : RsOpts) (s : RsSt) (e : BEntry) (x y : Obj) (p : List Bytes) : RsM RsSt := do
  let s ← ({ s with fs := s.fs.remove o.now p } : RsSt).makeFile o e x p
  let s := if y.eas = [] then s else { s with fs := s.fs.upd p (fun z => { z with eas := o.eaOver z.eas y.eas }) }
  .ok (s.setFsa o y.fsas p)

/-- action_over_data, src/libdar/filesystem_restore.cpp:692-880 -/
def RsSt.overData (o : RsOpts) (s : RsSt) (e : BEntry) (x y : Obj) (p : List Bytes) (a : OverData) : RsM (RsSt × RsDone) :=
  let preserve : RsM (RsSt × RsDone) := if e.isDir && !(sameInPlace x y) then s.throw .range else .ok (s, .policy)
  let overwrite : RsM (RsSt × RsDone) :=
    if (e.isDir || decide (x.ino.status = .inodeOnly)) && sameInPlace x y then .ok ({ s with fs := s.fs.upd p (o.widen x) }, .restored)
    else if x.ino.status = .inodeOnly then s.throw .range
    else do
      let s ← s.replace o e x y p
      .ok (s, .restored)
  match a with
  | .preserve => preserve
  | .preserveMark => preserve
  | .overwrite => overwrite
  | .overwriteMark => overwrite
  | .remove => .ok ({ s with fs := s.fs.remove o.now p }, .removed)
  | .undefined => s.throw .range
  | .ask => s.throw .bug

/-- action_over_ea, src/libdar/filesystem_restore.cpp:882-1046; the inode in place has EA when `y.eas` is not empty.  `eaOver` is also the operator + of
ea_attributs. -/
def RsSt.overEa (o : RsOpts) (s : RsSt) (e : BEntry) (x y : Obj) (p : List Bytes) (a : OverEa) : RsM (RsSt × Bool) :=
  let a := if y.eas = [] ∧ (a = .mergePreserve ∨ a = .mergeOverwrite) then .overwrite else a
  let a := if x.ino.eaStatus = .removed ∧ (a = .mergePreserve ∨ a = .mergeOverwrite) then .clear else a
  let overwrite : RsM (RsSt × Bool) :=
    (match s.clearEa e p with
    | (s, false) => .ok (s, false)
    | (s, true) => .ok (s.setEa o e x.getEa p))
  match a with
  | .preserve => .ok (s, false)
  | .preserveMark => .ok (s, false)
  | .overwrite => overwrite
  | .overwriteMark => overwrite
  | .clear => .ok (s.clearEa e p)
  | .mergePreserve => .ok (if x.ino.eaStatus = .full then s.setEa o e (o.eaOver x.getEa y.eas) p else (s, false))
  | .mergeOverwrite => .ok (if x.ino.eaStatus = .full then s.setEa o e (o.eaOver y.eas x.getEa) p else (s, false))
  | .undefined => s.throw .range
  | .ask => s.throw .bug

/-- action_over_fsa, src/libdar/filesystem_restore.cpp:1048-1165 -/
def RsSt.overFsa (o : RsOpts) (s : RsSt) (e : BEntry) (x y : Obj) (p : List Bytes) (a : OverEa) : RsM (RsSt × Bool) :=
  let a := if y.fsas = [] ∧ (a = .mergePreserve ∨ a = .mergeOverwrite) then .overwrite else a
  let overwrite : RsM (RsSt × Bool) := if s.knows e then .ok (s, false) else .ok (s.setFsa o x.fsas p, true)
  match a with
  | .preserve => .ok (s, false)
  | .preserveMark => .ok (s, false)
  | .overwrite => overwrite
  | .overwriteMark => overwrite
  | .clear => .ok (s, false)
  | .mergePreserve => .ok (s.setFsa o (o.fsaOver x.fsas y.fsas) p, true)
  | .mergeOverwrite => .ok (s.setFsa o (o.fsaOver y.fsas x.fsas) p, true)
  | .undefined => s.throw .range
  | .ask => s.throw .bug

/-- an Erange thrown while restoring EA or FSA of an existing file is only displayed, src/libdar/filesystem_restore.cpp:500-525 -/
def caught (s : RsSt) (r : RsM (RsSt × Bool)) : RsM (RsSt × Bool) :=
  match r with
  | .ok v => .ok v
  | .error (.range, _) => .ok (s, false)
  | .error v => .error v

/-- the data of an existing inode, src/libdar/filesystem_restore.cpp:457-493 -/
def RsSt.overContent (o : RsOpts) (s : RsSt) (e : BEntry) (x y : Obj) (p : List Bytes) (ad : OverData) : RsM (RsSt × RsDone) :=
  if x.ino.status = .saved ∨ x.ino.status = .inodeOnly then s.overData o e x y p ad
  else if x.ino.status = .delta then
    if y.ino.isFile then
      match o.patch y.data x with
      | .error _ => s.throw .range
      | .ok d => .ok ({ s with fs := s.fs.upd p (fun z => { z with data := d, ino := { z.ino with size := x.ino.size, mtime := o.now } }) }, .restored)
    else .ok (s, .noData)
  else .ok ((match e with
    | .mirage _ k => if (s.label k).isSome then s else s.record k p false
    | _ => s), .noData)

/-- "a normal inode (or hard linked one) is to be restored" over an existing one, src/libdar/filesystem_restore.cpp:455-600 -/
def RsSt.writeOver (o : RsOpts) (s : RsSt) (e : BEntry) (x y : Obj) (p : List Bytes) (ad : OverData) (ae : OverEa) : RsM (RsSt × RsDone) := do
  let (s, d) ← s.overContent o e x y p ad
  let (s, eaDone) ← (if ad ≠ .remove ∧ x.eaSaved = true then caught s (s.overEa o e x y p ae) else .ok (s, false))
  let (s, _) ← (if ad ≠ .remove ∧ x.fsa = .full then caught s (s.overFsa o e x y p ae) else .ok (s, false))
  let s ← (if x.fsa = .full ∨ x.eaSaved = true ∨ x.ino.status = .delta ∨ x.ino.status = .saved ∨ x.ino.status = .inodeOnly then
      if d = .restored then
        if y.ino.kind = .dir then .ok s else do
          let s ← s.setDate o x p
          .ok (s.setOwner o x p)
      else s.setDate o y p
    else .ok s)
  let (s, _) ← (if eaDone then caught s (s.overEa o e x y p ae) else .ok (s, false))
  let s := if ad = .remove ∨ d = .restored then s.flag else s
  .ok (s, d)

/-- entering a directory, src/libdar/filesystem_restore.cpp:602-606 -/
def RsSt.enter (s : RsSt) (e : BEntry) (x : Obj) (old : Option Obj) (d : RsDone) : RsSt :=
  let isDir := (match old with
    | none => true
    | some y => decide (y.ino.kind = .dir))
  if e.isDir && (isDir || decide (d = .restored)) then { s with cdir := s.cdir ++ [e.name], stack := (x, decide (d = .restored)) :: s.stack } else s

/-- filesystem_restore::write with an inode or a hard link, src/libdar/filesystem_restore.cpp:176-620 -/
def RsSt.writeInode (o : RsOpts) (s : RsSt) (e : BEntry) (x : Obj) : RsM (RsSt × RsDone) :=
  let p := s.cdir ++ [e.name]
  match s.fs.obj p with
  | none =>
    if x.ino.status = .delta ∨ x.ino.status = .inodeOnly then s.throw .range
    else do
      let (s, d) ← s.writeNew o e x p
      .ok (s.enter e x none d, d)
  | some y =>
    match o.over y e with
    | .error err => s.throw err
    | .ok (ad, ae) => do
      let (s, d) ← s.writeOver o e x y p ad ae
      .ok (s.enter e x (some y) d, d)
/-- filesystem_restore::write with the record of a deletion -/
def RsSt.writeDet (o : RsOpts) (s : RsSt) (e : BEntry) : RsM (RsSt × RsDone) :=
  let p := s.cdir ++ [e.name]
  match s.fs.obj p with
  | none => s.throw .range
  | some y =>
    match o.over y e with
    | .error err => s.throw err
    | .ok (ad, _) => do
      let s ← s.overRemove o p ad
      .ok (s.flag, .removed)
/-- filesystem_restore::write for a named entry; an archive holds no other kind of entry -/
def RsSt.write (o : RsOpts) (stars : Nat → Obj) (s : RsSt) (e : BEntry) : RsM (RsSt × RsDone) :=
  match e with
  | .node x => s.writeInode o e x
  | .dir x _ => s.writeInode o e x
  | .mirage _ k => s.writeInode o e (stars k)
  | .detruit _ _ _ => s.writeDet o e
  | _ => s.throw .bug
/-- filesystem_restore::write with the end of a directory, src/libdar/filesystem_restore.cpp:203-232 (the restoration root being below "/", so that
current_dir->pop never fails) -/
def RsSt.writeEod (o : RsOpts) (s : RsSt) : RsM RsSt :=
  let up := s.cdir.dropLast
  match s.stack with
  | [] => ({ s with cdir := up } : RsSt).throw .bug
  | (x, f) :: l =>
    let s : RsSt := { s with cdir := up, stack := l }
    if f then do
      let s ← s.setDate o x (up ++ [x.name])
      .ok (s.setOwner o x (up ++ [x.name]))
    else .ok s

/-- the counters, src/libdar/filtre.cpp:403-424 -/
def Stats.done (st : Stats) : RsDone → Stats
  | .restored => { st with treated := st.treated + 1 }
  | .noData => { st with skipped := st.skipped + 1 }
  | .policy => { st with tooold := st.tooold + 1 }
  | .removed => { st with deleted := st.deleted + 1 }

/-- one turn of the loop of filtre_restore, src/libdar/filtre.cpp:241-532 (sockets, dirty files, empty directories and names are in the filter `cov`) -/
def rsStep (o : RsOpts) (stars : Nat → Obj) (s : RsSt) (ev : BEv) : Res RsSt :=
  if s.skip > 0 then
    match ev with
    | .entry e => .ok (if e.isDir then { s with skip := s.skip + 1 } else s)
    | .eod => .ok { s with skip := s.skip - 1 }
  else match ev with
    | .eod => match s.writeEod o with
      | .ok s => .ok s
      | .error (err, _) => .error err
    | .entry e =>
      if e.isDet && o.notDeleted then .ok s
      else if o.cov (s.cdir ++ [e.name]) e && (!o.onlyDeleted || e.isDir || e.isDet) then
        match s.write o stars e with
        | .ok (s, d) => .ok { s with st := s.st.done d }
        | .error (.bug, _) => .error .bug
        | .error (_, s) => .ok { s with st := if o.onlyDeleted then s.st else s.st.err, skip := if e.isDir then 1 else 0 }
      else .ok { s with st := s.st.ign, skip := if e.isDir then 1 else 0 }
/-- the loop -/
def rsLoop (o : RsOpts) (stars : Nat → Obj) (s : RsSt) : List BEv → Res RsSt
  | [] => .ok s
  | ev :: l => do
    let s ← rsStep o stars s ev
    rsLoop o stars s l

/-- filtre_restore, src/libdar/filtre.cpp:178-543, of a catalogue in a filesystem -/
def restore (o : RsOpts) (cat : BCat) (fs : FS) : Res (FS × Stats) := do
  let s ← rsLoop o cat.stars ⟨fs, [], [], [], Stats.zero, 0⟩ (BEntry.eventsList cat.root)
  .ok (s.fs, s.st)

/-- make_overwriting_for_only_deleted, src/libdar/filtre.cpp:4666-4673: what is found on the filesystem being always an inode, the action is the last one -/
def onlyDeletedOver : Obj → BEntry → Res (OverData × OverEa) := fun _ _ => .ok (.overwrite, .overwrite)
/-- the beginning of filtre_restore, src/libdar/filtre.cpp:207-208: the policy of the user is not considered when only deletions are asked for -/
def RsOpts.effective (o : RsOpts) : RsOpts := if o.onlyDeleted then { o with over := onlyDeletedOver } else o
/-- filtre_restore with the options of the user -/
def restoreUser (o : RsOpts) (cat : BCat) (fs : FS) : Res (FS × Stats) := restore o.effective cat fs

end Dar
