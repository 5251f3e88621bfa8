import Verif.Model.Restore
import Verif.Model.Attributes
import Verif.Model.Crc
import Verif.Model.ToolsText
/- Model of the comparison of an archive with a filesystem: src/libdar/filtre.cpp:1203-1400 filtre_difference, src/libdar/cat_inode.cpp:383-530 cat_inode::compare, cat_file, cat_lien and
cat_device ::sub_compare, src/libdar/generic_file.cpp:325-390 generic_file::diff, src/libdar/filesystem_diff.cpp.
Not modelled: the sequential reading mode; errors while reading the contents of files or attributes (those of lstat are); the restoration of access dates; the texts of the messages. -/
namespace Dar

/-! ### contents -/

/-- while(i < lu1 && buffer1[i] == buffer2[i]) ++i; src/libdar/generic_file.cpp:353-355 -/
def commonLen : Bytes → Bytes → Nat
  | a :: l, b :: m => if a = b then commonLen l m + 1 else 0
  | _, _ => 0

/-- the loop of generic_file::diff, src/libdar/generic_file.cpp:346-377: `me` and `you` are what remains to be read from both files, a reading of `B` bytes giving less than asked for only
at the end of the file; `addr` is the address of the buffer.  The result: whether there is a difference, the offset and the checksum. -/
def diffLoop (B addr : Nat) : Nat → Bytes → Bytes → Nat → Crc → Res (Bool × Nat × Crc)
  | 0, _, _, _, _ => .error .diverge
  | n + 1, me, you, off, c =>
    let b1 := me.take B
    let b2 := you.take B
    if b1.length = b2.length then
      if commonLen b1 b2 < b1.length then .ok (true, off + commonLen b1 b2, c)
      else do
        let c ← c.compute addr b1
        if b1.length > 0 then diffLoop B addr n (me.drop B) (you.drop B) (off + b1.length) c else .ok (false, off + b1.length, c)
    else .ok (true, off + (if b1.length > b2.length then b2.length else b1.length), c)
/-- BUFFER_SIZE, src/libdar/generic_file.cpp:75 -/
def genericBuffer : Nat := 102400
/-- generic_file::diff, src/libdar/generic_file.cpp:325-390, of two files open for reading -/
def genericDiff (B addr : Nat) (me you : Bytes) (width : Nat) : Res (Bool × Nat × Crc) := do
  let c ← crcCreate width
  diffLoop B addr (me.length + 1) me you 0 c

/-- generic_file::copy_to with a checksum, src/libdar/generic_file.cpp:245-290: what the checksum is fed with -/
def copyLoop (B addr : Nat) : Nat → Bytes → Crc → Res Crc
  | 0, _, _ => .error .diverge
  | n + 1, data, c => do
    let b := data.take B
    let c ← c.compute addr b
    if b.length > 0 then copyLoop B addr n (data.drop B) c else .ok c
def genericCopyCrc (B addr : Nat) (data : Bytes) (width : Nat) : Res Crc := do
  let c ← crcCreate width
  copyLoop B addr (data.length + 1) data c

/-! ### inodes -/

/-- What the comparison depends on.  `eaOf`, `fsaOf`: the attributes that the bytes attached to an inode stand for.  `crcOf`: the checksum of the data found in the archive, if any
(get_crc); `patchCrc`: the checksum a file will have once patched (get_patch_result_crc); `sigOf`: the signature found in the archive; `sign`: the signature of a content, computed in the way of
the signature of the archive.  `fails`: lstat fails for another reason than a missing file.  `scope`: the families of attributes to consider.  `subtree`, `names`, `eaMask`: the filters. -/
structure DfOpts where
  capa : TimeUnit
  hourshift : Nat
  what : CmpFields
  symlinkDate : Bool
  isolated : Bool
  addr : Nat
  subtree : List Bytes → Bool
  names : Bytes → Bool
  eaMask : Bytes → Bool
  eaOf : Bytes → EaMap
  scope : FsaFam → Bool
  fsaOf : Bytes → List Fsa
  crcOf : Obj → Option Crc
  patchCrc : Obj → Option Crc
  sigOf : Obj → Bytes
  sign : Obj → Bytes → Bytes
  fails : List Bytes → Option Err

/-- "throw Erange" unless -/
def unlessRange (b : Bool) : Res Unit := if b then .ok () else .error .range

/-- a saved content is compared, src/libdar/cat_file.cpp:1517-1608 -/
def cmpData (o : DfOpts) (x y : Obj) : Res Unit := do
  let w ← (match o.crcOf x with
    | some c => .ok c.st.cyc.length
    | none => crcSizeFor y.ino.size : Res Nat)
  let (d, _, value) ← genericDiff genericBuffer o.addr x.data y.data w
  if d then .error .range
  else match o.crcOf x with
    | none => .ok ()
    | some c =>
      if c.st.cyc.length ≠ value.st.cyc.length then .error .range
      else do
        let e ← c.eqv value
        unlessRange e
/-- "isolated_mode and no signature or no data", src/libdar/cat_file.cpp:1684-1751 -/
def cmpCrc (o : DfOpts) (x y : Obj) : Res Unit := do
  (if x.ino.status = .delta then
    match o.crcOf x with
    | none => .error .range
    | some _ => match o.patchCrc x with
      | none => .error .bug
      | some _ => .ok ()
  else .ok () : Res Unit)
  match (if x.ino.status = .delta then o.patchCrc x else o.crcOf x) with
  | none => .ok ()
  | some c => do
    let value ← genericCopyCrc genericBuffer o.addr y.data c.st.cyc.length
    if c.st.cyc.length ≠ value.st.cyc.length then .error .range
    else do
      let e ← c.eqv value
      unlessRange e
/-- cat_file::sub_compare and sub_compare_internal, src/libdar/cat_file.cpp:1473-1752: the shift of hours is zero whatever the options are; what is found on the filesystem is "saved" and has
no signature; librsync is available -/
def cmpFile (o : DfOpts) (x y : Obj) : Res Unit :=
  if x.ino.size ≠ y.ino.size then .error .range
  else do
    let same ← equalHourshift o.capa 0 x.ino.mtime y.ino.mtime
    if same = false then .error .range
    else if x.ino.status = .saved ∧ o.isolated = false then cmpData o x y
    else if x.ino.deltaSig then unlessRange (decide ((o.sigOf x).length = (o.sign x y.data).length) && decide (o.sigOf x = o.sign x y.data))
    else cmpCrc o x y
/-- sub_compare: cat_file::sub_compare, cat_lien::sub_compare src/libdar/cat_lien.cpp:90-103, cat_device::sub_compare src/libdar/cat_device.cpp:145-159, and cat_inode::sub_compare
which does nothing -/
def subCompare (o : DfOpts) (x y : Obj) : Res Unit :=
  if x.ino.isFile then cmpFile o x y
  else if x.ino.kind = .symlink then
    if x.ino.status = .saved then unlessRange (decide (x.ino.target = y.ino.target)) else .ok ()
  else if x.ino.isDevice then
    if x.ino.status = .saved then unlessRange (decide (x.ino.major = y.ino.major) && decide (x.ino.minor = y.ino.minor)) else .ok ()
  else .ok ()

/-- attach_ea, src/libdar/filesystem_hard_link_read.cpp:310 and ea_filesystem_read_ea: the covered attributes of what is found on the filesystem; the status of its EA is `full` when there is one,
else `none` -/
def DfOpts.eaThere (o : DfOpts) (y : Obj) : EaMap := (o.eaOf y.eas).filter (fun p => o.eaMask p.1)
/-- get_fsa_from_filesystem_for, src/libdar/filesystem_hard_link_read.cpp:336-357: the attributes of the families in the scope, the status being `full` when there is one, else `none` -/
def DfOpts.fsaThere (o : DfOpts) (y : Obj) : List Fsa := (o.fsaOf y.fsas).filter (fun a => o.scope a.fam)

/-- "inode last change date (ctime) greater", src/libdar/cat_inode.cpp:454-456, 508-510 -/
def ctimeCheck (o : DfOpts) (x y : Obj) : Res Unit := do
  let e ← equalHourshift o.capa o.hourshift x.ino.ctime y.ino.ctime
  if e then .ok ()
  else do
    let l ← x.ino.ctime.lt y.ino.ctime
    unlessRange (!l)
/-- the extended attributes, src/libdar/cat_inode.cpp:425-475 -/
def cmpEa (o : DfOpts) (x y : Obj) : Res Unit :=
  match x.ino.eaStatus with
  | .full =>
    if o.eaThere y = [] then .error .range
    else if o.isolated then .ok ()
    else unlessRange (!(eaDiff (o.eaOf x.eas) (o.eaThere y) o.eaMask))
  | .part => if o.eaThere y = [] then .error .range else ctimeCheck o x y
  | .fake => if o.eaThere y = [] then .error .range else ctimeCheck o x y
  | .none => .ok ()
  | .removed => .ok ()
/-- the attributes of the filesystem, src/libdar/cat_inode.cpp:477-528 -/
def cmpFsa (o : DfOpts) (x y : Obj) : Res Unit :=
  let none : Res Unit := if o.scope .hfs || o.scope .extX then .error .range else .ok ()
  match x.fsa with
  | .full =>
    if o.fsaThere y = [] then none
    else if o.isolated then .ok ()
    else do
      let i ← fsaIncluded o.scope (o.fsaOf x.fsas) (o.fsaThere y)
      unlessRange i
  | .part => if o.fsaThere y = [] then none else ctimeCheck o x y
  | .none => .ok ()

/-- the modification date is looked at by cat_inode::compare -/
def CmpFields.dates (w : CmpFields) : Bool := decide (w = .all) || decide (w = .ignoreOwner) || decide (w = .mtime)
/-- cat_inode::compare, src/libdar/cat_inode.cpp:383-530.  Both inodes have the same name (see `sameInPlace`). -/
def cmpInode (o : DfOpts) (x y : Obj) : Res Unit :=
  if sameInPlace x y = false then .error .range
  else if o.what = .all ∧ x.ino.uid ≠ y.ino.uid then .error .range
  else if o.what = .all ∧ x.ino.gid ≠ y.ino.gid then .error .range
  else if (o.what = .all ∨ o.what = .ignoreOwner) ∧ x.ino.perm ≠ y.ino.perm then .error .range
  else do
    let t ← (if (y.ino.kind ≠ .symlink ∨ o.symlinkDate = true) ∧ o.what.dates = true then equalHourshift o.capa o.hourshift x.ino.mtime y.ino.mtime else .ok true : Res Bool)
    if t = false then .error .range
    else do
      subCompare o x y
      cmpEa o x y
      cmpFsa o x y

/-! ### the whole tree -/

/-- what is told of an entry: "OK", "DIFF" or "ERR", "SKIPPED", or nothing for what is not an inode -/
inductive DfWord where | ok | diff | skipped | silent
  deriving DecidableEq, Repr
/-- juillet and current_dir of filesystem_diff (relative to the root of the comparison); the counters; what has been told (last first); the directories to leave before the end of what
is skipped (cat.skip_read_to_parent_dir) -/
structure DfSt where
  adir : List Bytes
  fdir : List Bytes
  st : Stats
  told : List (DfWord × List Bytes)
  skip : Nat

/-- st.incr_errored and the message -/
def DfSt.bad (s : DfSt) (p : List Bytes) : DfSt := { s with st := s.st.err, told := (.diff, p) :: s.told }
/-- st.incr_treated and the message -/
def DfSt.good (s : DfSt) (w : DfWord) (p : List Bytes) : DfSt := { s with st := { s.st with treated := s.st.treated + 1 }, told := (w, p) :: s.told }
/-- st.incr_ignored and the message -/
def DfSt.passed (s : DfSt) (p : List Bytes) : DfSt := { s with st := s.st.ign, told := (.skipped, p) :: s.told }
/-- the exceptions filtre_difference does not catch, src/libdar/filtre.cpp:1375-1390 -/
def Err.fatal : Err → Bool
  | .bug => true
  | .userAbort => true
  | .script => true
  | .cancel => true
  | .ub => true
  | .diverge => true
  | _ => false
/-- both trees go in the directory -/
def DfSt.into (s : DfSt) (n : Bytes) : DfSt := { s with adir := s.adir ++ [n], fdir := s.fdir ++ [n] }

/-- an inode of the archive against the one found there, src/libdar/filtre.cpp:1296-1342.  When the latter only is a directory, filesystem_diff comes back from it. -/
def DfSt.against (o : DfOpts) (s : DfSt) (e : BEntry) (x y : Obj) : Res DfSt :=
  let p := s.adir ++ [e.name]
  let follow (s : DfSt) : DfSt := if e.isDir then (if y.ino.kind = .dir then s.into e.name else { s with skip := 1 }) else s
  match cmpInode o x y with
  | .ok _ => .ok (follow (s.good .ok p))
  | .error err => if err.fatal then .error err else .ok (follow (s.bad p))
/-- an inode of the archive, src/libdar/filtre.cpp:1286-1355: read_filename, and the comparison.  When read_filename throws, the archive is read further but filesystem_diff has not
moved. -/
def DfSt.inode (o : DfOpts) (fs : FS) (s : DfSt) (e : BEntry) (x : Obj) : Res DfSt :=
  let p := s.adir ++ [e.name]
  match o.fails (s.fdir ++ [e.name]) with
  | some err =>
    if err.fatal then .error err
    else .ok (if e.isDir then { s.bad p with adir := s.adir ++ [e.name] } else s.bad p)
  | none =>
    match fs.obj (s.fdir ++ [e.name]) with
    | none => .ok (if e.isDir then { s.bad p with skip := 1 } else s.bad p)
    | some y => s.against o e x y

/-- one turn of the loop, src/libdar/filtre.cpp:1259-1396.  skip_read_filename_in_parent_dir, when it has left the root of the comparison, is followed sooner or later by a SRC_BUG
(the last call, 1397, has nothing to remove): the model stops there. -/
def dfStep (o : DfOpts) (stars : Nat → Obj) (fs : FS) (s : DfSt) (ev : BEv) : Res DfSt :=
  if s.skip > 0 then
    match ev with
    | .entry e => .ok (if e.isDir then { s with skip := s.skip + 1 } else s)
    | .eod => .ok { s with skip := s.skip - 1 }
  else match ev with
    | .eod => if s.fdir = [] then .error .bug else .ok { s with adir := s.adir.dropLast, fdir := s.fdir.dropLast }
    | .entry e =>
      let p := s.adir ++ [e.name]
      if o.subtree p && (e.isDir || o.names e.name) then
        match e.obj stars with
        | none => .ok (s.good .silent p)
        | some x => s.inode o fs e x
      else .ok (if e.isDir then { s.passed p with skip := 1 } else s.passed p)
/-- the loop -/
def dfLoop (o : DfOpts) (stars : Nat → Obj) (fs : FS) (s : DfSt) : List BEv → Res DfSt
  | [] => .ok s
  | ev :: l => do
    let s ← dfStep o stars fs s ev
    dfLoop o stars fs s l

/-- filtre_difference, src/libdar/filtre.cpp:1203-1400: the counters and what is told, in the order of the messages -/
def difference (o : DfOpts) (cat : BCat) (fs : FS) : Res (Stats × List (DfWord × List Bytes)) := do
  let s ← dfLoop o cat.stars fs ⟨[], [], Stats.zero, [], 0⟩ (BEntry.eventsList cat.root)
  .ok (s.st, s.told.reverse)

end Dar
