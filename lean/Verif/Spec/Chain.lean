import Verif.Spec.Restore
/- Specification of a sequence of states of a directory tree, each saved by a backup taking the previous archive as reference, then restored one after
the other. -/
namespace Dar

/-- Nothing is excluded, no failure, a comparison with the archive of reference on all the metadata. -/
structure Faithful (o : BkOpts) : Prop where
  what : o.what = .all
  snapshot : o.snapshot = false
  fixed : o.fixed = 0
  cov : ∀ p b, o.cov p b = true
  fails : ∀ p, o.fails p = none

/-- What is read for an inode. -/
structure ScannedObj (x : Obj) : Prop where
  status : x.ino.status = .saved
  ea : x.ino.eaStatus = .full ∨ x.ino.eaStatus = .none ∧ x.eas = []
  fsa : x.fsa = .full ∧ x.fsas ≠ [] ∨ x.fsa = .none

/-- What is read for a tree that has no hard link. -/
structure Scanned (t : BCat) : Prop where
  distinct : BEntry.DistinctL t.root
  entries : ∀ p e, treeAt t.root p = some e → match e with
    | .node x => x.ino.kind ≠ .dir ∧ ScannedObj x
    | .dir x _ => x.ino.kind = .dir ∧ ScannedObj x
    | _ => False

/-- The inode of a tree at a path. -/
def objAt (t : BCat) (p : List Bytes) : Option Obj := (treeAt t.root p).bind (BEntry.obj t.stars)

/-- The changes between two states of the tree can be seen by the backup: `y` is what was at a path, `x` what is there now. -/
structure Visible (ro : RsOpts) (o : BkOpts) (t t' : BCat) : Prop where
  /-- two dates that the comparison does not distinguish are the same -/
  dates : ∀ p y x, objAt t p = some y → objAt t' p = some x →
    (SameRounded y.ino.mtime x.ino.mtime ∨ SameHours o.capa o.hourshift y.ino.mtime x.ino.mtime ∨ SameHours o.capa o.hourshift x.ino.mtime y.ino.mtime) →
    y.ino.mtime = x.ino.mtime
  /-- a modification of the content changes the modification date or the size -/
  data : ∀ p y x, objAt t p = some y → objAt t' p = some x → y.ino.kind = x.ino.kind → y.ino.mtime = x.ino.mtime →
    (x.ino.isFile = true → y.ino.size = x.ino.size) → SameContent y x
  /-- a modification of the attributes gives a later inode change date -/
  attr : ∀ p y x, objAt t p = some y → objAt t' p = some x → y.ino.kind = x.ino.kind →
    (x.ino.ctime.instant ≤ y.ino.ctime.instant ∨ SameRounded x.ino.ctime y.ino.ctime) → y.eas = x.eas ∧ y.fsas = x.fsas
  /-- a directory is not replaced by something else (see the counterexample) -/
  dirs : ∀ p y x, objAt t p = some y → objAt t' p = some x → y.ino.kind = .dir → x.ino.kind = .dir
  /-- what has extended attributes is not replaced by an inode of another type that has none (see the counterexample) -/
  kinds : ∀ p y x, objAt t p = some y → objAt t' p = some x → y.ino.kind ≠ x.ino.kind → x.ino.eaStatus = .none → y.eas = []
  /-- the binary difference, when used, is correct -/
  patch : ∀ p y x, objAt t p = some y → objAt t' p = some x → o.deltaDiff = true → y.ino.kind = x.ino.kind → x.ino.isFile = true →
    ∀ x', x'.data = x.data → ro.patch y.data x' = .ok x.data

/-- The backups of the successive states of a tree (with the date of the root directory), each with the previous archive as reference. -/
def backups (o : BkOpts) : BCat → List (DateT × BCat) → Res (List BCat)
  | _, [] => .ok []
  | ref, (d, t) :: l => do
    let (a, _) ← backupAll o d t ref
    let r ← backups o a l
    .ok (a :: r)
/-- The restorations of successive archives: the filesystem, the number of errors. -/
def restores (ro : RsOpts) : FS → List BCat → Res (FS × Nat)
  | fs, [] => .ok (fs, 0)
  | fs, a :: l => do
    let (fs, st) ← restore ro a fs
    let (fs, n) ← restores ro fs l
    .ok (fs, st.errored + n)

/-- Each state and the next one. -/
def Successive (ro : RsOpts) (o : BkOpts) : BCat → List (DateT × BCat) → Prop
  | _, [] => True
  | t, (_, t') :: l => Scanned t' ∧ Visible ro o t t' ∧ Successive ro o t' l
/-- The last state. -/
def lastState : BCat → List (DateT × BCat) → BCat
  | t, [] => t
  | _, (_, t') :: l => lastState t' l

end Dar
