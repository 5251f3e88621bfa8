import Verif.Spec.Restore
/- Specification of the options of a restoration: filters, overwriting policy, only/no deletions. -/
namespace Dar

/-- A filesystem, hard links allowed: what contains a name is a directory, the root is one, inode numbers are below the next one. -/
structure FSOk (fs : FS) : Prop where
  root : ∃ y, fs.ent [] = some (.dir y)
  parent : ∀ p, p ≠ [] → fs.ent p ≠ none → fs.isDir p.dropLast = true
  ids : ∀ p i, fs.ent p = some (.ino i) → i < fs.next
  kinds : ∀ p i, fs.ent p = some (.ino i) → (fs.ino i).ino.kind ≠ .dir
  dirs : ∀ p y, p ≠ [] → fs.ent p = some (.dir y) → y.ino.kind = .dir

/-- The restoration has something to do with this entry: the filters keep it, and it is not a deletion when deletions are to be ignored, nor anything else than a
directory or a deletion when only deletions are asked for. -/
def Considered (o : RsOpts) (p : List Bytes) (e : BEntry) : Prop :=
  o.cov p e = true ∧ (o.notDeleted = true → e.isDet = false) ∧ (o.onlyDeleted = true → e.isDir = true ∨ e.isDet = true)
/-- A path of which the archive tells nothing, or that is excluded by the options, or that is inside an excluded directory. -/
def Outside (o : RsOpts) (cat : BCat) (p : List Bytes) : Prop :=
  ∃ a, a ≠ [] ∧ a <+: p ∧ ∀ e, treeAt cat.root a = some e → ¬ Considered o a e
/-- The directories above a path are directories in the archive, if they are in it, and the policy does not say to remove them. -/
def KeptAbove (o : RsOpts) (cat : BCat) (p : List Bytes) : Prop :=
  ∀ q e, q <+: p → q ≠ p → treeAt cat.root q = some e → Considered o q e →
    ∃ x c, e = .dir x c ∧ x.ino.kind = .dir ∧ ∀ y ad ae, o.over y e = .ok (ad, ae) → ad ≠ .remove

/-- The policy is to keep all that exists. -/
def Preserving (o : RsOpts) : Prop :=
  ∀ y e, ∃ ad ae, o.over y e = .ok (ad, ae) ∧ (ad = .preserve ∨ ad = .preserveMark) ∧ (ae = .preserve ∨ ae = .preserveMark)

/-- The inode of an entry -/
def BEntry.inodeOf (stars : Nat → Obj) : BEntry → Option Obj
  | .node x => some x
  | .dir x _ => some x
  | .mirage _ k => some (stars k)
  | _ => none
/-- The archive holds no binary difference, and the hard linked inodes are fully saved. -/
def NoPatch (cat : BCat) : Prop :=
  (∀ p e x, treeAt cat.root p = some e → e.inodeOf cat.stars = some x → x.ino.status ≠ .delta) ∧
  (∀ p n k, treeAt cat.root p = some (.mirage n k) → (cat.stars k).ino.status = .saved)
/-- The same directory, but perhaps for the owner, the permissions and the modification date. -/
def SameButOwner (y z : Obj) : Prop :=
  z = { y with ino := { y.ino with uid := z.ino.uid, gid := z.ino.gid, perm := z.ino.perm, mtime := z.ino.mtime } }
/-- All that the archive has in this directory exists already, and it records no deletion in it. -/
def Quiet (cat : BCat) (fs : FS) (p : List Bytes) : Prop :=
  ∀ n e, treeAt cat.root (p ++ [n]) = some e → fs.ent (p ++ [n]) ≠ none ∧ e.isDet = false

/-- What is needed for an entry to be created where there is nothing: not only deletions are asked for, the archive holds the inode, as a whole unless it is a directory or a hard link
(of which another name may exist). -/
def Creatable (o : RsOpts) (stars : Nat → Obj) (e : BEntry) : Prop :=
  o.onlyDeleted = false ∧ ∃ x, e.inodeOf stars = some x ∧ x.ino.status ≠ .delta ∧ x.ino.status ≠ .inodeOnly ∧ (x.ino.status = .saved ∨ e.isDir = true ∨ ∃ n k, e = .mirage n k)
/-- The restoration may create this name. -/
def MayCreate (o : RsOpts) (cat : BCat) (p : List Bytes) : Prop := ∃ e, treeAt cat.root p = some e ∧ Considered o p e ∧ Creatable o cat.stars e
/-- The restoration may make this name disappear: the archive records its deletion or the one of a directory above, or the policy says to remove one of them, or
one of these directories is something else in the archive. -/
def MayRemove (o : RsOpts) (cat : BCat) (p : List Bytes) : Prop :=
  ∃ q e, q <+: p ∧ treeAt cat.root q = some e ∧ Considered o q e ∧
    (e.isDet = true ∨ (∃ y ae, o.over y e = .ok (.remove, ae)) ∨ q ≠ p ∧ ¬ ∃ x c, e = .dir x c ∧ x.ino.kind = .dir)

/-- The directories above a path are kept by the options and are directories in the archive; the policy says either to preserve or to overwrite them. -/
def RsReached (o : RsOpts) (cat : BCat) (p : List Bytes) : Prop :=
  ∀ q e, q ≠ [] → q <+: p → q ≠ p → treeAt cat.root q = some e → ∃ x c, e = .dir x c ∧ x.ino.kind = .dir ∧ Considered o q e ∧
    ∀ y, ∃ ad ae, o.over y e = .ok (ad, ae) ∧ (ad = .preserve ∨ ad = .preserveMark ∨ ad = .overwrite ∨ ad = .overwriteMark)

/-- How attributes are read: `look a n` is the value of the attribute `n` in `a`.  Setting attributes on an inode gives their value to those that are set and does not change the others. -/
structure LookLaw (set : Bytes → Bytes → Bytes) (look : Bytes → Bytes → Option Bytes) : Prop where
  none : ∀ n, look [] n = none
  set : ∀ a b n, look (set a b) n = (look b n).or (look a n)

/-- The policy replaces data. -/
def Replaces (ad : OverData) : Prop := ad = .overwrite ∨ ad = .overwriteMark
instance (ad : OverData) : Decidable (Replaces ad) := by unfold Replaces; infer_instance
/-- The data or the inode is in the archive. -/
def InArchive (x : Obj) : Prop := x.ino.status = .saved ∨ x.ino.status = .inodeOnly
instance (x : Obj) : Decidable (InArchive x) := by unfold InArchive; infer_instance
/-- Nothing can be done: a binary difference that cannot be applied, the metadata of an inode of another type, an undefined action. -/
def Refused (o : RsOpts) (ad : OverData) (x y : Obj) : Prop :=
  (x.ino.status = .inodeOnly ∧ Replaces ad ∧ y.ino.kind ≠ x.ino.kind) ∨
  (x.ino.status = .delta ∧ y.ino.isFile = true ∧ ∀ d, o.patch y.data x ≠ .ok d) ∨
  (InArchive x ∧ ad = .undefined)
/-- Owner, permissions and modification date: those of `x`, as far as they are to be considered, else those given. -/
structure Stamped (o : RsOpts) (x : Obj) (uid gid perm : Nat) (mtime : DateT) (z : Obj) : Prop where
  uid : z.ino.uid = if o.what = .all then x.ino.uid else uid
  gid : z.ino.gid = if o.what = .all then x.ino.gid else gid
  perm : z.ino.perm = if (o.what = .all ∨ o.what = .ignoreOwner) ∧ x.ino.kind ≠ .symlink then x.ino.perm else perm
  mtime : z.ino.mtime = if o.what = .inodeType then mtime else x.ino.mtime
/-- The data and the metadata that result from the restoration of `x` over `y`. -/
def DataOutcome (o : RsOpts) (ad : OverData) (x y z : Obj) : Prop :=
  match x.ino.status with
  | .saved => if Replaces ad then z.ino.kind = x.ino.kind ∧ SameContent z x ∧ Stamped o x o.uid o.gid 448 o.now z else z.ino = y.ino ∧ z.data = y.data
  | .inodeOnly => if Replaces ad then z.ino.kind = y.ino.kind ∧ SameContent z y ∧ Stamped o x y.ino.uid y.ino.gid y.ino.perm y.ino.mtime z else z.ino = y.ino ∧ z.data = y.data
  | .delta =>
    if y.ino.isFile = true then z.ino.kind = y.ino.kind ∧ o.patch y.data x = .ok z.data ∧ Stamped o x y.ino.uid y.ino.gid y.ino.perm o.now z else z.ino = y.ino ∧ z.data = y.data
  | _ => z.ino = y.ino ∧ z.data = y.data
/-- The extended attributes that result from the restoration of `x` over `y`. -/
def eaOutcome (look : Bytes → Bytes → Option Bytes) (ae : OverEa) (x y : Obj) (n : Bytes) : Option Bytes :=
  let old := look y.eas n
  match x.ino.eaStatus with
  | .full =>
    let new := look x.eas n
    (match ae with
    | .overwrite => new
    | .overwriteMark => new
    | .clear => none
    | .mergePreserve => old.or new
    | .mergeOverwrite => new.or old
    | _ => old)
  | .removed =>
    (match ae with
    | .preserve => old
    | .preserveMark => old
    | .undefined => old
    | .ask => old
    | _ => none)
  | _ => old
/-- The attributes of the filesystem that result from the restoration of `x` over `y`; `base`: those of a new inode, if it is one. -/
def fsaOutcome (look : Bytes → Bytes → Option Bytes) (ae : OverEa) (base : Bytes) (x y : Obj) (n : Bytes) : Option Bytes :=
  let old := (look y.fsas n).or (look base n)
  let new := look x.fsas n
  if x.fsa = .full then
    match ae with
    | .overwrite => new.or old
    | .overwriteMark => new.or old
    | .mergePreserve => (look y.fsas n).or (new.or (look base n))
    | .mergeOverwrite => new.or old
    | _ => old
  else old

end Dar
