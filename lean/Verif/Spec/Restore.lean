import Verif.Spec.Destroyed
import Verif.Model.Restore
/- Specification of a restoration, path by path: what "the filesystem is the saved tree" means, and what a sequence of states of the tree must satisfy for
differential backups to see the changes. -/
namespace Dar

/-- Same data (plain files), same target (symbolic links), same device numbers. -/
def SameContent (y x : Obj) : Prop :=
  (x.ino.isFile = true → y.data = x.data ∧ y.ino.size = x.ino.size) ∧ (x.ino.kind = .symlink → y.ino.target = x.ino.target) ∧
  (x.ino.isDevice = true → y.ino.major = x.ino.major ∧ y.ino.minor = x.ino.minor)

/-- The inode `y` found on the filesystem is the inode `x` that was saved: type, owner, permissions, modification date, content, attributes.
(The permissions of a symbolic link and the attributes of a filesystem that has none are not considered.) -/
structure Match (y x : Obj) : Prop where
  kind : y.ino.kind = x.ino.kind
  uid : y.ino.uid = x.ino.uid
  gid : y.ino.gid = x.ino.gid
  perm : x.ino.kind ≠ .symlink → y.ino.perm = x.ino.perm
  mtime : y.ino.mtime = x.ino.mtime
  content : SameContent y x
  eas : y.eas = x.eas
  fsas : x.fsa ≠ .none → y.fsas = x.fsas

/-- What the filesystem must have at the path of an entry of the tree. -/
def FoundAt (fs : FS) (stars : Nat → Obj) (p : List Bytes) : Option BEntry → Prop
  | none => fs.ent p = none
  | some (.detruit _ _ _) => fs.ent p = none
  | some (.node x) => ∃ i, fs.ent p = some (.ino i) ∧ Match (fs.ino i) x
  | some (.dir x _) => ∃ y, fs.ent p = some (.dir y) ∧ Match y x
  | some (.mirage _ k) => ∃ i, fs.ent p = some (.ino i) ∧ Match (fs.ino i) (stars k)
  | _ => False

/-- The filesystem is the tree: the same names, the same inodes, and two names are the same inode exactly when they were hard links to the same one. -/
structure SameTree (fs : FS) (t : BCat) : Prop where
  names : ∀ p, p ≠ [] → FoundAt fs t.stars p (treeAt t.root p)
  notLinked : ∀ p q i, fs.ent p = some (.ino i) → fs.ent q = some (.ino i) →
    p = q ∨ ∃ m n k, treeAt t.root p = some (.mirage m k) ∧ treeAt t.root q = some (.mirage n k)
  linked : ∀ p q m n k, treeAt t.root p = some (.mirage m k) → treeAt t.root q = some (.mirage n k) → fs.ent p = fs.ent q

/-- A filesystem: what contains a name is a directory, the root is one, inode numbers are below the next one. -/
structure FSWf (fs : FS) : Prop where
  root : ∃ y, fs.ent [] = some (.dir y)
  parent : ∀ p, p ≠ [] → fs.ent p ≠ none → fs.isDir p.dropLast = true
  ids : ∀ p i, fs.ent p = some (.ino i) → i < fs.next
  kinds : ∀ p i, fs.ent p = some (.ino i) → (fs.ino i).ino.kind ≠ .dir
  dirs : ∀ p y, p ≠ [] → fs.ent p = some (.dir y) → y.ino.kind = .dir
  /-- no hard links -/
  single : ∀ p q i, fs.ent p = some (.ino i) → fs.ent q = some (.ino i) → p = q

/-- A restoration with the overwriting policy "overwrite data and attributes", no filter, on a filesystem where setting attributes works: they come in
addition to those present for the extended attributes, and all the attributes of the filesystem are given at once. -/
structure Plain (o : RsOpts) : Prop where
  what : o.what = .all
  over : ∀ y e, o.over y e = .ok (.overwrite, .overwrite)
  eaNew : ∀ w, o.eaOver [] w = w
  eaSame : ∀ w, o.eaOver w w = w
  fsaNew : ∀ a b, b ≠ [] → o.fsaOver a b = b
  fsaNil : ∀ a, o.fsaOver a [] = a
  cov : ∀ p e, o.cov p e = true
  onlyDeleted : o.onlyDeleted = false
  notDeleted : o.notDeleted = false

/-- What is recorded for an inode is enough, considering what the filesystem has at its path. -/
def Enough (o : RsOpts) (old : Option Obj) (x : Obj) : Prop :=
  match old with
  | none => x.ino.status = .saved ∧ (x.ino.eaStatus = .full ∨ x.eas = []) ∧ (x.fsa = .full ∧ x.fsas ≠ [] ∨ x.fsa = .none)
  | some y =>
    (match x.ino.status with
      | .saved => y.ino.kind = .dir → x.ino.kind = .dir
      | .inodeOnly => y.ino.kind = x.ino.kind ∧ SameContent y x
      | .delta => y.ino.kind = x.ino.kind ∧ x.ino.isFile = true ∧ o.patch y.data x = .ok x.data
      | .notSaved => y.ino.kind = x.ino.kind ∧ SameContent y x ∧ y.ino.uid = x.ino.uid ∧ y.ino.gid = x.ino.gid ∧
          (x.ino.kind ≠ .symlink → y.ino.perm = x.ino.perm) ∧ y.ino.mtime = x.ino.mtime
      | .fake => False) ∧
    (match x.ino.eaStatus with
      | .full => True
      | .removed => x.eas = []
      | _ => y.eas = x.eas) ∧
    (match x.fsa with
      | .full => x.fsas ≠ []
      | .part => y.fsas = x.fsas ∧ x.fsas ≠ []
      | .none => True)

/-- An entry of the archive can be restored on this filesystem.  A hard link must not replace an existing file (see the counterexamples). -/
def EntryOk (o : RsOpts) (fs : FS) (stars : Nat → Obj) (p : List Bytes) : BEntry → Prop
  | .node x => x.ino.kind ≠ .dir ∧ Enough o (fs.obj p) x
  | .dir x _ => x.ino.kind = .dir ∧ Enough o (fs.obj p) x
  | .mirage _ k => (stars k).ino.kind ≠ .dir ∧ fs.ent p = none ∧ Enough o none (stars k)
  | .detruit _ _ _ => fs.ent p ≠ none
  | _ => False

/-- An archive that can be restored on a filesystem: it tells enough about each entry, and tells something about all that the filesystem has in the directories of
the archive. -/
structure Restorable (o : RsOpts) (fs : FS) (cat : BCat) : Prop where
  distinct : BEntry.DistinctL cat.root
  entries : ∀ p e, treeAt cat.root p = some e → EntryOk o fs cat.stars p e
  complete : ∀ p n, fs.ent (p ++ [n]) ≠ none → (p = [] ∨ ∃ x c, treeAt cat.root p = some (.dir x c)) → treeAt cat.root (p ++ [n]) ≠ none

end Dar
