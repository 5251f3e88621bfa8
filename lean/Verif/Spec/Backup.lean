import Verif.Model.Backup
import Verif.Props.Datetime
/- Specification of what a backup records for each file: written with instants in nanoseconds and paths, not with the state machine of the code. -/
namespace Dar

/-- The entry at a path (a list of names) below a directory. -/
def treeAt : List BEntry → List Bytes → Option BEntry
  | _, [] => none
  | l, [n] => l.find? (fun e => e.name = n)
  | l, n :: m :: p => match l.find? (fun e => e.name = n) with
    | some (.dir _ c) => treeAt c (m :: p)
    | _ => none

/-- The path and all the directories above it are covered by the filters and could be saved. -/
def Kept (o : BkOpts) (p : List Bytes) : Prop := ∀ q, q ≠ [] → q <+: p → o.cov q false = true ∧ o.fails q = none

/-- Two dates are the same once both are rounded down to the larger of their units. -/
def SameRounded (a b : DateT) : Prop := a.instant / (unitMax a.uni b.uni).nanos = b.instant / (unitMax a.uni b.uni).nanos
/-- Two dates are the same, rounded to the accuracy `capa` if it is larger, up to a whole number of hours not above `hs`. -/
def SameHours (capa : TimeUnit) (hs : Nat) (a b : DateT) : Prop :=
  let n := (looseUnit capa a b).nanos
  let x := a.instant / n * n
  let y := b.instant / n * n
  ∃ h, h ≤ hs ∧ (x = y + h * 3600 * 1000000000 ∨ y = x + h * 3600 * 1000000000)

/-- What makes a file changed compared to the reference: according to the chosen comparison fields, its modification date, its permissions, its
owner, and in any case the size of a plain file. -/
def Changed (o : BkOpts) (x b : Ino) : Prop :=
  (o.what ≠ .inodeType ∧ (o.hourshift ≠ 0 ∧ ¬ SameHours o.capa o.hourshift b.mtime x.mtime ∨ o.hourshift = 0 ∧ ¬ SameRounded b.mtime x.mtime)) ∨
  (o.what = .all ∧ (x.uid ≠ b.uid ∨ x.gid ≠ b.gid)) ∨
  ((o.what = .all ∨ o.what = .ignoreOwner) ∧ x.perm ≠ b.perm) ∨
  (x.isFile = true ∧ x.size ≠ b.size)

/-- The archive of reference, when one is used, has at the same path an inode of the same type: `b`. -/
def Reference (o : BkOpts) (ref : BCat) (p : List Bytes) (x b : Obj) : Prop :=
  o.snapshot = false ∧ o.fixed = 0 ∧ ∃ g, treeAt ref.root p = some g ∧ g.obj ref.stars = some b ∧ b.ino.kind = x.ino.kind

/-- The inode has not to be saved. -/
def Skipped (o : BkOpts) (ref : BCat) (p : List Bytes) (x : Obj) : Prop :=
  o.snapshot = true ∨ (o.snapshot = false ∧ o.fixed ≠ 0 ∧ x.ino.mtime.instant < o.fixed * 1000000000) ∨
  ∃ b, Reference o ref p x b ∧ ¬ Changed o x.ino b.ino ∧ ¬ (b.ino.isFile = true ∧ b.ino.dirty = true)

/-- Only the metadata has to be saved. -/
def MetaOnly (o : BkOpts) (ref : BCat) (p : List Bytes) (x : Obj) : Prop :=
  ¬ Skipped o ref p x ∧ o.modData = .mtimeSize ∧ x.ino.isFile = true ∧
  ∃ b, Reference o ref p x b ∧ x.ino.size = b.ino.size ∧ SameHours o.capa o.hourshift x.ino.mtime b.ino.mtime

/-- A binary difference has to be saved. -/
def DeltaOnly (o : BkOpts) (ref : BCat) (p : List Bytes) (x : Obj) : Prop :=
  ¬ Skipped o ref p x ∧ ¬ MetaOnly o ref p x ∧ o.deltaDiff = true ∧ x.ino.isFile = true ∧ ∃ b, Reference o ref p x b ∧ b.ino.deltaSig = true

/-- The attributes of the inode have not to be saved: `had` tells that the inode of reference had some. -/
def AttrSkipped (o : BkOpts) (ref : BCat) (p : List Bytes) (x : Obj) (had : Obj → Prop) : Prop :=
  o.snapshot = true ∨ (o.snapshot = false ∧ o.fixed ≠ 0 ∧ x.ino.ctime.instant < o.fixed * 1000000000) ∨
  ∃ b, Reference o ref p x b ∧ had b ∧ (x.ino.ctime.instant ≤ b.ino.ctime.instant ∨ SameRounded x.ino.ctime b.ino.ctime)

/-- What the new archive records for the inode `x` found at the path `p`. -/
structure Recorded (o : BkOpts) (ref : BCat) (p : List Bytes) (x x' : Obj) : Prop where
  /-- nothing but the statuses is touched -/
  same : ∃ s a d f, x' = { x with ino := { x.ino with status := s, eaStatus := a, dirty := d }, fsa := f } ∧
    (d = x.ino.dirty ∨ d = true ∧ o.dirty p = true ∧ x.ino.isFile = true ∧ (s = .saved ∨ s = .delta))
  notSaved : x'.ino.status = .notSaved ↔ Skipped o ref p x
  inodeOnly : x'.ino.status = .inodeOnly ↔ MetaOnly o ref p x
  delta : x'.ino.status = .delta ↔ DeltaOnly o ref p x
  saved : x'.ino.status = .saved ↔ ¬ Skipped o ref p x ∧ ¬ MetaOnly o ref p x ∧ ¬ DeltaOnly o ref p x
  eaFull : x.ino.eaStatus = .full →
    (x'.ino.eaStatus = .part ↔ AttrSkipped o ref p x (fun b => b.ino.eaStatus ≠ .none)) ∧ (x'.ino.eaStatus = .part ∨ x'.ino.eaStatus = .full)
  eaNone : x.ino.eaStatus = .none →
    (x'.ino.eaStatus = .removed ↔ ∃ b, Reference o ref p x b ∧ b.ino.eaStatus ≠ .none ∧ b.ino.eaStatus ≠ .removed) ∧
    (x'.ino.eaStatus = .removed ∨ x'.ino.eaStatus = .none)
  fsaFull : x.fsa = .full → (x'.fsa = .part ↔ AttrSkipped o ref p x (fun b => b.fsa ≠ .none)) ∧ (x'.fsa = .part ∨ x'.fsa = .full)
  fsaNone : x.fsa = .none → x'.fsa = .none

mutual
/-- A statement about every entry of a tree and its path. -/
def BEntry.Each (P : List Bytes → BEntry → Prop) (path : List Bytes) (e : BEntry) : Prop :=
  match e with
  | .dir x c => P (path ++ [x.name]) (.dir x c) ∧ BEntry.EachL P (path ++ [x.name]) c
  | e => P (path ++ [e.name]) e
def BEntry.EachL (P : List Bytes → BEntry → Prop) (path : List Bytes) (l : List BEntry) : Prop :=
  match l with
  | [] => True
  | e :: l => BEntry.Each P path e ∧ BEntry.EachL P path l
end

/-- The entry `e` is somewhere in the tree, at the path `p`. -/
inductive OccursIn : List BEntry → List Bytes → BEntry → Prop
  | here {l : List BEntry} {e : BEntry} : e ∈ l → OccursIn l [e.name] e
  | inside {l : List BEntry} {x : Obj} {c : List BEntry} {p : List Bytes} {e : BEntry} : .dir x c ∈ l → OccursIn c p e → OccursIn l (x.name :: p) e

/-- What the reading of the filesystem gives: inodes, directories and hard links, with all their data available. -/
def SourceEntry (stars : Nat → Obj) : BEntry → Prop
  | .node x => x.ino.status = .saved
  | .dir x _ => x.ino.status = .saved
  | .mirage _ k => (stars k).ino.status = .saved
  | _ => False

end Dar
