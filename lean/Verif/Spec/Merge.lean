import Verif.Model.Merge
import Verif.Spec.Destroyed
/- Specification of the merging of two archives, directory by directory and name by name, without the cursors of the code. -/
namespace Dar

mutual
/-- What the filters retain of an archive: the entries not covered are left out; with the option asking for it, a directory left out is recorded
as an empty one.  `p` is the path of the directory. -/
def BEntry.select (o : MgOpts) (p : List Bytes) (e : BEntry) : List BEntry :=
  match e with
  | .dir x c =>
    if o.subtree (p ++ [x.name]) then [.dir x (BEntry.selectL o (p ++ [x.name]) c)] else if o.emptyDir then [.ignoredDir x] else []
  | e => if o.subtree (p ++ [e.name]) && o.filter e.name then [e] else []
def BEntry.selectL (o : MgOpts) (p : List Bytes) (l : List BEntry) : List BEntry :=
  match l with
  | [] => []
  | e :: l => BEntry.select o p e ++ BEntry.selectL o p l
end

/-- The action on the data after the user has been asked: the answer replaces the action `ask`; when a confirmation is requested and refused, the
entry in place is preserved. -/
def answered (o : MgOpts) (p : List Bytes) (d : OverData) : OverData :=
  let d := if d = .ask then o.askData p else d
  if o.warn = true ∧ o.acceptData p = false ∧ (d = .overwrite ∨ d = .overwriteMark ∨ d = .remove ∨ d = .preserveMark) then .preserve else d

/-- Both inodes exist and at least one has extended or filesystem specific attributes. -/
def HasAttr (x y : Option Obj) : Prop :=
  ∃ a b, x = some a ∧ y = some b ∧ (a.ino.eaStatus ≠ .none ∨ b.ino.eaStatus ≠ .none ∨ a.fsa ≠ .none ∨ b.fsa ≠ .none)

/-- A decision that keeps the entry in place. -/
def KeepsOld (d : OverData) : Prop := d = .preserve ∨ d = .preserveMark ∨ d = .undefined
/-- A decision that replaces the entry in place. -/
def TakesNew (d : OverData) : Prop := d = .overwrite ∨ d = .overwriteMark

/-- What is decided for two entries of the same path, `e1` of the first archive, `e2` of the second: what the policy says, the user being asked
when it says so.  When the user has to be asked for the attributes and there is none, they follow the data. -/
structure Decided (o : MgOpts) (stars1 stars2 : Nat → Obj) (p : List Bytes) (e1 e2 : BEntry) (d : OverData) (a : OverEa) : Prop where
  policy : ∃ d0 a0, (∃ f1 f2, o.policy.get o.capa (e1.crit stars1 f1) (e2.crit stars2 f2) = .ok (d0, a0)) ∧ d = answered o p d0 ∧
    (a0 ≠ .ask → a = a0) ∧
    (a0 = .ask → HasAttr (e1.obj stars1) (e2.obj stars2) → a = o.askEa p) ∧
    (a0 = .ask → ¬ HasAttr (e1.obj stars1) (e2.obj stars2) → KeepsOld d ∧ a = .preserve ∨ TakesNew d ∧ a = .overwrite ∨ d = .remove)

/-- Two inodes that only differ by the extended and filesystem specific attributes and the date of their last change. -/
def SameButAttr (z x : Obj) : Prop :=
  z = { x with ino := { x.ino with ctime := z.ino.ctime, eaStatus := z.ino.eaStatus, eaCount := z.ino.eaCount, eaSize := z.ino.eaSize },
               fsa := z.fsa, eas := z.eas, fsas := z.fsas }

/-- The inode recorded as present in the archive of reference instead of being saved. -/
def Obj.asAlreadySaved (x : Obj) : Obj :=
  if x.ino.status = .saved ∨ x.ino.status = .inodeOnly then { x with ino := { x.ino with status := .notSaved } } else x
/-- The inode of the second archive; when it only holds a binary patch for the data of the first, the patched data. -/
def Obj.newer (o : MgOpts) (x y : Obj) : Obj :=
  if x.ino.isFile ∧ y.ino.isFile ∧ y.ino.status = .delta ∧ x.ino.status = .saved ∧ o.baseCrc x y then
    { y with ino := { y.ino with status := .saved }, data := o.patch x.data y.data }
  else y
/-- The inode whose metadata and data are retained. -/
def retained (o : MgOpts) (d : OverData) (x y : Obj) : Obj :=
  match d with
  | .preserveMark => x.asAlreadySaved
  | .overwrite => Obj.newer o x y
  | .overwriteMark => (Obj.newer o x y).asAlreadySaved
  | _ => x

/-- `z` has the extended attributes of `s`: the same ones when they are stored, otherwise the same absence. -/
def EaOf (s z : Obj) : Prop :=
  match s.ino.eaStatus with
  | .full => z.ino.eaStatus = .full ∧ z.eas = s.eas ∧ z.ino.eaCount = s.ino.eaCount ∧ z.ino.eaSize = s.ino.eaSize
  | .part => z.ino.eaStatus = .part
  | .fake => z.ino.eaStatus = .part ∨ z.ino.eaStatus = .fake
  | .none => z.ino.eaStatus = .none
  | .removed => z.ino.eaStatus = .none ∨ z.ino.eaStatus = .removed
/-- The same for the filesystem specific attributes. -/
def FsaOf (s z : Obj) : Prop :=
  match s.fsa with
  | .full => z.fsa = .full ∧ z.fsas = s.fsas
  | .part => z.fsa = .part
  | .none => z.fsa = .none
/-- `z` records that the attributes of `s` are already saved. -/
def EaMarked (s z : Obj) : Prop :=
  match s.ino.eaStatus with
  | .full => z.ino.eaStatus = .part
  | .part => z.ino.eaStatus = .part
  | .fake => z.ino.eaStatus = .part ∨ z.ino.eaStatus = .fake
  | .none => z.ino.eaStatus = .none
  | .removed => z.ino.eaStatus = .removed
def FsaMarked (s z : Obj) : Prop :=
  match s.fsa with
  | .none => z.fsa = .none
  | _ => z.fsa = .part
/-- `z` has the attributes of both, those of `w` (the winner) being preferred. -/
def EaUnion (o : MgOpts) (w l z : Obj) : Prop :=
  (w.ino.eaStatus = .full → l.ino.eaStatus = .full → z.ino.eaStatus = .full ∧ z.eaSet = o.mergeEa w.eaSet l.eaSet) ∧
  (w.ino.eaStatus = .full → l.ino.eaStatus ≠ .full → z.ino.eaStatus = .full ∧ z.eaSet = w.eaSet) ∧
  (w.ino.eaStatus ≠ .full → l.ino.eaStatus = .full → z.ino.eaStatus = .full ∧ z.eaSet = l.eaSet) ∧
  (w.ino.eaStatus ≠ .full → l.ino.eaStatus ≠ .full → z.ino.eaStatus ≠ .full)
def FsaUnion (o : MgOpts) (w l z : Obj) : Prop :=
  (w.fsa = .full → l.fsa = .full → z.fsa = .full ∧ z.fsas = o.plusFsa l.fsas w.fsas) ∧
  (w.fsa = .full → l.fsa ≠ .full → z.fsa = .full ∧ z.fsas = w.fsas) ∧
  (w.fsa ≠ .full → l.fsa = .full → z.fsa = .full ∧ z.fsas = l.fsas) ∧
  (w.fsa ≠ .full → l.fsa ≠ .full → z.fsa ≠ .full)

/-- The attributes of the result `z`, `x` being the inode of the first archive and `y` the one of the second.  Whatever is decided for the data. -/
def AttrsOf (o : MgOpts) (a : OverEa) (x y z : Obj) : Prop :=
  match a with
  | .preserve => z.ino.ctime = x.ino.ctime ∧ EaOf x z ∧ FsaOf x z
  | .undefined => z.ino.ctime = x.ino.ctime ∧ EaOf x z ∧ FsaOf x z
  | .overwrite => z.ino.ctime = y.ino.ctime ∧ EaOf y z ∧ FsaOf y z
  | .clear => z.ino.eaStatus = .none ∧ z.fsa = .none
  | .preserveMark => z.ino.ctime = x.ino.ctime ∧ EaMarked x z ∧ FsaMarked x z
  | .overwriteMark => z.ino.ctime = y.ino.ctime ∧ EaMarked y z ∧ FsaMarked y z
  | .mergePreserve => z.ino.ctime = x.ino.ctime ∧ EaUnion o x y z ∧ FsaUnion o x y z
  | .mergeOverwrite => z.ino.ctime = y.ino.ctime ∧ EaUnion o y x z ∧ FsaUnion o y x z
  | .ask => False

/-- The decisions for which the attributes are not handled as said above (see the counterexamples): the data is taken from the second archive and the
attributes have to be removed, or to be recorded as already saved. -/
def Skewed (d : OverData) (a : OverEa) : Prop := TakesNew d ∧ (a = .clear ∨ a = .overwriteMark)

/-- The inode of the result.  When both the data and the attributes in place are kept (their data being possibly not stored), only what is
said to be stored changes. -/
def InodeOf (o : MgOpts) (d : OverData) (a : OverEa) (x y z : Obj) : Prop :=
  SameButAttr z (retained o d x y) ∧ (¬ Skewed d a → AttrsOf o a x y z) ∧
  (KeepsOld d → a = .preserve ∨ a = .undefined ∨ a = .preserveMark →
    z = { retained o d x y with ino := { (retained o d x y).ino with eaStatus := z.ino.eaStatus }, fsa := z.fsa })

/-- The inode of the result when one of the two entries is not an inode (a deletion record), `t` being the inode of the entry which is retained. -/
def LoneInode (d : OverData) (a : OverEa) (t z : Obj) : Prop :=
  let t' := if d = .preserveMark ∨ d = .overwriteMark then t.asAlreadySaved else t
  (KeepsOld d → a = .clear → SameButAttr z t' ∧ z.ino.eaStatus = .none ∧ z.fsa = .none) ∧
  (KeepsOld d → a = .preserveMark → SameButAttr z t' ∧ z.ino.ctime = t.ino.ctime ∧ EaMarked t z ∧ FsaMarked t z) ∧
  (TakesNew d → a = .overwriteMark → SameButAttr z t' ∧ z.ino.ctime = t.ino.ctime ∧ EaMarked t z ∧ FsaOf t z) ∧
  (¬ (KeepsOld d ∧ (a = .clear ∨ a = .preserveMark)) → ¬ (TakesNew d ∧ a = .overwriteMark) → z = t')

/-- The inode `z` of the result, `t` being the inode of the entry which is retained. -/
def ResultInode (o : MgOpts) (stars1 stars2 : Nat → Obj) (d : OverData) (a : OverEa) (e1 e2 : BEntry) (t z : Obj) : Prop :=
  (∀ x y, e1.obj stars1 = some x → e2.obj stars2 = some y → InodeOf o d a x y z) ∧
  (e1.obj stars1 = none ∨ e2.obj stars2 = none → LoneInode d a t z)

/-- The entry of the result when `d` keeps the entry `e1` or takes the entry `e2`, what a directory contains being left aside. -/
def HeadOf (o : MgOpts) (stars1 stars2 : Nat → Obj) (d : OverData) (a : OverEa) (e1 e2 r : BEntry) : Prop :=
  match (if d = .overwrite ∨ d = .overwriteMark then e2 else e1) with
  | .node t => ∃ z, r = .node z ∧ ResultInode o stars1 stars2 d a e1 e2 t z
  | .dir t _ => ∃ z c, r = .dir z c ∧ ResultInode o stars1 stars2 d a e1 e2 t z
  | e => r = e

/-- What a directory contains. -/
def BEntry.contents : BEntry → List BEntry
  | .dir _ c => c
  | _ => []
def BEntry.isIgnoredDir : BEntry → Bool
  | .ignoredDir _ => true
  | _ => false

/-- What takes the place of an entry which is removed: the mark of an empty directory, when this is asked for. -/
def emptyMark (o : MgOpts) : BEntry → Option BEntry
  | .dir x _ => if o.emptyDir then some (.ignoredDir x) else none
  | _ => none

/-- What is found for a name in the two archives, once filtered, and in the result.  `dt` is the modification date of the directory of the second archive,
`t1`, `t2` give the hard linked inodes, `p` is the path. -/
structure MergedAt (o : MgOpts) (t1 t2 : Nat → Obj) (dt : DateT) (p : List Bytes) (f1 f2 r : Option BEntry) : Prop where
  /-- an entry only found in the first archive is kept as it is -/
  first : ∀ e, f1 = some e → f2 = none → r = some e
  /-- an entry only found in the second archive is added as it is, or recorded as deleted in the decremental mode -/
  second : ∀ e, f1 = none → f2 = some e → (o.decremental = false ∨ e.isIgnoredDir = true) → r = some e
  gone : ∀ e, f1 = none → f2 = some e → o.decremental = true → e.isIgnoredDir = false → r = some (.detruit e.name (e.sigKind t2) dt)
  /-- nothing else -/
  neither : f1 = none → f2 = none → r = none
  /-- a directory excluded by the filters has been excluded from both -/
  excluded : ∀ e1 e2, f1 = some e1 → f2 = some e2 → (e1.isIgnoredDir = true ∨ e2.isIgnoredDir = true) →
    e1.isIgnoredDir = true ∧ e2.isIgnoredDir = true ∧ r = some e2
  /-- a conflict: the policy decides -/
  conflict : ∀ e1 e2, f1 = some e1 → f2 = some e2 → e1.isIgnoredDir = false → e2.isIgnoredDir = false →
    ∃ d a, Decided o t1 t2 p e1 e2 d a ∧
      (KeepsOld d ∨ TakesNew d → ∃ e, r = some e ∧ HeadOf o t1 t2 d a e1 e2 e) ∧
      (d = .remove → r = emptyMark o e1) ∧
      d ≠ .ask
  /-- unless both entries are directories the contents of a directory are those of the one it comes from -/
  alone : ∀ e1 e2 e, f1 = some e1 → f2 = some e2 → r = some e → e.isDir = true →
    (e1.isDir = true → e2.isDir = false → e.contents = e1.contents) ∧ (e1.isDir = false → e2.isDir = true → e.contents = e2.contents)

/-- What the directory at a path contains, the root being at the empty path. -/
def dirAt : List BEntry → List Bytes → Option (List BEntry)
  | l, [] => some l
  | l, n :: p => match findChild l n with
    | some (.dir _ c) => dirAt c p
    | _ => none

/-- The result `r` of the merging of `l1` and `l2`, once filtered: in each directory that is in both, and for each name, what is said above.  `dt` is the
date of the root directory of the second archive. -/
def Merged (o : MgOpts) (t1 t2 : Nat → Obj) (dt : DateT) (l1 l2 r : List BEntry) : Prop :=
  ∀ p c1 c2 c d, dirAt l1 p = some c1 → dirAt l2 p = some c2 → dirAt r p = some c → dirDate dt l2 p = some d →
    ∀ n, MergedAt o t1 t2 d (p ++ [n]) (findChild c1 n) (findChild c2 n) (findChild c n)

/-- A hard link. -/
def BEntry.isHardLink : BEntry → Bool
  | .mirage _ _ => true
  | _ => false

/-- A catalogue read from an archive: names are distinct in each directory, and there is no record of an ignored entry. -/
structure FromArchive (l : List BEntry) : Prop where
  distinct : BEntry.DistinctL l
  entries : ∀ p e, treeAt l p = some e → match e with
    | .ignored _ => False
    | .ignoredDir _ => False
    | _ => True

/-- What is decided retains one of the two entries as it is, with its attributes, or none. -/
def Whole (d : OverData) (a : OverEa) : Prop :=
  (d = .preserve ∨ d = .undefined) ∧ (a = .preserve ∨ a = .undefined) ∨ d = .overwrite ∧ a = .overwrite ∨ d = .remove
/-- For the paths where one of the archives has a hard link, what is decided does not change its inode (which other paths share), and the
hard links of the second archive are not to binary patches. -/
def LinksWhole (o : MgOpts) (t1 t2 : Nat → Obj) (l1 l2 : List BEntry) : Prop :=
  ∀ p e1 e2, treeAt l1 p = some e1 → treeAt l2 p = some e2 → e1.isHardLink = true ∨ e2.isHardLink = true →
    (∀ d a, Decided o t1 t2 p e1 e2 d a → Whole d a) ∧ (e2.isHardLink = true → ∀ y, e2.obj t2 = some y → y.ino.status ≠ .delta)
/-- No hard link. -/
def NoLinks (l : List BEntry) : Prop := ∀ p e, treeAt l p = some e → e.isHardLink = false

/-- At no directory above `p` is it decided to remove it, or to replace the directory of the first archive by something else. -/
def FirstReached (o : MgOpts) (t1 t2 : Nat → Obj) (l1 l2 : List BEntry) (p : List Bytes) : Prop :=
  ∀ q, q <+: p → q ≠ p → ∀ e1 e2, treeAt l1 q = some e1 → treeAt l2 q = some e2 → ∀ d a, Decided o t1 t2 q e1 e2 d a → d ≠ .remove ∧ (TakesNew d → e2.isDir = true)
/-- At no directory above `p` is it decided to remove it, or to keep something else than a directory in its place. -/
def SecondReached (o : MgOpts) (t1 t2 : Nat → Obj) (l1 l2 : List BEntry) (p : List Bytes) : Prop :=
  ∀ q, q <+: p → q ≠ p → ∀ e1 e2, treeAt l1 q = some e1 → treeAt l2 q = some e2 → ∀ d a, Decided o t1 t2 q e1 e2 d a → d ≠ .remove ∧ (KeepsOld d → e1.isDir = true)
/-- At no directory above `p` is it decided to remove it. -/
def BothReached (o : MgOpts) (t1 t2 : Nat → Obj) (l1 l2 : List BEntry) (p : List Bytes) : Prop :=
  ∀ q, q <+: p → q ≠ p → ∀ e1 e2, treeAt l1 q = some e1 → treeAt l2 q = some e2 → ∀ d a, Decided o t1 t2 q e1 e2 d a → d ≠ .remove

/-- The labels of the hard linked inodes of an archive (`l`, `t`) become `f` of them in the result: the same inodes. -/
structure Renamed (f : Nat → Nat) (t : Nat → Obj) (l : List BEntry) (r : BCat) : Prop where
  inj : ∀ i j, f i = f j → i = j
  inode : ∀ k ∈ BEntry.labelsL l, f k ∈ BEntry.labelsL r.root → r.stars (f k) = t k

/-- The merging, path by path: `l1`, `l2` are the two archives once filtered, `r` the result. -/
structure MergedPaths (o : MgOpts) (t1 t2 : Nat → Obj) (l1 l2 : List BEntry) (r : BCat) : Prop where
  paths : ∃ f1 f2 T, Renamed f1 t1 l1 r ∧ Renamed f2 t2 l2 r ∧ (∀ k ∈ BEntry.labelsL l1, T (f1 k) = t1 k ∧ ∀ j, f1 k ≠ f2 j) ∧ (∀ k, T (f2 k) = t2 k) ∧
    /- an entry that only the first archive has -/
    (∀ p e, treeAt l1 p = some e → treeAt l2 p = none → FirstReached o t1 t2 l1 l2 p → treeAt r.root p = some (e.relabel f1)) ∧
    /- an entry that only the second archive has -/
    (∀ p e, o.decremental = false → treeAt l1 p = none → treeAt l2 p = some e → SecondReached o t1 t2 l1 l2 p → treeAt r.root p = some (e.relabel f2)) ∧
    /- an entry of both: the policy decides -/
    (∀ p e1 e2, treeAt l1 p = some e1 → treeAt l2 p = some e2 → e1.isIgnoredDir = false → e2.isIgnoredDir = false → BothReached o t1 t2 l1 l2 p →
      ∃ d a, Decided o t1 t2 p e1 e2 d a ∧ d ≠ .ask ∧
        (KeepsOld d ∨ TakesNew d → ∃ e, treeAt r.root p = some e ∧ HeadOf o T T d a (e1.relabel f1) (e2.relabel f2) e) ∧
        (d = .remove → treeAt r.root p = emptyMark o (e1.relabel f1))) ∧
    /- nothing else -/
    (∀ p, treeAt r.root p ≠ none → treeAt l1 p ≠ none ∨ treeAt l2 p ≠ none)

/-- The evaluation of the policy does not fail, the answers of the user are answers, and the removal of the attributes is not asked for when only one of the
entries has some. -/
structure Answers (o : MgOpts) (t1 t2 : Nat → Obj) (l1 l2 : List BEntry) : Prop where
  total : ∀ x y, ∃ d a, o.policy.get o.capa x y = .ok (d, a)
  data : ∀ p, o.askData p ≠ .ask
  ea : ∀ p, o.askEa p ≠ .ask
  clear : ∀ p e1 e2 d, treeAt l1 p = some e1 → treeAt l2 p = some e2 → Decided o t1 t2 p e1 e2 d .clear → TakesNew d →
    e1.obj t1 ≠ none ∧ e2.obj t2 ≠ none

end Dar
