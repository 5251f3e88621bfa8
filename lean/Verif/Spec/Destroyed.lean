import Verif.Spec.Backup
import Verif.Model.Destroyed
/- Specification of the deletion records, in terms of paths. -/
namespace Dar

/-- The modification date of the directory at a path of the new archive (`root`: the one of the root of the backup), if there is such a directory. -/
def dirDate (root : DateT) (l : List BEntry) (p : List Bytes) : Option DateT :=
  if p = [] then some root else match treeAt l p with
    | some (.dir x _) => some x.ino.mtime
    | _ => none

/-- The same record, except for what a directory contains. -/
def SameHead : BEntry → BEntry → Prop
  | .dir x _, e' => ∃ c, e' = .dir x c
  | e, e' => e' = e

mutual
/-- The number of deletion records of a tree. -/
def BEntry.deletions (e : BEntry) : Nat :=
  match e with
  | .dir _ c => BEntry.deletionsL c
  | .detruit _ _ _ => 1
  | _ => 0
def BEntry.deletionsL (l : List BEntry) : Nat :=
  match l with
  | [] => 0
  | e :: l => BEntry.deletions e + BEntry.deletionsL l
end

mutual
/-- No two entries of a directory have the same name, anywhere in the tree. -/
def BEntry.Distinct (e : BEntry) : Prop :=
  match e with
  | .dir _ c => BEntry.DistinctL c
  | _ => True
def BEntry.DistinctL (l : List BEntry) : Prop :=
  match l with
  | [] => True
  | e :: l => BEntry.Distinct e ∧ (∀ a ∈ l, a.name ≠ e.name) ∧ BEntry.DistinctL l
end

/-- Every directory above a path is missing, or is a directory. -/
def Unblocked (l : List BEntry) (p : List Bytes) : Prop := ∀ q e, q <+: p → q ≠ p → treeAt l q = some e → e.isDir = true

/-- The record `e'` says that the entry `g` of the reference is still there and not saved; `lab` gives the label of the hard linked inodes. -/
def UnsavedCopy (lab : Nat → Option Nat) (g e' : BEntry) : Prop :=
  match g with
  | .node x => ∃ y, e' = .node y ∧ y = { x with ino := { x.ino with status := .notSaved, eaStatus := y.ino.eaStatus } } ∧
      (y.ino.eaStatus = .none ∨ y.ino.eaStatus = .part)
  | .dir x _ => ∃ y c, e' = .dir y c ∧ y = { x with ino := { x.ino with status := .notSaved, eaStatus := y.ino.eaStatus } } ∧
      (y.ino.eaStatus = .none ∨ y.ino.eaStatus = .part)
  | .mirage n k => ∃ j, lab k = some j ∧ e' = .mirage n j
  | .ignoredDir x => e' = .ignoredDir x.unsaved
  | _ => False

end Dar
