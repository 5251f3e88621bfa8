import Verif.Spec.Backup
/- Specification of the counters of a backup: what each entry of the archive adds to them. -/
namespace Dar

mutual
/-- The number of entries of a tree that satisfy a condition. -/
def BEntry.tally (P : BEntry → Bool) (e : BEntry) : Nat :=
  match e with
  | .dir x c => (P (.dir x c)).toNat + BEntry.tallyL P c
  | e => (P e).toNat
def BEntry.tallyL (P : BEntry → Bool) (l : List BEntry) : Nat :=
  match l with
  | [] => 0
  | e :: l => BEntry.tally P e + BEntry.tallyL P l
end

/-- A name of a hard linked inode. -/
def BEntry.isLink : BEntry → Bool
  | .mirage _ _ => true
  | _ => false
/-- An inode, other than a hard linked one, with a property. -/
def BEntry.inode (Q : Obj → Bool) : BEntry → Bool
  | .node x => Q x
  | .dir x _ => Q x
  | _ => false
/-- What the filters excluded. -/
def BEntry.isIgnored : BEntry → Bool
  | .ignored _ => true
  | .ignoredDir _ => true
  | _ => false
/-- the inode is stored (with its data, or the difference of its data) -/
def Obj.isStored (x : Obj) : Bool := decide (x.ino.status = .saved ∨ x.ino.status = .delta)
def Obj.isUnsaved (x : Obj) : Bool := decide (x.ino.status = .notSaved)
def Obj.isMetaOnly (x : Obj) : Bool := decide (x.ino.status = .inodeOnly)
def Obj.hasEa (x : Obj) : Bool := decide (x.ino.eaStatus = .full)
def Obj.hasFsa (x : Obj) : Bool := decide (x.fsa = .full)
/-- The number of inodes of an archive with a property: the entries, and the hard linked inodes (each counted once). -/
def inodes (cat : BCat) (labels : List Nat) (Q : Obj → Bool) : Nat := BEntry.tallyL (BEntry.inode Q) cat.root + labels.countP (fun k => Q (cat.stars k))
/-- The hard linked inodes of a tree, each once. -/
def Labels (cat : BCat) (labels : List Nat) : Prop := labels.Nodup ∧ ∀ k, k ∈ labels ↔ ∃ p n, OccursIn cat.root p (.mirage n k)

/-- What is read from the filesystem: inodes, directories and hard links, not yet reported as modified while being read. -/
def CleanEntry (stars : Nat → Obj) : BEntry → Prop
  | .node x => x.ino.dirty = false
  | .dir x _ => x.ino.dirty = false
  | .mirage _ k => (stars k).ino.dirty = false
  | _ => False

end Dar
