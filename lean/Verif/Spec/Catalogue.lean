import Verif.Model.Catalogue
import Verif.Props.DbStorage
/- What an archive remembers of an entry (`kept`) and which entries can be written at all (`Writable`). -/
namespace Dar

def InodeB.kept (small : Bool) (i : InodeB) : InodeB :=
  { i with
    eaSize := if i.ea = .full then some (i.eaSize.getD 0) else none
    eaOffset := if i.ea = .full ∧ small = false then i.eaOffset else none
    eaCrc := if i.ea = .full ∧ small = false then i.eaCrc else none
    fsaFamilies := if i.fsa ≠ .none then i.fsaFamilies else none
    fsaSize := if i.fsa = .full then i.fsaSize else none
    fsaOffset := if i.fsa = .full ∧ small = false then i.fsaOffset else none
    fsaCrc := if i.fsa = .full ∧ small = false then i.fsaCrc else none }

/-- the checksum objects that can be stored: not in the middle of a computation -/
def storedOpt (c : Option Crc) : Prop := ∃ k, c = some k ∧ k.Stored

structure InodeB.Writable (small : Bool) (i : InodeB) : Prop where
  perm : i.perm < 65536
  atime : i.atime.Canonical
  mtime : i.mtime.Canonical
  ctime : i.ctime.Canonical
  ea : i.ea = .full → small = false → i.eaOffset.isSome ∧ storedOpt i.eaCrc
  fsa : i.fsa ≠ .none → i.fsaFamilies.isSome
  fsaFull : i.fsa = .full → i.fsaSize.isSome ∧ (small = false → i.fsaOffset.isSome ∧ storedOpt i.fsaCrc)

def DSig.kept (d : DSig) : DSig := { d with offset := if d.size = 0 then 0 else d.offset }

/-- For data present in the archive: everything.  Otherwise: the size, whether the file was detected as sparse, and the delta signature. -/
def FileB.kept (small : Bool) (st : SavedStatus) (dalgo : Compr) (f : FileB) : FileB :=
  match st.hasData, small with
  | true, false => { f with stRead := f.stWrite, base := if st = .delta then f.base else none, sig := f.sig.map DSig.kept }
  | true, true => { f with offset := 0, storage := 0, stRead := f.stWrite, dirty := false, base := if st = .delta then f.base else none, check := none,
                           sig := f.sig.map fun _ => DSig.pending }
  | false, false => ⟨f.size, 0, 0, f.stWrite ||| (if f.dirty then 2 else 0), 0, false, dalgo, none, none, f.sig.map DSig.kept⟩
  | false, true => ⟨f.size, 0, 0, f.stWrite, f.stWrite, false, dalgo, none, none, f.sig.map fun _ => DSig.pending⟩

structure FileB.Writable (small : Bool) (st : SavedStatus) (f : FileB) : Prop where
  hole : f.stWrite = 0 ∨ f.stWrite = 1
  dirty : small = true → f.dirty = false
  base : st = .delta → f.sig.isSome ∧ storedOpt f.base
  check : st.hasData = true → small = false → storedOpt f.check
  sig : small = false → ∀ d, f.sig = some d → storedOpt d.result

def Special.kept (small : Bool) (st : SavedStatus) (dalgo : Compr) : Special → Special
  | .file f => .file (f.kept small st dalgo)
  | .door f => .door (f.kept small st dalgo)
  | .link t => .link (if st = .saved then t else [])
  | .chardev a b => if st = .saved then .chardev a b else .chardev 0 0
  | .blockdev a b => if st = .saved then .blockdev a b else .blockdev 0 0
  | s => s
def Special.Writable (small : Bool) (st : SavedStatus) : Special → Prop
  | .file f => f.Writable small st
  | .door f => f.Writable small st
  | .link t => (0 : UInt8) ∉ t
  | .chardev a b => a < 65536 ∧ b < 65536
  | .blockdev a b => a < 65536 ∧ b < 65536
  | _ => True

def Node.kept (small : Bool) (dalgo : Compr) (n : Node) : Node :=
  { n with inode := n.inode.kept small, special := n.special.kept small n.status dalgo }
structure Node.Writable (small : Bool) (n : Node) : Prop where
  name : (0 : UInt8) ∉ n.name
  inode : n.inode.Writable small
  special : n.special.Writable small n.status

mutual
/-- A mirage alone on its inode is remembered as a plain inode; entries to ignore are not remembered. -/
def Entry.kept (stars : Nat → Star) (dalgo : Compr) (e : Entry) : Entry :=
  match e with
  | .node n => .node (n.kept false dalgo)
  | .dir name st i l => .dir name st (i.kept false) (Entry.keptList stars dalgo l)
  | .detruit name s d => .detruit name s d
  | .mirage name k => if (stars k).refs > 1 ∨ (stars k).keep = true then .mirage name k else .node { (stars k).node.kept false dalgo with name := name }
  | .ignored name => .ignored name
def Entry.keptList (stars : Nat → Star) (dalgo : Compr) (l : List Entry) : List Entry :=
  match l with
  | [] => []
  | .ignored _ :: l => Entry.keptList stars dalgo l
  | e :: l => Entry.kept stars dalgo e :: Entry.keptList stars dalgo l
end

mutual
def Entry.Writable (stars : Nat → Star) (e : Entry) : Prop :=
  match e with
  | .node n => n.Writable false
  | .dir name _ i l => (0 : UInt8) ∉ name ∧ i.Writable false ∧ Entry.WritableList stars l
  | .detruit name _ d => (0 : UInt8) ∉ name ∧ d.Canonical
  | .mirage name k => (0 : UInt8) ∉ name ∧ (stars k).node.Writable false
  | .ignored _ => False
def Entry.WritableList (stars : Nat → Star) (l : List Entry) : Prop :=
  match l with
  | [] => True
  | .ignored _ :: l => Entry.WritableList stars l
  | e :: l => Entry.Writable stars e ∧ Entry.WritableList stars l
end

mutual
/-- the labels of the hard linked inodes of a tree, in the order of their first mirage in `acc` (last met first) -/
def Entry.labels (stars : Nat → Star) (acc : List Nat) (e : Entry) : List Nat :=
  match e with
  | .dir _ _ _ l => Entry.labelsList stars acc l
  | .mirage _ k => if (stars k).refs > 1 ∨ (stars k).keep = true then (if k ∈ acc then acc else k :: acc) else acc
  | _ => acc
def Entry.labelsList (stars : Nat → Star) (acc : List Nat) (l : List Entry) : List Nat :=
  match l with
  | [] => acc
  | e :: l => Entry.labelsList stars (Entry.labels stars acc e) l
end

/-- the hard linked inodes as they are remembered -/
def starTable (stars : Nat → Star) (dalgo : Compr) (ks : List Nat) : Corres := ks.map fun k => (k, (stars k).node.kept false dalgo)

end Dar
