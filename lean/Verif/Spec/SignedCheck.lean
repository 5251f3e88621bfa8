import Verif.Model.SignedCheck
import Verif.Spec.SeqRead
/- What comparing the in-line entries of a signed archive with its (signed) catalogue establishes. -/
namespace Dar

/-- `Occurs tree path e`: going through `tree`, the entry `e` is met at `path` -/
inductive Occurs : List Entry → List Bytes → Entry → Prop
  | here {e l} (h : e ∈ l) : Occurs l [e.title] e
  | inside {n st i ch l path e} (h : .dir n st i ch ∈ l) (next : Occurs ch path e) : Occurs l (n :: path) e

/-- what a catalogue has at a path -/
def lookupPath : List Entry → List Bytes → Option Entry
  | _, [] => none
  | l, [n] => findNamed n l
  | l, n :: p => match findNamed n l with
    | some (.dir _ _ _ ch) => lookupPath ch p
    | _ => none

/-- what is compared of two inodes that are not directories: the name, the type, the target of a symbolic link, the numbers of a device; nothing of a plain
file (nor of a door) -/
def Node.Agree (a b : Node) : Prop :=
  a.name = b.name ∧ match a.special, b.special with
    | .file _, .file _ => True
    | .door _, .door _ => True
    | .link t, .link t' => t = t'
    | .chardev p q, .chardev p' q' => p = p' ∧ q = q'
    | .blockdev p q, .blockdev p' q' => p = p' ∧ q = q'
    | .pipe, .pipe => True
    | .socket, .socket => True
    | _, _ => False
/-- the inode of an entry that is not a directory, a hard link or not -/
def Entry.nodeOf (links : Nat → Node) : Entry → Option Node
  | .node n => some n
  | .mirage _ k => some (links k)
  | _ => none
/-- what is compared of two entries: both directories, or the same deletion record, or inodes that agree -/
inductive Entry.Agree (mine theirs : Nat → Node) : Entry → Entry → Prop
  | dirs (n st i ch st' i' ch') : Entry.Agree mine theirs (.dir n st i ch) (.dir n st' i' ch')
  | deleted (n s d) : Entry.Agree mine theirs (.detruit n s d) (.detruit n s d)
  | nodes {e e' a b} (h : e.nodeOf mine = some a) (h' : e'.nodeOf theirs = some b) (ab : a.Agree b) : Entry.Agree mine theirs e e'

/-- the same tree with other attributes: anything may differ (owner, permissions, dates, status, size, checksum, place of the data, EA, FSA) but
the names, the types, the targets of links and the device numbers -/
inductive OtherAttributes : List Entry → List Entry → Prop
  | nil : OtherAttributes [] []
  | node {a b l l'} (h : a.Agree b) (next : OtherAttributes l l') : OtherAttributes (.node a :: l) (.node b :: l')
  | dir {n st i ch st' i' ch' l l'} (inner : OtherAttributes ch ch') (next : OtherAttributes l l') :
      OtherAttributes (.dir n st i ch :: l) (.dir n st' i' ch' :: l')
  | same {e l l'} (next : OtherAttributes l l') : OtherAttributes (e :: l) (e :: l')
/-- some entries, or whole directories, have been taken out -/
inductive Without : List Entry → List Entry → Prop
  | nil : Without [] []
  | gone {e l l'} (next : Without l' l) : Without l' (e :: l)
  | keep {e l l'} (next : Without l' l) : Without (e :: l') (e :: l)
  | inside {n st i ch ch' l l'} (inner : Without ch' ch) (next : Without l' l) : Without (.dir n st i ch' :: l') (.dir n st i ch :: l)

/-- what the in-line copies and the catalogue tell of the hard linked inodes -/
def linksInline (stars : Nat → Star) (dalgo : Compr) (k : Nat) : Node := (stars k).node.kept true dalgo
def linksKept (stars : Nat → Star) (dalgo : Compr) (k : Nat) : Node := (stars k).node.kept false dalgo

end Dar
