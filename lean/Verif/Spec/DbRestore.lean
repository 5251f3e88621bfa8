import Verif.Spec.DbAdd
import Verif.Model.DbRestore
/- Specification for the restoration from a database (C54): the archives a file needs, the paths the user's mask reaches. -/
namespace Dar

/-- the file or directory of this path, from the directory `t` on -/
def DTree.at_ (t : DTree) : List Bytes → Option DTree
  | [] => some t
  | x :: p => match t.sub.find? (fun c => c.name = x) with
    | none => none
    | some c => c.at_ p

/-- The archive `n` is needed to restore the file: the lookup of its data gives it, or holds the EA of the file or their deletion. -/
def Needed (date : DateT) (t : DTree) (n : Nat) : Prop :=
  ∃ set, getData t.mods date false = .ok (set, .foundPresent) ∧
    (n ∈ set ∨ ∃ r, getEA t.chgs date false = .ok (n, r) ∧ (r = .foundPresent ∨ r = .foundRemoved))

/-- the path `q` in the directory `root` of the filesystem -/
def PathT.below (root : PathT) (q : List Bytes) : PathT := { root with dirs := root.dirs ++ q }

/-- The mask covers the path `q` and the directories that lead to it from the root. -/
def Reached (mask : PathT → Bool) (root : PathT) (q : List Bytes) : Prop :=
  ∀ k, 0 < k → k ≤ q.length → mask (root.below (q.take k)) = true

/-- an absolute path without "." nor ".." -/
def PathT.Absolute (p : PathT) : Prop := p.relative = false ∧ ∀ d ∈ p.dirs, d ≠ pDot ∧ d ≠ pDotDot

/-- a tree in which the names are distinct in each directory, are not "." nor "..", and only directories have children -/
def DTree.Tidy (t : DTree) : Prop :=
  DTree.Each (fun _ _ _ => True) t ∧ ∀ q u, t.at_ q = some u → ∀ x ∈ q, x ≠ pDot ∧ x ≠ pDotDot

end Dar
