import Verif.Model.Database
/- Specification for the changes of the database (C30): what the database says, file by file and archive by archive. -/
namespace Dar

/-- Keys strictly increasing: what a std::map guarantees. -/
def SMap.Sorted {α : Type} (m : SMap α) : Prop := m.Pairwise (fun p q => p.1 < q.1)

/-- Whether a patch is usable depends on the other archives; the rest is what was recorded. -/
def Etat.norm : Etat → Etat
  | .patchUnusable => .patch
  | e => e
def StatP.core (s : StatP) : StatP := { s with present := s.present.norm }

mutual
/-- The files of the database: their path and what is recorded for them, data and EA. -/
def DTree.nodes (pre : List Bytes) (t : DTree) : List (List Bytes × SMap StatP × SMap Stat) :=
  match t with
  | .node name _ mods chgs sub => (pre ++ [name], mods, chgs) :: DTree.nodesList (pre ++ [name]) sub
def DTree.nodesList (pre : List Bytes) (l : List DTree) : List (List Bytes × SMap StatP × SMap Stat) :=
  match l with
  | [] => []
  | t :: l => t.nodes pre ++ DTree.nodesList pre l
end

/-- The database holds the record `r` (whether a patch is usable put aside) for the data of the file of path `p` in the
archive `k`. -/
def DTree.Says (t : DTree) (p : List Bytes) (k : Nat) (r : StatP) : Prop :=
  ∃ m c, (p, m, c) ∈ t.nodes [] ∧ (m.get k).map StatP.core = some r
/-- the same for EA -/
def DTree.SaysEA (t : DTree) (p : List Bytes) (k : Nat) (r : Stat) : Prop :=
  ∃ m c, (p, m, c) ∈ t.nodes [] ∧ c.get k = some r

/-- All maps are maps. -/
def DTree.Sorted (t : DTree) : Prop := ∀ n ∈ t.nodes [], n.2.1.Sorted ∧ n.2.2.Sorted

/-- All patches have a base checksum, and the checksums of a file are of one kind. -/
def PatchesOk (m : SMap StatP) : Prop :=
  (∀ q ∈ m, (q.2.present = .patch ∨ q.2.present = .patchUnusable) → q.2.base ≠ none) ∧
  (∀ q ∈ m, ∀ q' ∈ m, ∀ c ∈ q.2.base, ∀ c' ∈ q'.2.result, c.impl = c'.impl)

end Dar
