import Verif.Model.Database
/- Specification of the formats of dar_manager databases, versions 2 to 7, for C31: what each of them holds.
Version 2 has no date for the archives, version 3 has one; up to version 3 the dates are numbers of seconds, from version 4 on they have a unit; from version 5 on the
records of data carry checksums; from version 7 on the archives have a cipher. -/
namespace Dar

/-- a date -/
def dateBytes (v : Nat) (d : DateT) : Res Bytes := if v ≤ 3 then .ok (putInt d.val) else d.dump
/-- a record of EA -/
def statBytes (v : Nat) (s : Stat) : Res Bytes := (dateBytes v s.date).map (· ++ [s.present.char])
/-- an optional checksum -/
def optBytes : Option Crc → Bytes
  | none => []
  | some c => c.dump
/-- a record of data -/
def statPBytes (v : Nat) (s : StatP) : Res Bytes :=
  (statBytes v ⟨s.date, s.present⟩).map (· ++ if v < 5 then [] else
    [(if s.base.isSome then 1 else 0) + (if s.result.isSome then 2 else 0)] ++ optBytes s.base ++ optBytes s.result)

mutual
/-- a file or a directory -/
def treeBytes (v : Nat) (t : DTree) : Res Bytes :=
  match t with
  | .node name dir mods chgs sub => do
    let a ← dumpMap (statPBytes v) mods
    let b ← dumpMap (statBytes v) chgs
    let c ← treesBytes v sub
    .ok ([if dir then 100 else 116] ++ putStr name ++ a ++ b ++ (if dir then putInt sub.length ++ c else []))
def treesBytes (v : Nat) (l : List DTree) : Res Bytes :=
  match l with
  | [] => .ok []
  | t :: l => do
    let x ← treeBytes v t
    let y ← treesBytes v l
    .ok (x ++ y)
end

/-- an archive -/
def archBytes (v : Nat) (a : ArchData) : Res Bytes := do
  let d ← (if v < 3 then .ok [] else dateBytes v a.rootMod : Res Bytes)
  .ok (putStr a.chemin ++ putStr a.basename ++ d ++ if v < 7 then [] else [a.crypto.char] ++
    if a.crypto = .none then [] else putInt a.pass.length ++ a.pass ++ putInt a.cryptoSize)

/-- the database -/
def dbBytes (v : Nat) (db : Database) : Res Bytes := do
  let a ← dumpAll (archBytes v) db.coord
  let t ← treeBytes v db.files
  .ok (putInt db.coord.length ++ a ++ putVec db.options ++ putStr db.darPath ++ t)

/-- What the version `v` can hold for an archive. -/
def ArchData.Holds (v : Nat) (a : ArchData) : Prop :=
  (v < 3 → a.rootMod = ⟨0, .s⟩) ∧ (v ≤ 3 → a.rootMod.uni = .s) ∧ (v < 7 → a.crypto = .none)
mutual
/-- What the version `v` can hold for a file or a directory. -/
def DTree.Holds (v : Nat) (t : DTree) : Prop :=
  match t with
  | .node _ _ mods chgs sub => (∀ p ∈ mods, (v ≤ 3 → p.2.date.uni = .s) ∧ (v < 5 → p.2.base = none ∧ p.2.result = none)) ∧
      (∀ p ∈ chgs, v ≤ 3 → p.2.date.uni = .s) ∧ DTree.HoldsL v sub
def DTree.HoldsL (v : Nat) (l : List DTree) : Prop :=
  match l with
  | [] => True
  | t :: l => t.Holds v ∧ DTree.HoldsL v l
end

end Dar
