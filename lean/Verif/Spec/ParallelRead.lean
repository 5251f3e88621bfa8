import Verif.Model.ParallelRead
/- What one thread reading alone would give to the caller: the blocks of the archive processed in order, up to the first one whose
processing fails. -/
namespace Dar.Par
variable {β γ : Type}

/-- the blocks read by the sequential loop, starting with block number `i` -/
def seqRead (g : Nat → β → Outcome γ) : Nat → List β → List γ
  | _, [] => []
  | i, b :: bs =>
    match g i b with
    | .ok x => x :: seqRead g (i + 1) bs
    | _ => []

/-- the processing of block number `i` of the archive fails -/
def BlockFails (g : Nat → β → Outcome γ) (blocks : List β) (i : Nat) : Prop := ∃ b, blocks[i]? = some b ∧ ∀ x, g i b ≠ .ok x

end Dar.Par
