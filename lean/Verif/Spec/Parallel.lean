import Verif.Model.Parallel
/- What one thread doing the same work alone would do: process the blocks in order, write each result, stop at the first
block whose processing or writing fails. -/
namespace Dar.Par
variable {β γ : Type}

/-- the blocks written by the sequential loop, starting with block number `i` -/
def seqWrite (c : Cfg β γ) : Nat → List β → List γ
  | _, [] => []
  | i, b :: bs =>
    match c.f i b with
    | .ok x => if c.sinkFails i then [] else x :: seqWrite c (i + 1) bs
    | _ => []

/-- no block fails: neither in its processing, nor when it is written -/
def AllGood (c : Cfg β γ) (blocks : List β) : Prop :=
  ∀ (i : Nat) (b : β), blocks[i]? = some b → (∃ x, c.f i b = .ok x) ∧ c.sinkFails i = false

end Dar.Par
