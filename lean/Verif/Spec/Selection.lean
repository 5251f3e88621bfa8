import Verif.Model.Selection
import Verif.Spec.Paths
/- What the selection options mean, as the manual tells it. -/
namespace Dar

/-! ### the two methods -/

/-- ordered method: the last option that matches decides; if none does, what the first option does not say -/
def OrderedSel {α : Type} (included : α → Bool) (matching : α → Prop) (l : List α) : Prop :=
  (∃ a o b, l = a ++ o :: b ∧ included o = true ∧ matching o ∧ ∀ o' ∈ b, ¬ matching o') ∨
  ((∀ o ∈ l, ¬ matching o) ∧ ∀ o l', l = o :: l' → included o = false)
/-- normal method: an including option matches (if there is any) and no excluding one does -/
def NormalSel {α : Type} (included : α → Bool) (matching : α → Prop) (l : List α) : Prop :=
  ((∀ o ∈ l, included o = false) ∨ ∃ o ∈ l, included o = true ∧ matching o) ∧ ∀ o ∈ l, included o = false → ¬ matching o

/-! ### paths -/

/-- -g path, -P path: the components of the path below the root of the operation -/
inductive TreeOpt where
  | go (q : List Bytes)
  | prune (q : List Bytes)
def TreeOpt.isGo : TreeOpt → Bool
  | .go _ => true
  | .prune _ => false
def TreeOpt.names : TreeOpt → List Bytes
  | .go q => q
  | .prune q => q
/-- -g concerns a path, all that is below it and the directories that lead to it; -P concerns a path and all that is below it -/
def TreeOpt.Concerns (p : List Bytes) : TreeOpt → Prop
  | .go q => q <+: p ∨ p <+: q
  | .prune q => q <+: p
/-- the option given to the code, `root` being the root of the operation -/
def TreeOpt.opt (root : List Bytes) : TreeOpt → PathOpt
  | .go q => ⟨true, .path ⟨root ++ q, false, false⟩⟩
  | .prune q => ⟨false, .path ⟨root ++ q, false, false⟩⟩
/-- what is used of fnmatch: a pattern without special character is itself only, followed by a slash and a star it is all that begins by it and a slash -/
structure GlobLiteral (glob : Bytes → Bytes → Bool) : Prop where
  exact : ∀ q s : Bytes, (∀ c ∈ q, c ∉ ([42, 63, 91, 92] : Bytes)) → (glob q s = true ↔ s = q)
  below : ∀ q s : Bytes, (∀ c ∈ q, c ∉ ([42, 63, 91, 92] : Bytes)) → (glob (q ++ [47, 42]) s = true ↔ ∃ r, s = q ++ 47 :: r)
/-- a name of a file without special character -/
def PlainName (d : Bytes) : Prop := isName d ∧ (0 : UInt8) ∉ d ∧ ∀ c ∈ d, c ∉ ([42, 63, 91, 92] : Bytes)
/-- an entry is reached if it is looked at and so are all the directories above it -/
def ReachedBy (cov : List Bytes → Prop) (p : List Bytes) : Prop := ∀ q, q ≠ [] → q <+: p → cov q

end Dar
