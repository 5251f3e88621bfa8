import Verif.Model.DarCp
/- What is expected of the copy of a damaged file. -/
namespace Dar

/-- the answers of the system when exactly the offsets `bad` of the source cannot be read: read(2) gives bytes that can be read, possibly less than asked but not
zero before the end, and fails only when something in what is asked cannot be read -/
structure CpEnv.Sound (e : CpEnv) (bad : Nat → Prop) : Prop where
  gives : ∀ p n k, e.rd p n = some k → k ≤ n ∧ k ≤ e.data.length - p ∧ (k = 0 → n = 0 ∨ e.data.length ≤ p) ∧ ∀ i, p ≤ i → i < p + k → ¬ bad i
  fails : ∀ p n, e.rd p n = none → p < e.data.length ∧ ∃ i, bad i ∧ p ≤ i ∧ i < p + n ∧ i < e.data.length
/-- read(2) gives what precedes the first byte that cannot be read: it fails only when it is the first one asked (Linux does so) -/
def CpEnv.Prefix (e : CpEnv) (bad : Nat → Prop) : Prop := ∀ p n, e.rd p n = none → bad p
/-- write(2) always writes all it is asked -/
def CpEnv.Writes (e : CpEnv) : Prop := ∀ p n k, e.wr p n = some k → n ≤ k + 1
/-- `out` is a copy of the source over a file that held `old`, `kept` being the offsets copied: there the byte of the source, elsewhere what was there before
(zero if nothing); the copy stops after the last byte copied -/
structure CpCopy (e : CpEnv) (bad : Nat → Prop) (old : Bytes) (kept : Nat → Bool) (out : Bytes) : Prop where
  good : ∀ i, kept i = true → i < e.data.length ∧ ¬ bad i ∧ out[i]? = e.data[i]?
  hole : ∀ i, kept i = false → i < out.length → out[i]? = some (old[i]?.getD 0)
  long : old.length ≤ out.length
  last : old.length < out.length → kept (out.length - 1) = true
/-- how many of the `n` first offsets are not copied -/
def missing (kept : Nat → Bool) (n : Nat) : Nat := (List.range n).countP (fun i => !kept i)
/-- each part left out of the copy begins and ends with a byte that cannot be read -/
def GapsBad (bad : Nat → Prop) (kept : Nat → Bool) (n : Nat) : Prop :=
  ∀ i, i < n → kept i = false → ((i = 0 ∨ kept (i - 1) = true) → bad i) ∧ (kept (i + 1) = true → bad i)

end Dar
