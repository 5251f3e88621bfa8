import Verif.Spec.TestOp
/- Specification for the test of an archive read sequentially: which failures are those of an entry, how many entries are damaged. -/
namespace Dar

/-- A failure that concerns the object being read, not the whole operation. -/
def Err.Ordinary (e : Err) : Prop := e ≠ .bug ∧ e ≠ .script ∧ e ≠ .cancel ∧ e ≠ .userAbort ∧ e ≠ .ub ∧ e ≠ .diverge

/-- A recorded checksum of the class expected for an object of that size. -/
def Crc.OfSize (c : Crc) (size : Nat) : Prop := c.impl = crcImplFor (widthFor size)

/-- The failures met while reading what is recorded for an inode are ordinary ones. -/
structure TIno.Tame (i : TIno) : Prop where
  data : ∀ l, i.data = some l → ∀ p ∈ l, (∀ e, p.bytes = .error e → e.Ordinary) ∧ (∀ e, p.crc = .error e → e.Ordinary) ∧ ∀ c, p.crc = .ok (some c) → c.OfSize i.size
  sig : ∀ s, i.sig = some s → (∀ e, s.head = .error e → e.Ordinary) ∧ (∀ e, s.bytes = .error e → e.Ordinary) ∧ (∀ e, s.crc = .error e → e.Ordinary) ∧
    ∀ c, s.crc = .ok c → c.OfSize s.size
  ea : ∀ a, i.ea = some a → (∀ e, a.seek = .error e → e.Ordinary) ∧ (∀ e, a.bytes = .error e → e.Ordinary) ∧ (∀ e, a.crc = .error e → e.Ordinary)
  fsa : ∀ a, i.fsa = some a → (∀ e, a.seek = .error e → e.Ordinary) ∧ (∀ e, a.bytes = .error e → e.Ordinary) ∧ (∀ e, a.crc = .error e → e.Ordinary)

/-- Damages limited to the inodes that are neither directories nor hard-linked. -/
def TEntry.LocalDamage : TEntry → Prop
  | .plain _ i => i.Tame
  | .dir _ i _ => i.Intact true
  | .link _ _ => False
  | .gone _ => True
  | .broken _ => False

open Classical in
/-- How many selected entries are not intact. -/
noncomputable def damages (o : TOpts) : List Bytes → List TEntry → Nat
  | _, [] => 0
  | pre, .dir n _ ch :: l => (if o.subtree (pre ++ [n]) then damages o (pre ++ [n]) ch else 0) + damages o pre l
  | pre, .plain n i :: l => (if o.subtree (pre ++ [n]) = true ∧ o.names n = true ∧ ¬ i.Intact o.seq then 1 else 0) + damages o pre l
  | pre, _ :: l => damages o pre l

end Dar
