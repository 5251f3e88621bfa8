import Verif.Model.Basic
/- General facts on byte readers: composition, behaviour on truncated input. -/
namespace Dar

/-- A reader is *stream safe* if what it returned does not depend on bytes it has not consumed. -/
def StreamSafe {α : Type} (r : Reader α) : Prop :=
  ∀ s v rest t, r s = .ok (v, rest) → r (s ++ t) = .ok (v, rest ++ t)

/-- `enc` is read back as `v`, whatever follows. -/
def ReadsAs {α : Type} (r : Reader α) (enc : Bytes) (v : α) : Prop :=
  ∀ rest, r (enc ++ rest) = .ok (v, rest)

/-- Every strict prefix of an encoding is refused. -/
theorem strict_prefix_error {α : Type} (r : Reader α) (hs : StreamSafe r) (enc : Bytes) (v : α)
    (hr : ReadsAs r enc v) (p q : Bytes) (h : enc = p ++ q) (hq : q ≠ []) :
    ∃ e, r p = .error e := by
  cases hp : r p with
  | error e => exact ⟨e, rfl⟩
  | ok x =>
    obtain ⟨v', rest⟩ := x
    have h1 := hs p v' rest q hp
    have h2 := hr []
    rw [List.append_nil, h, h1] at h2
    injection h2 with h2
    injection h2 with _ h3
    simp at h3
    exact absurd h3.2 hq

theorem bind_run {α β : Type} (r : Reader α) (f : α → Reader β) (s : Bytes) :
    (r >>= f) s = (match r s with | .error e => .error e | .ok (a, s') => f a s') := by
  show (StateT.bind r f) s = _
  unfold StateT.bind
  cases r s with
  | error e => rfl
  | ok x => rfl

theorem pure_run {α : Type} (a : α) (s : Bytes) : (pure a : Reader α) s = .ok (a, s) := rfl

theorem fail_run {α : Type} (e : Err) (s : Bytes) : (Reader.fail e : Reader α) s = .error e := rfl

theorem ReadsAs.pure {α : Type} (a : α) : ReadsAs (Pure.pure a : Reader α) [] a := fun _ => rfl

theorem ReadsAs.bind {α β : Type} {r : Reader α} {f : α → Reader β} {e1 e2 : Bytes} {a : α} {b : β}
    (h1 : ReadsAs r e1 a) (h2 : ReadsAs (f a) e2 b) : ReadsAs (r >>= f) (e1 ++ e2) b := by
  intro rest
  rw [bind_run, List.append_assoc, h1 (e2 ++ rest)]
  exact h2 rest

/-- last step without further bytes -/
theorem ReadsAs.bind_pure {α β : Type} {r : Reader α} {f : α → Reader β} {e1 : Bytes} {a : α} {b : β}
    (h1 : ReadsAs r e1 a) (h2 : f a = Pure.pure b) : ReadsAs (r >>= f) e1 b := by
  have : ReadsAs (f a) [] b := by rw [h2]; exact ReadsAs.pure b
  simpa using ReadsAs.bind h1 this

theorem ReadsAs.map {α β : Type} {r : Reader α} (f : α → β) {e1 : Bytes} {a : α}
    (h1 : ReadsAs r e1 a) : ReadsAs (f <$> r) e1 (f a) := by
  have : f <$> r = r >>= fun a => Pure.pure (f a) := rfl
  rw [this]; exact ReadsAs.bind_pure h1 rfl

theorem ReadsAs.ite {α : Type} {c : Prop} [Decidable c] {r1 r2 : Reader α} {e : Bytes} {a : α}
    (h1 : c → ReadsAs r1 e a) (h2 : ¬ c → ReadsAs r2 e a) : ReadsAs (if c then r1 else r2) e a := by
  split
  · exact h1 ‹_›
  · exact h2 ‹_›

theorem StreamSafe.pure {α : Type} (a : α) : StreamSafe (Pure.pure a : Reader α) := by
  intro s v rest t h
  injection h with h; injection h with h1 h2
  subst h1; subst h2; rfl

theorem StreamSafe.fail {α : Type} (e : Err) : StreamSafe (Reader.fail e : Reader α) := by
  intro s v rest t h; cases h

theorem StreamSafe.bind {α β : Type} {r : Reader α} {f : α → Reader β}
    (h1 : StreamSafe r) (h2 : ∀ a, StreamSafe (f a)) : StreamSafe (r >>= f) := by
  intro s v rest t h
  rw [bind_run] at h ⊢
  cases hr : r s with
  | error e => rw [hr] at h; cases h
  | ok x =>
    obtain ⟨a, s'⟩ := x
    rw [hr] at h
    rw [h1 s a s' t hr]
    exact h2 a s' v rest t h

theorem StreamSafe.map {α β : Type} {r : Reader α} (f : α → β) (h1 : StreamSafe r) :
    StreamSafe (f <$> r) :=
  StreamSafe.bind h1 (fun a => StreamSafe.pure (f a))

theorem StreamSafe.ite {α : Type} {c : Prop} [Decidable c] {r1 r2 : Reader α}
    (h1 : StreamSafe r1) (h2 : StreamSafe r2) : StreamSafe (if c then r1 else r2) := by
  split <;> assumption

theorem StreamSafe.readByte : StreamSafe readByte := by
  intro s v rest t h
  cases s with
  | nil => cases h
  | cons b s =>
    injection h with h; injection h with h1 h2; subst h1; subst h2; rfl

theorem ReadsAs.readByte (b : UInt8) : ReadsAs readByte [b] b := fun _ => rfl

theorem StreamSafe.readExact (n : Nat) : StreamSafe (readExact n) := by
  intro s v rest t h
  unfold Dar.readExact at h ⊢
  split at h
  · rename_i hn
    injection h with h; injection h with h1 h2
    rw [if_pos (by simp; omega), List.take_append_of_le_length hn, List.drop_append_of_le_length hn, h1, h2]
  · cases h

theorem ReadsAs.readExact (l : Bytes) (n : Nat) (h : l.length = n) : ReadsAs (readExact n) l l :=
  fun rest => readExact_append' n l rest h

/-- Reading a list of `n` items one after the other. -/
def readList {α : Type} (r : Reader α) : Nat → Reader (List α)
  | 0 => pure []
  | n + 1 => do let a ← r; let l ← readList r n; pure (a :: l)

theorem StreamSafe.readList {α : Type} {r : Reader α} (h : StreamSafe r) (n : Nat) :
    StreamSafe (readList r n) := by
  induction n with
  | zero => exact StreamSafe.pure []
  | succ n ih => exact h.bind fun a => ih.bind fun l => StreamSafe.pure _

theorem ReadsAs.readList {α : Type} {r : Reader α} (enc : α → Bytes) (l : List α)
    (h : ∀ a ∈ l, ReadsAs r (enc a) a) : ReadsAs (readList r l.length) (l.flatMap enc) l := by
  induction l with
  | nil => exact ReadsAs.pure []
  | cons a l ih =>
    simp only [List.length_cons, Dar.readList, List.flatMap_cons]
    refine ReadsAs.bind (h a (by simp)) ?_
    exact ReadsAs.bind_pure (ih fun b hb => h b (by simp [hb])) rfl

end Dar
