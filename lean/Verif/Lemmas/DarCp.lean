import Verif.Spec.DarCp
import Verif.Lemmas.Flat
import Verif.Lemmas.FileIo
namespace Dar

theorem missing_congr {k k' : Nat → Bool} {n : Nat} (h : ∀ i, i < n → k i = k' i) : missing k n = missing k' n := by
  unfold missing
  apply List.countP_congr
  intro i hi
  rw [h i (by simpa using hi)]
theorem missing_succ (k : Nat → Bool) (n : Nat) : missing k (n + 1) = missing k n + (if k n then 0 else 1) := by
  unfold missing
  rw [List.range_succ, List.countP_append]
  simp only [List.countP_cons, List.countP_nil, Nat.zero_add]
  cases k n <;> simp
theorem missing_kept {k : Nat → Bool} {p n : Nat} (h : ∀ i, p ≤ i → i < p + n → k i = true) : missing k (p + n) = missing k p := by
  induction n with
  | zero => rfl
  | succ n ih =>
    rw [← Nat.add_assoc, missing_succ, ih (fun i h1 h2 => h i h1 (by omega)), h (p + n) (by omega) (by omega)]
    rfl
theorem missing_hole {k : Nat → Bool} {p n : Nat} (h : ∀ i, p ≤ i → i < p + n → k i = false) : missing k (p + n) = missing k p + n := by
  induction n with
  | zero => rfl
  | succ n ih =>
    rw [← Nat.add_assoc, missing_succ, ih (fun i h1 h2 => h i h1 (by omega)), h (p + n) (by omega) (by omega)]
    simp; omega

variable {e : CpEnv} {bad : Nat → Prop}

theorem cpRead_some (hs : e.Sound bad) {p n : Nat} {b : Bytes} (h : e.read p n = some b) :
    b = (e.data.drop p).take b.length ∧ b.length ≤ n ∧ b.length ≤ e.data.length - p ∧ (b = [] → n = 0 ∨ e.data.length ≤ p) ∧
    ∀ i, p ≤ i → i < p + b.length → ¬ bad i := by
  unfold CpEnv.read at h
  cases hr : e.rd p n with
  | none => rw [hr] at h; simp at h
  | some k =>
    rw [hr] at h
    simp only [Option.map_some, Option.some.injEq] at h
    obtain ⟨h1, h2, h3, h4⟩ := hs.gives p n k hr
    have hl : b.length = k := by rw [← h, List.length_take, List.length_drop]; omega
    rw [hl]
    refine ⟨h.symm, h1, h2, ?_, h4⟩
    intro hb
    rw [hb] at hl
    exact h3 hl.symm
theorem cpRead_none (hs : e.Sound bad) {p n : Nat} (h : e.read p n = none) : p < e.data.length ∧ ∃ i, bad i ∧ p ≤ i ∧ i < p + n ∧ i < e.data.length := by
  unfold CpEnv.read at h
  exact hs.fails p n (by simpa using h)
theorem cpRead_prefix (hp : e.Prefix bad) {p n : Nat} (h : e.read p n = none) : bad p := by
  unfold CpEnv.read at h
  exact hp p n (by simpa using h)
theorem cpRead_one_none (hs : e.Sound bad) {p : Nat} (h : e.read p 1 = none) : bad p := by
  obtain ⟨_, i, h1, h2, h3, -⟩ := cpRead_none hs h
  have : i = p := by omega
  rw [← this]; exact h1
theorem cpRead_one (hs : e.Sound bad) {p : Nat} {b : Bytes} (h : e.read p 1 = some b) :
    (b = [] ∧ e.data.length ≤ p) ∨ (∃ x, b = [x] ∧ p < e.data.length ∧ ¬ bad p) := by
  obtain ⟨h1, h2, h3, h4, h5⟩ := cpRead_some hs h
  match b with
  | [] => exact Or.inl ⟨rfl, by rcases h4 rfl with h | h; · omega
                                · exact h⟩
  | [x] => exact Or.inr ⟨x, rfl, by simp at h3; omega, h5 p (Nat.le_refl _) (by simp)⟩
  | x :: y :: l => simp at h2

theorem cpWriteAll_ok : ∀ (n : Nat) (d : Flat) (b : Bytes) (d' : Flat), b.length ≤ n → cpWriteAll e n d b = .ok d' → d' = d.write b := by
  intro n
  induction n with
  | zero =>
    intro d b d' hn h
    have : b = [] := List.length_eq_zero_iff.mp (by omega)
    subst this
    simp only [cpWriteAll, Except.ok.injEq] at h
    rw [← h, flat_write_nil]
  | succ n ih =>
    intro d b d' hn h
    unfold cpWriteAll at h
    by_cases hb : b = []
    · rw [if_pos hb] at h
      simp only [Except.ok.injEq] at h
      rw [← h, hb, flat_write_nil]
    · rw [if_neg hb] at h
      cases hw : e.wr d.pos b.length with
      | none => rw [hw] at h; simp at h
      | some k =>
        rw [hw] at h
        dsimp only at h
        rw [ih _ _ _ (by rw [List.length_drop]; omega) h, flat_write_add, List.take_append_drop]
theorem cpWriteAll_err : ∀ (n : Nat) (d : Flat) (b : Bytes) (x : Err), cpWriteAll e n d b = .error x → x = .range ∧ ∃ p m, e.wr p m = none := by
  intro n
  induction n with
  | zero => intro d b x h; simp [cpWriteAll] at h
  | succ n ih =>
    intro d b x h
    unfold cpWriteAll at h
    by_cases hb : b = []
    · rw [if_pos hb] at h; simp at h
    · rw [if_neg hb] at h
      cases hw : e.wr d.pos b.length with
      | none =>
        rw [hw] at h
        simp only [Except.error.injEq] at h
        exact ⟨h.symm, _, _, hw⟩
      | some k => rw [hw] at h; exact ih _ _ _ h

/-- what the loop of copy_max maintains -/
structure CpInv (e : CpEnv) (bad : Nat → Prop) (old : Bytes) (kept : Nat → Bool) (s : CpSt) : Prop where
  copy : CpCopy e bad old kept s.dst.data
  aligned : s.dst.pos = s.pos
  ahead : ∀ i, kept i = true → i < s.pos
  inside : s.pos ≤ e.data.length

theorem cpInv_write {old : Bytes} {kept : Nat → Bool} {s : CpSt} (hi : CpInv e bad old kept s) {b : Bytes} (hb : b = (e.data.drop s.pos).take b.length)
    (hl : b.length ≤ e.data.length - s.pos) (hg : ∀ i, s.pos ≤ i → i < s.pos + b.length → ¬ bad i) :
    CpInv e bad old (fun i => kept i || decide (s.pos ≤ i ∧ i < s.pos + b.length)) ⟨s.pos + b.length, s.dst.write b⟩ := by
  obtain ⟨⟨g, ho, lo, la⟩, al, ah, ins⟩ := hi
  by_cases hn : b = []
  · subst hn
    rw [flat_write_nil]
    have : (fun i => kept i || decide (s.pos ≤ i ∧ i < s.pos + ([] : Bytes).length)) = kept := by
      funext i
      have : ¬ (s.pos ≤ i ∧ i < s.pos + ([] : Bytes).length) := by simp
      simp [this]
    rw [this]
    exact ⟨⟨g, ho, lo, la⟩, al, ah, ins⟩
  · have hp : 0 < b.length := List.length_pos_iff.mpr hn
    have hget := patch_get s.dst.data s.dst.pos b hn
    have hlen := patch_length s.dst.data s.dst.pos b hn
    have hbi : ∀ j, j < b.length → b[j]? = e.data[s.pos + j]? := by
      intro j hj
      rw [hb, List.getElem?_take_of_lt (by omega), List.getElem?_drop]
    refine ⟨⟨?_, ?_, ?_, ?_⟩, ?_, ?_, ?_⟩
    · intro i h
      simp only [Bool.or_eq_true, decide_eq_true_eq] at h
      by_cases hr : s.pos ≤ i ∧ i < s.pos + b.length
      · refine ⟨by omega, hg i hr.1 hr.2, ?_⟩
        simp only [Flat.write]
        rw [hget, al, if_neg (by omega), if_pos hr.2, hbi _ (by omega)]
        congr 1; omega
      · have hk : kept i = true := by tauto
        obtain ⟨a1, a2, a3⟩ := g i hk
        refine ⟨a1, a2, ?_⟩
        have := ah i hk
        have hid : i < s.dst.data.length := by
          by_contra hc
          rw [get_none_of_len _ _ hc, List.getElem?_eq_getElem a1] at a3
          cases a3
        simp only [Flat.write]
        rw [hget, al, if_pos this, if_pos hid, a3]
    · intro i h hl'
      simp only [Bool.or_eq_false_iff, decide_eq_false_iff_not] at h
      simp only [Flat.write] at hl' ⊢
      rw [hlen, al] at hl'
      rw [hget, al]
      by_cases h1 : i < s.pos
      · rw [if_pos h1]
        by_cases h2 : i < s.dst.data.length
        · rw [if_pos h2]; exact ho i h.1 h2
        · rw [if_neg h2, List.getElem?_eq_none (by omega)]; rfl
      · rw [if_neg h1, if_neg (by omega)]
        exact ho i h.1 (by omega)
    · simp only [Flat.write]
      rw [hlen]; omega
    · show old.length < (patch s.dst.data s.dst.pos b).length → (kept ((patch s.dst.data s.dst.pos b).length - 1) ||
        decide (s.pos ≤ (patch s.dst.data s.dst.pos b).length - 1 ∧ (patch s.dst.data s.dst.pos b).length - 1 < s.pos + b.length)) = true
      rw [Bool.or_eq_true, decide_eq_true_eq, hlen, al]
      intro h
      by_cases hc : s.dst.data.length ≤ s.pos + b.length
      · right; omega
      · have hm : max s.dst.data.length (s.pos + b.length) = s.dst.data.length := by omega
        rw [hm] at h ⊢
        exact Or.inl (la h)
    · simp only [Flat.write, al]
    · intro i h
      simp only [Bool.or_eq_true, decide_eq_true_eq] at h
      dsimp only
      rcases h with h | h
      · have := ah i h; omega
      · exact h.2
    · dsimp only; omega

theorem cpInv_seek {old : Bytes} {kept : Nat → Bool} {s : CpSt} (hi : CpInv e bad old kept s) {m : Nat} (h1 : s.pos ≤ m) (h2 : m ≤ e.data.length) :
    CpInv e bad old kept ⟨m, s.dst.skip m⟩ :=
  ⟨hi.copy, rfl, fun i h => by have := hi.ahead i h; dsimp only; omega, h2⟩

theorem xferLoop_inv (hs : e.Sound bad) (hw : e.Writes) {old : Bytes} : ∀ (n block : Nat) (s s' : CpSt) (kept : Nat → Bool), CpInv e bad old kept s →
    xferLoop e n block s = .ok s' → ∃ kept', CpInv e bad old kept' s' ∧ s.pos ≤ s'.pos := by
  intro n
  induction n with
  | zero =>
    intro block s s' kept hi h
    simp only [xferLoop, Except.ok.injEq] at h
    subst h
    exact ⟨kept, hi, Nat.le_refl _⟩
  | succ n ih =>
    intro block s s' kept hi h
    unfold xferLoop at h
    by_cases hb : block > 1
    · rw [if_pos hb] at h
      cases hr : e.read s.pos block with
      | none => rw [hr] at h; exact ih _ _ _ _ hi h
      | some b =>
        rw [hr] at h
        cases b with
        | nil => exact ih _ _ _ _ hi h
        | cons x l =>
          dsimp only at h
          cases hww : e.wr s.dst.pos (x :: l).length with
          | none => rw [hww] at h; simp at h
          | some k =>
            rw [hww] at h
            dsimp only at h
            have hk := hw _ _ _ hww
            rw [List.take_of_length_le hk] at h
            obtain ⟨r1, r2, r3, r4, r5⟩ := cpRead_some hs hr
            obtain ⟨kept', i1, i2⟩ := ih _ _ _ _ (cpInv_write hi r1 r3 r5) h
            exact ⟨kept', i1, by dsimp only at i2; omega⟩
    · rw [if_neg hb] at h
      simp only [Except.ok.injEq] at h
      subst h
      exact ⟨kept, hi, Nat.le_refl _⟩
theorem xferLoop_err : ∀ (n block : Nat) (s : CpSt) (x : Err), xferLoop e n block s = .error x → x = .range ∧ ∃ p m, e.wr p m = none := by
  intro n
  induction n with
  | zero => intro block s x h; simp [xferLoop] at h
  | succ n ih =>
    intro block s x h
    unfold xferLoop at h
    by_cases hb : block > 1
    · rw [if_pos hb] at h
      cases hr : e.read s.pos block with
      | none => rw [hr] at h; exact ih _ _ _ h
      | some b =>
        rw [hr] at h
        cases b with
        | nil => exact ih _ _ _ h
        | cons y l =>
          dsimp only at h
          cases hww : e.wr s.dst.pos (y :: l).length with
          | none =>
            rw [hww] at h
            simp only [Except.error.injEq] at h
            exact ⟨h.symm, _, _, hww⟩
          | some k => rw [hww] at h; exact ih _ _ _ h
    · rw [if_neg hb] at h; simp at h

theorem xferBefore_prefix (hp : e.Prefix bad) (hs : e.Sound bad) {n block : Nat} {s : CpSt} (h : e.read s.pos n = none) : xferBefore e block s = .ok s := by
  have hb := cpRead_prefix hp h
  have hl := (cpRead_none hs h).1
  unfold xferBefore
  cases hr : e.read s.pos 1 with
  | none => rfl
  | some b =>
    rcases cpRead_one hs hr with ⟨_, h1⟩ | ⟨x, _, _, h2⟩
    · omega
    · exact absurd hb h2
theorem xferBefore_inv (hs : e.Sound bad) (hw : e.Writes) {old : Bytes} {block : Nat} {s s' : CpSt} {kept : Nat → Bool} (hi : CpInv e bad old kept s)
    (h : xferBefore e block s = .ok s') : ∃ kept', CpInv e bad old kept' s' ∧ s.pos ≤ s'.pos := by
  unfold xferBefore at h
  split at h
  · exact xferLoop_inv hs hw _ _ _ _ _ hi h
  · simp only [Except.ok.injEq] at h
    subst h
    exact ⟨kept, hi, Nat.le_refl _⟩
theorem xferBefore_err {block : Nat} {s : CpSt} {x : Err} (h : xferBefore e block s = .error x) : x = .range ∧ ∃ p m, e.wr p m = none := by
  unfold xferBefore at h
  split at h
  · exact xferLoop_err _ _ _ _ h
  · simp at h

theorem leap_ge : ∀ (n block p hi : Nat), leap e n block p = .ok hi → p ≤ hi := by
  intro n
  induction n with
  | zero => intro block p hi h; simp [leap] at h
  | succ n ih =>
    intro block p hi h
    unfold leap at h
    cases hr : e.read p 1 with
    | some b => rw [hr] at h; simp only [Except.ok.injEq] at h; omega
    | none =>
      rw [hr] at h
      dsimp only at h
      by_cases hb : block * 2 ≥ 2 ^ 31
      · rw [if_pos hb] at h; simp at h
      · rw [if_neg hb] at h
        have := ih _ _ _ h
        omega
theorem leap_end (hs : e.Sound bad) : ∀ (n block p hi : Nat), leap e n block p = .ok hi → (p < hi → ¬ bad (hi - 1) ∨ e.data.length ≤ hi) ∧ (hi = p → e.data.length ≤ p) := by
  intro n
  induction n with
  | zero => intro block p hi h; simp [leap] at h
  | succ n ih =>
    intro block p hi h
    unfold leap at h
    cases hr : e.read p 1 with
    | some b =>
      rw [hr] at h
      simp only [Except.ok.injEq] at h
      rcases cpRead_one hs hr with ⟨h1, h2⟩ | ⟨x, h1, h2, h3⟩
      · subst h1; simp at h; subst h; exact ⟨fun h => by omega, fun _ => h2⟩
      · subst h1; simp at h; subst h; exact ⟨fun _ => Or.inl (by simpa using h3), fun h => by omega⟩
    | none =>
      rw [hr] at h
      dsimp only at h
      by_cases hb : block * 2 ≥ 2 ^ 31
      · rw [if_pos hb] at h; simp at h
      · rw [if_neg hb] at h
        obtain ⟨i1, i2⟩ := ih _ _ _ h
        have hg := leap_ge _ _ _ _ h
        have hl := (cpRead_none hs hr).1
        constructor
        · intro _
          by_cases hh : hi = p + block * 2
          · exact Or.inr (by have := i2 hh; omega)
          · exact i1 (by omega)
        · intro hh
          have : block = 0 := by omega
          subst this
          have := i2 (by omega)
          omega

theorem leap_total : ∀ (n block p : Nat), 0 < n → 2 ^ 31 ≤ block * 2 ^ n → leap e n block p ≠ .error .diverge := by
  intro n
  induction n with
  | zero => intro block p h; omega
  | succ n ih =>
    intro block p _ hb h
    unfold leap at h
    cases hr : e.read p 1 with
    | some b => rw [hr] at h; simp at h
    | none =>
      rw [hr] at h
      dsimp only at h
      by_cases hc : block * 2 ≥ 2 ^ 31
      · rw [if_pos hc] at h; simp at h
      · rw [if_neg hc] at h
        have hb' : 2 ^ 31 ≤ block * 2 * 2 ^ n := by rw [Nat.mul_assoc, Nat.mul_comm 2, ← Nat.pow_succ]; exact hb
        cases n with
        | zero => simp at hb'; omega
        | succ n => exact ih _ _ (by omega) hb' h
theorem leap_no_ub (hs : e.Sound bad) : ∀ (n block p : Nat), e.data.length ≤ 2 ^ 31 - 1024 → block * 2 ≤ p + 1024 → leap e n block p ≠ .error .ub := by
  intro n
  induction n with
  | zero => intro block p _ _ h; simp [leap] at h
  | succ n ih =>
    intro block p hl hp h
    unfold leap at h
    cases hr : e.read p 1 with
    | some b => rw [hr] at h; simp at h
    | none =>
      rw [hr] at h
      dsimp only at h
      have := (cpRead_none hs hr).1
      rw [if_neg (by omega)] at h
      exact ih _ _ hl (by omega) h
theorem leap_err : ∀ (n block p : Nat) (x : Err), leap e n block p = .error x → x = .diverge ∨ x = .ub := by
  intro n
  induction n with
  | zero => intro block p x h; simp only [leap, Except.error.injEq] at h; exact Or.inl h.symm
  | succ n ih =>
    intro block p x h
    unfold leap at h
    cases hr : e.read p 1 with
    | some b => rw [hr] at h; simp at h
    | none =>
      rw [hr] at h
      dsimp only at h
      by_cases hc : block * 2 ≥ 2 ^ 31
      · rw [if_pos hc] at h; simp only [Except.error.injEq] at h; exact Or.inr h.symm
      · rw [if_neg hc] at h; exact ih _ _ _ h

theorem bisect_bounds : ∀ (n lo hi : Nat), lo ≤ hi → lo ≤ bisect e n lo hi ∧ bisect e n lo hi ≤ hi ∧ (lo < hi → lo < bisect e n lo hi) := by
  intro n
  induction n with
  | zero => intro lo hi h; simp [bisect, h]
  | succ n ih =>
    intro lo hi h
    unfold bisect
    by_cases hc : hi - lo > 1
    · rw [if_pos hc]
      dsimp only
      cases hr : e.read ((hi + lo) / 2) 1 with
      | some b =>
        obtain ⟨h1, h2, h3⟩ := ih lo ((hi + lo) / 2) (by omega)
        exact ⟨h1, by dsimp only; omega, fun _ => h3 (by omega)⟩
      | none =>
        obtain ⟨h1, h2, h3⟩ := ih ((hi + lo) / 2) hi (by omega)
        exact ⟨by dsimp only; omega, h2, fun _ => by have := h3 (by omega); dsimp only; omega⟩
    · rw [if_neg hc]
      exact ⟨h, Nat.le_refl _, fun h => h⟩
/-- the byte before the place found cannot be read -/
theorem bisect_prev (hs : e.Sound bad) : ∀ (n lo hi : Nat), lo < hi → hi - lo ≤ n → bad lo → bad (bisect e n lo hi - 1) := by
  intro n
  induction n with
  | zero => intro lo hi h1 h2; omega
  | succ n ih =>
    intro lo hi h1 h2 hb
    unfold bisect
    by_cases hc : hi - lo > 1
    · rw [if_pos hc]
      dsimp only
      cases hr : e.read ((hi + lo) / 2) 1 with
      | some b => exact ih _ _ (by omega) (by omega) hb
      | none => exact ih _ _ (by omega) (by omega) (cpRead_one_none hs hr)
    · rw [if_neg hc]
      have : hi - 1 = lo := by omega
      rw [this]; exact hb

end Dar
