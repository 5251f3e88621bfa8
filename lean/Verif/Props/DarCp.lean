import Verif.Lemmas.DarCp2
/- C62: copying a damaged file (dar_cp). -/
namespace Dar

/-- C62: each byte of the copy is the byte of the source at the same offset, or what the destination held there (zero when it was new): nothing is displaced or
invented, whatever the places that cannot be read, the short reads and (see `hpw`) the short writes. -/
theorem C62_copy (e : CpEnv) (bad : Nat → Prop) (hs : e.Sound bad) (hpw : e.Prefix bad ∨ e.Writes) (old : Bytes) (m : Nat) (out : Flat)
    (h : copyMax e old = .ok (m, out)) : ∃ kept, CpCopy e bad old kept out.data := by
  obtain ⟨kept, h1, -⟩ := (cpLoop_spec hs hpw _ 0 _ _ (cpInv_start e bad old) (by dsimp only; omega) (fun _ i hi => by simp at hi) (by simp)
    (fun _ => ⟨rfl, fun i hi => by simp at hi, by simp⟩)).1 m out h
  exact ⟨kept, h1⟩

/-- C62: the exit status is good exactly when all of the source can be read, and then the destination begins with the whole source -/
theorem C62_status (e : CpEnv) (bad : Nat → Prop) (hs : e.Sound bad) (hpw : e.Prefix bad ∨ e.Writes) (old : Bytes) (m : Nat) (out : Flat)
    (h : copyMax e old = .ok (m, out)) :
    (m = 0 ↔ ∀ i, i < e.data.length → ¬ bad i) ∧ (m = 0 → out.data = e.data ++ old.drop e.data.length) := by
  obtain ⟨kept, h1, h2, h3, -⟩ := (cpLoop_spec hs hpw _ 0 _ _ (cpInv_start e bad old) (by dsimp only; omega) (fun _ i hi => by simp at hi) (by simp)
    (fun _ => ⟨rfl, fun i hi => by simp at hi, by simp⟩)).1 m out h
  refine ⟨⟨fun hm i hi => (h1.good i (h2 hm i hi)).2.1, ?_⟩, ?_⟩
  · intro hb
    by_contra hc
    obtain ⟨i, hi, hbi⟩ := h3 (by omega)
    exact hb i hi hbi
  · intro hm
    have hk := h2 hm
    apply List.ext_getElem?
    intro i
    by_cases hi : i < e.data.length
    · rw [(h1.good i (hk i hi)).2.2, List.getElem?_append_left hi]
    · have hki : kept i = false := by
        cases hc : kept i with
        | false => rfl
        | true => exact absurd (h1.good i hc).1 hi
      rw [List.getElem?_append_right (by omega), List.getElem?_drop, show e.data.length + (i - e.data.length) = i by omega]
      by_cases hl : i < out.data.length
      · rw [h1.hole i hki hl]
        by_cases ho : i < old.length
        · rw [List.getElem?_eq_getElem ho]; rfl
        · -- beyond `old`, the last byte would have been copied
          exfalso
          have := h1.last (by omega)
          have := (h1.good _ this).1
          omega
      · rw [get_none_of_len _ _ hl, List.getElem?_eq_none (by have := h1.long; omega)]

/-- C62: onto a new file, a good exit status means that the copy is the source -/
theorem C62_new_file (e : CpEnv) (bad : Nat → Prop) (hs : e.Sound bad) (hpw : e.Prefix bad ∨ e.Writes) (out : Flat) (h : copyMax e [] = .ok (0, out)) :
    out.data = e.data := by
  have := (C62_status e bad hs hpw [] 0 out h).2 rfl
  simpa using this

/-- C62: where the system gives what precedes a place that cannot be read (Linux does): the number of missing bytes told is the number of bytes of the source that
have not been copied, and each part left out begins and ends with a byte that cannot be read -/
theorem C62_missing (e : CpEnv) (bad : Nat → Prop) (hs : e.Sound bad) (hp : e.Prefix bad) (old : Bytes) (m : Nat) (out : Flat)
    (h : copyMax e old = .ok (m, out)) :
    ∃ kept, CpCopy e bad old kept out.data ∧ m = missing kept e.data.length ∧ GapsBad bad kept e.data.length := by
  obtain ⟨kept, h1, -, -, h4⟩ := (cpLoop_spec hs (Or.inl hp) _ 0 _ _ (cpInv_start e bad old) (by dsimp only; omega) (fun _ i hi => by simp at hi) (by simp)
    (fun _ => ⟨rfl, fun i hi => by simp at hi, by simp⟩)).1 m out h
  exact ⟨kept, h1, h4 hp⟩

/-- C62: the command ends, with a copy unless a write fails (or the source is larger than 2^31 - 1024 bytes, see `C62_not_large_hole`) -/
theorem C62_ends (e : CpEnv) (bad : Nat → Prop) (hs : e.Sound bad) (hpw : e.Prefix bad ∨ e.Writes) (old : Bytes) (hw : ∀ p n, e.wr p n ≠ none)
    (hl : e.data.length ≤ 2 ^ 31 - 1024) : ∃ m out, copyMax e old = .ok (m, out) := by
  have := (cpLoop_spec hs hpw (e.data.length + 2) 0 _ _ (cpInv_start e bad old) (by dsimp only; omega) (fun _ i hi => by simp at hi) (by simp)
    (fun _ => ⟨rfl, fun i hi => by simp at hi, by simp⟩)).2
  cases h : copyMax e old with
  | ok r => exact ⟨r.1, r.2, rfl⟩
  | error x =>
    rcases this x h with ⟨-, p, k, hn⟩ | ⟨-, hn⟩
    · exact absurd hn (hw p k)
    · omega

/-! ### systems -/

/-- a system whose readings stop before the first byte that cannot be read -/
def rdPrefix (bad : Nat → Bool) (len : Nat) (p n : Nat) : Option Nat :=
  if p ≥ len then some 0 else if n > 0 ∧ bad p then none else some ((List.range' p (min n (len - p))).takeWhile (fun i => !bad i)).length
/-- a system whose readings fail as soon as a byte asked cannot be read -/
def rdWhole (bad : Nat → Bool) (len : Nat) (p n : Nat) : Option Nat :=
  if (List.range' p (min n (len - p))).any bad then none else some (min n (len - p))

theorem rdPrefix_sound (data : Bytes) (bad : Nat → Bool) (wr : Nat → Nat → Option Nat) :
    (CpEnv.mk data (rdPrefix bad data.length) wr).Sound (fun i => bad i = true) ∧ (CpEnv.mk data (rdPrefix bad data.length) wr).Prefix (fun i => bad i = true) := by
  refine ⟨⟨?_, ?_⟩, ?_⟩
  · intro p n k h
    dsimp only at h ⊢
    unfold rdPrefix at h
    by_cases h1 : p ≥ data.length
    · rw [if_pos h1] at h
      simp only [Option.some.injEq] at h
      subst h
      exact ⟨by omega, by omega, fun _ => Or.inr h1, fun i _ _ => by omega⟩
    · rw [if_neg h1] at h
      by_cases h2 : n > 0 ∧ bad p
      · rw [if_pos h2] at h; simp at h
      · rw [if_neg h2] at h
        simp only [Option.some.injEq] at h
        have hpre := List.takeWhile_prefix (l := List.range' p (min n (data.length - p))) (fun i => !bad i)
        have hle := hpre.length_le
        rw [List.length_range'] at hle
        refine ⟨by omega, by omega, ?_, ?_⟩
        · intro hk
          by_cases hn : n = 0
          · exact Or.inl hn
          · exfalso
            have hb : bad p = false := by
              cases hb : bad p with
              | false => rfl
              | true => exact absurd ⟨by omega, hb⟩ h2
            obtain ⟨q, hq⟩ : ∃ q, min n (data.length - p) = q + 1 := ⟨min n (data.length - p) - 1, by omega⟩
            rw [hq, List.range'_succ, List.takeWhile_cons, hb] at h
            simp at h
            omega
        · intro i hi1 hi2
          have hg : ((List.range' p (min n (data.length - p))).takeWhile (fun i => !bad i))[i - p]? = some i := by
            rw [List.getElem?_eq_getElem (by omega), hpre.getElem (by omega), List.getElem_range']
            congr 1
            omega
          have hm := List.mem_of_getElem? hg
          have := List.all_eq_true.mp (List.all_takeWhile (p := fun i => !bad i) (l := List.range' p (min n (data.length - p)))) i hm
          simpa using this
  · intro p n h
    dsimp only at h ⊢
    unfold rdPrefix at h
    by_cases h1 : p ≥ data.length
    · rw [if_pos h1] at h; simp at h
    · rw [if_neg h1] at h
      by_cases h2 : n > 0 ∧ bad p
      · exact ⟨by omega, p, h2.2, Nat.le_refl _, by omega, by omega⟩
      · rw [if_neg h2] at h; simp at h
  · intro p n h
    dsimp only at h ⊢
    unfold rdPrefix at h
    by_cases h1 : p ≥ data.length
    · rw [if_pos h1] at h; simp at h
    · rw [if_neg h1] at h
      by_cases h2 : n > 0 ∧ bad p
      · exact h2.2
      · rw [if_neg h2] at h; simp at h

theorem rdWhole_sound (data : Bytes) (bad : Nat → Bool) (wr : Nat → Nat → Option Nat) :
    (CpEnv.mk data (rdWhole bad data.length) wr).Sound (fun i => bad i = true) := by
  refine ⟨?_, ?_⟩
  · intro p n k h
    dsimp only at h ⊢
    unfold rdWhole at h
    by_cases h1 : (List.range' p (min n (data.length - p))).any bad = true
    · rw [if_pos h1] at h; simp at h
    · rw [if_neg h1] at h
      simp only [Option.some.injEq] at h
      refine ⟨by omega, by omega, by omega, ?_⟩
      intro i h2 h3 hb
      apply h1
      rw [List.any_eq_true]
      exact ⟨i, by rw [List.mem_range'_1]; omega, hb⟩
  · intro p n h
    dsimp only at h ⊢
    unfold rdWhole at h
    by_cases h1 : (List.range' p (min n (data.length - p))).any bad = true
    · rw [List.any_eq_true] at h1
      obtain ⟨i, h2, h3⟩ := h1
      rw [List.mem_range'_1] at h2
      exact ⟨by omega, i, h3, by omega, by omega, by omega⟩
    · rw [if_neg h1] at h; simp at h

/-- a system that writes all it is asked -/
def wrAll (_ n : Nat) : Option Nat := some n
/-- a system that writes one byte at a time -/
def wrOne (_ _ : Nat) : Option Nat := some 0

/-! ### where it does not do what is expected -/

/-- the copy as a list, to be computed -/
def copyOut (e : CpEnv) (old : Bytes) : Option (Nat × Bytes) := match copyMax e old with
  | .ok (m, out) => some (m, out.data)
  | .error _ => none

/-- C62 does not hold with the option -f: the destination is not emptied, a good exit status is returned though the destination is not the source -/
theorem C62_not_forced : copyOut ⟨[1, 2], rdPrefix (fun _ => false) 2, wrAll⟩ [7, 8, 9] = some (0, [1, 2, 9]) := by decide +kernel

/-- C62: the next readable byte is not always found: here (2000 bytes, those at 0 and from 1024 on being damaged) 1023 bytes in a row can be read, "no correct data could be
found" and nothing is copied -/
theorem C62_not_next_readable : copyOut ⟨List.replicate 2000 1, rdPrefix (fun i => decide (i = 0 ∨ 1024 ≤ i)) 2000, wrAll⟩ [] = some (2000, []) := by decide +kernel

/-- C62: where a reading fails as a whole, a byte readable before a damaged one stops the copy: out of three bytes, two of which can be read, nothing is copied -/
theorem C62_not_whole_readings : copyOut ⟨[1, 2, 3], rdWhole (fun i => decide (i = 1)) 3, wrAll⟩ [] = some (3, []) := by decide +kernel

/-- C62 does not hold where both readings fail as a whole and writings are short: xfer_before_error does not complete its writings, here the second byte of the copy is the
fifth of the source -/
theorem C62_not_short_writes : copyOut ⟨[1, 2, 3, 4, 5, 6, 7, 8], rdWhole (fun i => decide (i = 7)) 8, wrOne⟩ [] = some (8, [1, 5]) := by decide +kernel

theorem leap_all_bad (e : CpEnv) (hb : ∀ p, p < 2 ^ 31 → e.read p 1 = none) : ∀ (n k : Nat), k ≤ 21 → 22 ≤ n + k → leap e n (512 * 2 ^ k) (1024 * 2 ^ k - 1024) = .error .ub := by
  intro n
  induction n with
  | zero => intro k h1 h2; omega
  | succ n ih =>
    intro k h1 h2
    have hle : 2 ^ k ≤ 2 ^ 21 := Nat.pow_le_pow_right (by decide) h1
    have hpos : 1 ≤ 2 ^ k := Nat.one_le_two_pow
    unfold leap
    rw [hb _ (by omega)]
    dsimp only
    by_cases hk : k = 21
    · subst hk
      rw [if_pos (by decide)]
    · have hle : 2 ^ k ≤ 2 ^ 20 := Nat.pow_le_pow_right (by decide) (by omega)
      rw [if_neg (by omega)]
      have := ih (k + 1) (by omega) (by omega)
      rw [Nat.pow_succ] at this
      have h3 : 512 * 2 ^ k * 2 = 512 * (2 ^ k * 2) := by omega
      have h4 : 1024 * 2 ^ k - 1024 + 512 * 2 ^ k * 2 = 1024 * (2 ^ k * 2) - 1024 := by omega
      rw [h4, h3]
      exact this

/-- C62 does not hold for large damaged zones: 2^31 bytes that cannot be read in a row make the size of a step overflow (undefined behaviour) -/
theorem C62_not_large_hole (e : CpEnv) (hr : ∀ p n, p < 2 ^ 31 → e.rd p n = none) (old : Bytes) : copyMax e old = .error .ub := by
  have hn : ∀ p n, p < 2 ^ 31 → e.read p n = none := fun p n h => by unfold CpEnv.read; rw [hr p n h]; rfl
  unfold copyMax
  rw [cpLoop_fail (hn _ _ (by dsimp only; omega))]
  have hx : xferBefore e (cpBuf / 2) ⟨0, ⟨old, 0⟩⟩ = .ok ⟨0, ⟨old, 0⟩⟩ := by
    unfold xferBefore
    rw [hn _ _ (by dsimp only; omega)]
  rw [hx]
  show (leap e 32 (cpBuf / 2) 0).bind _ = _
  have hl : leap e 32 (cpBuf / 2) 0 = .error .ub := leap_all_bad e (fun p h => hn p 1 h) 32 0 (by decide) (by decide)
  rw [hl]
  rfl

/-! ### examples -/

example : copyOut ⟨[1, 2, 3, 4, 5, 6], rdPrefix (fun i => decide (i = 2 ∨ i = 3)) 6, wrOne⟩ [] = some (2, [1, 2, 0, 0, 5, 6]) := by decide +kernel
example : (CpEnv.mk [1, 2, 3] (rdPrefix (fun i => decide (i = 1)) 3) wrOne).Sound (fun i => decide (i = 1) = true) := (rdPrefix_sound [1, 2, 3] _ wrOne).1
example : (CpEnv.mk [1, 2, 3] (rdWhole (fun i => decide (i = 1)) 3) wrAll).Writes := by
  intro p n k h
  simp only [wrAll, Option.some.injEq] at h
  omega

end Dar
