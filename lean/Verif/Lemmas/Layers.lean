import Verif.Spec.Layers
import Verif.Lemmas.Escape3
/- Lemmas for Props/Layers.lean. -/
namespace Dar

section
attribute [local instance] escNormal

theorem escLoopCount_spec (a : Bytes) : ∀ o p, escWriteLoop a = .ok (o, p) → o.length + p.length = a.length + escLoopCount a := by
  induction h : a.length using Nat.strong_induction_on generalizing a with
  | _ n ih =>
    intro o p he
    rw [escWriteLoop] at he
    rw [escLoopCount]
    by_cases ha : a = []
    · rw [dif_pos ha] at he ⊢
      cases he
      subst ha
      simp at h ⊢
      omega
    · rw [dif_neg ha] at he ⊢
      dsimp only at he ⊢
      have hpos := List.length_pos_iff.mpr ha
      by_cases h1 : trouveAmorce a = a.length
      · rw [if_pos h1] at he ⊢; cases he; simp; omega
      · rw [if_neg h1] at he ⊢
        by_cases h2 : trouveAmorce a + 5 ≤ a.length
        · rw [if_pos h2] at he ⊢
          cases hr : escWriteLoop (a.drop (trouveAmorce a + 5)) with
          | error e => rw [hr] at he; cases he
          | ok r =>
            obtain ⟨o1, p1⟩ := r
            rw [hr] at he
            cases he
            have := ih (a.drop (trouveAmorce a + 5)).length (by simp; omega) _ rfl o1 p hr
            simp only [List.length_drop, List.length_append, List.length_take] at this ⊢
            have h6 : (escSeq SeqT.notASequence).length = 6 := rfl
            omega
        · rw [if_neg h2] at he ⊢
          by_cases h3 : 5 ≤ (a.drop (trouveAmorce a)).length
          · rw [if_pos h3] at he; cases he
          · rw [if_neg h3] at he
            cases he
            simp only [List.length_drop, List.length_take] at h3 ⊢
            omega

theorem escPendCount_spec (pend a o p rest : Bytes) (he : escWritePending pend a = .ok (o, p, rest)) :
    o.length + p.length + rest.length = pend.length + a.length + escPendCount pend a := by
  unfold escWritePending at he
  unfold escPendCount
  by_cases h0 : 5 ≤ pend.length
  · rw [if_pos h0] at he; cases he
  rw [if_neg h0] at he
  dsimp only at he ⊢
  have hwl : (pend ++ a.take (min (12 - pend.length) a.length)).length = pend.length + min (12 - pend.length) a.length := by
    rw [List.length_append, List.length_take]; omega
  generalize hw : pend ++ a.take (min (12 - pend.length) a.length) = wb at *
  have hk : trouveAmorce wb ≤ wb.length := by rw [trouveAmorce_eq]; exact firstCompat_le _
  generalize trouveAmorce wb = k at *
  generalize hdl : min (12 - pend.length) a.length = delta at *
  by_cases h1 : k = wb.length
  · rw [if_pos h1] at he ⊢; cases he
    simp only [List.length_drop, List.length_nil]; omega
  · rw [if_neg h1] at he ⊢
    by_cases h2 : k + 5 ≤ wb.length
    · rw [if_pos h2] at he ⊢; cases he
      have h6 : (escSeq SeqT.notASequence).length = 6 := rfl
      simp only [List.length_append, List.length_take, List.length_drop, List.length_nil]; omega
    · rw [if_neg h2] at he ⊢
      by_cases h3 : wb.length < 12 ∧ a.length - delta > 0
      · rw [if_pos h3] at he; cases he
      rw [if_neg h3] at he
      by_cases h4 : a.length - delta ≥ k + 5 - wb.length
      · rw [if_pos h4] at he
        by_cases h5 : k < pend.length
        · rw [if_pos h5] at he; cases he
        rw [if_neg h5] at he; cases he
        simp only [List.length_take, List.length_drop, List.length_nil]; omega
      · rw [if_neg h4] at he
        by_cases h5 : 5 ≤ (wb.drop k).length
        · rw [if_pos h5] at he; cases he
        rw [if_neg h5] at he
        by_cases h6 : (wb.drop k).length + (a.length - delta) > 12
        · rw [if_pos h6] at he; cases he
        rw [if_neg h6] at he; cases he
        simp only [List.length_append, List.length_take, List.length_drop, List.length_nil]; omega

/-- The count of escaped patterns is the difference between what is written and what was given. -/
theorem escCount_spec (pend a o p : Bytes) (he : escWrite pend a = .ok (o, p)) :
    o.length + p.length = pend.length + a.length + escCount pend a := by
  unfold escWrite at he
  unfold escCount
  by_cases ha : a = []
  · rw [if_pos ha] at he ⊢; cases he; subst ha; simp
  rw [if_neg ha] at he ⊢
  by_cases hp : pend = []
  · rw [if_pos hp] at he ⊢; subst hp; simpa using escLoopCount_spec a o p he
  rw [if_neg hp] at he ⊢
  cases hr : escWritePending pend a with
  | error e => rw [hr] at he; cases he
  | ok r =>
    obtain ⟨o1, p1, rest⟩ := r
    rw [hr] at he
    simp only at he ⊢
    have h1 := escPendCount_spec pend a o1 p1 rest hr
    by_cases h2 : rest ≠ [] ∧ p1 ≠ []
    · rw [if_pos h2] at he; cases he
    rw [if_neg h2] at he
    by_cases h3 : rest = []
    · rw [if_pos h3] at he ⊢; cases he; subst h3; simpa using h1
    · rw [if_neg h3] at he ⊢
      have hp1 : p1 = [] := by
        by_contra hc; exact h2 ⟨h3, hc⟩
      cases hr2 : escWriteLoop rest with
      | error e => rw [hr2] at he; cases he
      | ok r2 =>
        obtain ⟨o2, p2⟩ := r2
        rw [hr2] at he
        cases he
        have h4 := escLoopCount_spec rest o2 p hr2
        subst hp1
        simp only [List.length_append, List.length_nil] at *
        omega

/-! ### Streams of operations -/

/-- What a list of operations on the mark layer becomes. -/
def encOps (ops : List EscOp) : Bytes := encStream (opsMeaning ops).1 (opsMeaning ops).2

theorem untilMark_eq (ops : List EscOp) : (opsMeaning ops).1 = untilMark ops := by
  induction ops with
  | nil => rfl
  | cons o ops ih => cases o <;> simp [opsMeaning, untilMark, ih]

theorem encOps_mark_append (t : SeqT) (A B : List EscOp) : encOps (A ++ .mark t :: B) = encOps (A ++ [.mark t]) ++ encOps B := by
  suffices h : ∀ (A : List EscOp) (d : Bytes),
      escData (d ++ (opsMeaning (A ++ .mark t :: B)).1) ++ encMarks (opsMeaning (A ++ .mark t :: B)).2 =
      escData (d ++ (opsMeaning (A ++ [.mark t])).1) ++ encMarks (opsMeaning (A ++ [.mark t])).2 ++ encOps B by
    simpa [encOps, encStream] using h A []
  intro A
  induction A with
  | nil => intro d; simp [opsMeaning, encMarks, encOps, encStream, escData_nil]
  | cons o A ih =>
    intro d
    cases o with
    | write a => simpa [opsMeaning] using ih (d ++ a)
    | mark t' => simpa [opsMeaning, encMarks] using ih []
    | sync => simpa [opsMeaning] using ih d

theorem escRun_app (A B : List EscOp) (st : Bytes × Bytes) : escRun st (A ++ B) = (match escRun st A with
    | .ok st' => escRun st' B
    | .error e => .error e) := by
  induction A generalizing st with
  | nil => rfl
  | cons o A ih =>
    simp only [List.cons_append, escRun]
    cases escStep st o with
    | error e => rfl
    | ok st' => simp only [ih]

theorem escData_clean (d1 d2 : Bytes) (h : NoPatternIn d1 d2) : escData (d1 ++ d2) = d1 ++ escData d2 := by
  induction d1 with
  | nil => rfl
  | cons b d1 ih =>
    have h0 := h 0 (by simp)
    rw [List.drop_zero, List.cons_append] at h0
    rw [List.cons_append, escData_cons _ _ h0, ih]
    · rfl
    · intro k hk
      have := h (k + 1) (by simp; omega)
      simpa using this

/-- Data in which the pattern does not occur can be added after the encoding. -/
theorem escData_append_clean (d t : Bytes) (h : ∀ k, escPattern <+: (d ++ t).drop k → k + 5 ≤ d.length) : escData (d ++ t) = escData d ++ t := by
  induction hn : d.length using Nat.strong_induction_on generalizing d with
  | _ n ih =>
    cases d with
    | nil =>
      have : ∀ t : Bytes, (∀ k, ¬ escPattern <+: t.drop k) → escData t = t := by
        intro t
        induction t with
        | nil => intro _; exact escData_nil
        | cons b t iht =>
          intro hh
          rw [escData_cons b t (by simpa using hh 0), iht]
          intro k hk
          exact hh (k + 1) (by simpa using hk)
      rw [List.nil_append, escData_nil, List.nil_append]
      apply this
      intro k hk
      have := h k (by simpa using hk)
      simp at this
    | cons b d =>
      by_cases hp : escPattern <+: (b :: d) ++ t
      · have h5 := h 0 (by simpa using hp)
        obtain ⟨u, hu⟩ := hp
        have hpre : escPattern <+: b :: d := by
          apply List.prefix_of_prefix_length_le (⟨u, hu⟩ : escPattern <+: (b :: d) ++ t) (List.prefix_append _ _)
          simp only [escPattern, List.length_cons, List.length_nil] at h5 ⊢; omega
        obtain ⟨v, hv⟩ := hpre
        rw [← hv, List.append_assoc, escData_pattern, escData_pattern, List.append_assoc]
        congr 1
        apply ih v.length (by rw [← hn, ← hv, List.length_append]; simp [escPattern]) v _ rfl
        intro k hk
        have := h (5 + k) (by rw [← hv, List.append_assoc, ← List.drop_drop]; simpa [escPattern] using hk)
        rw [← hv, List.length_append] at this
        simp only [escPattern, List.length_cons, List.length_nil] at this
        omega
      · rw [List.cons_append] at hp ⊢
        rw [escData_cons _ _ hp, escData_cons b d (fun hh => hp (hh.trans (List.prefix_append _ _)))]
        rw [ih d.length (by rw [← hn]; simp) d _ rfl]
        · rfl
        · intro k hk
          have := h (k + 1) (by simpa using hk)
          simp at this; omega

theorem sinceMark_mark (A B : List EscOp) (t : SeqT) (acc : Bytes) : sinceMark acc (A ++ .mark t :: B) = sinceMark [] B := by
  induction A generalizing acc with
  | nil => rfl
  | cons o A ih => cases o <;> simp only [List.cons_append, sinceMark, ih]

end
end Dar
