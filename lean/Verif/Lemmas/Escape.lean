import Verif.Model.Escape
import Verif.Spec.Marks
import Mathlib.Tactic.Ring
import Mathlib.Data.List.Induction
/-
Lemmas on the escape layer: search of the pattern, writing.
-/
namespace Dar

variable [EscByte]

/-- `s` and the pattern are comparable for the prefix order. -/
def Compat (s : Bytes) : Prop := s <+: escPattern ∨ escPattern <+: s

instance (s : Bytes) : Decidable (Compat s) := inferInstanceAs (Decidable (_ ∨ _))

theorem compat_nil : Compat [] := Or.inl List.nil_prefix

/-- First position from which the rest is comparable with the pattern. -/
def firstCompat : Bytes → Nat
  | [] => 0
  | b :: t => if Compat (b :: t) then 0 else firstCompat t + 1

theorem firstCompat_le (a : Bytes) : firstCompat a ≤ a.length := by
  induction a with
  | nil => simp [firstCompat]
  | cons b t ih => simp only [firstCompat]; split <;> simp; omega

theorem firstCompat_compat (a : Bytes) : Compat (a.drop (firstCompat a)) := by
  induction a with
  | nil => exact compat_nil
  | cons b t ih =>
      simp only [firstCompat]; split
      · simpa
      · simpa using ih

/-- Comparable with the pattern means equal on the common length. -/
theorem compat_iff (s : Bytes) :
    Compat s ↔ ∀ i, i < s.length → i < 5 → s.getD i 0 = escPattern.getD i 0 := by
  constructor
  · rintro (⟨t, h⟩ | ⟨t, h⟩) i h1 h2
    · rw [← h]; simp [List.getD_eq_getElem?_getD, List.getElem?_append_left h1]
    · rw [← h]
      have : i < escPattern.length := by simpa [escPattern] using h2
      simp [List.getD_eq_getElem?_getD, List.getElem?_append_left this]
  · intro h
    by_cases hl : s.length ≤ 5
    · left
      rw [List.prefix_iff_eq_take]
      apply List.ext_getElem
      · simp [escPattern]; omega
      · intro i h1 h2
        have h3 := h i h1 (by omega)
        have h4 : i < escPattern.length := by simp [escPattern]; omega
        simp only [List.getElem_take]
        simpa [List.getD_eq_getElem?_getD, h1, h4] using h3
    · right
      rw [List.prefix_iff_eq_take]
      apply List.ext_getElem
      · simp [escPattern]; omega
      · intro i h1 h2
        have h4 : i < 5 := by simpa [escPattern] using h1
        have h3 := h i (by omega) h4
        have h5 : i < s.length := by omega
        simp only [List.getElem_take]
        have := h3.symm
        simpa [List.getD_eq_getElem?_getD, h1, h5] using this

theorem firstCompat_drop (a : Bytes) (s : Nat) (hs : s ≤ a.length) (h : s ≤ firstCompat a) :
    firstCompat a = s + firstCompat (a.drop s) := by
  induction s generalizing a with
  | zero => simp
  | succ s ih =>
      cases a with
      | nil => simp at hs
      | cons b t =>
          simp only [firstCompat] at h ⊢
          split at h
          · omega
          · rename_i hn
            rw [if_neg hn]
            have := ih t (by simpa using hs) (by omega)
            simp only [List.drop_succ_cons]; omega

/-- The search loop: `start = curs - amorce` is the candidate position. -/
theorem trouveLoop_spec (a : Bytes) (f start am ret : Nat)
    (hf : 6 * (a.length - start) + 5 - am < f) (ham : am ≤ 5) (hle : start + am ≤ a.length)
    (hst : start ≤ firstCompat a)
    (hm : ∀ i, i < am → a.getD (start + i) 0 = escPattern.getD i 0)
    (hret : 0 < am → ret = start) :
    trouveEnd a.length (trouveLoop a f (start + am) am ret) = firstCompat a := by
  induction f generalizing start am ret with
  | zero => omega
  | succ f ih =>
      simp only [trouveLoop]
      have hgd : ∀ i, (a.drop start).getD i 0 = a.getD (start + i) 0 := by
        intro i; simp [List.getD_eq_getElem?_getD]
      have hdr : ∀ (h : start < a.length), a.drop start = a[start] :: a.drop (start+1) := fun h =>
        List.drop_eq_getElem_cons h
      by_cases hc : start + am < a.length ∧ am < 5
      · rw [if_pos hc]
        by_cases he : a.getD (start + am) 0 = escPattern.getD am 0
        · rw [if_pos he]
          have := ih start (am + 1) (if am = 0 then start + am else ret) (by omega) (by omega) (by omega)
            hst (by
              intro i hi
              by_cases hi' : i = am
              · subst hi'; exact he
              · exact hm i (by omega))
            (by intro _; split
                · omega
                · exact hret (by omega))
          simpa [Nat.add_assoc] using this
        · rw [if_neg he]
          -- the candidate is refuted
          have hncomp : ¬ Compat (a.drop start) := by
            rw [compat_iff]
            intro h
            have := h am (by simp; omega) hc.2
            rw [hgd] at this; exact he this
          have hst' : start + 1 ≤ firstCompat a := by
            rcases Nat.lt_or_ge start (firstCompat a) with h | h
            · exact h
            · exfalso
              have : start = firstCompat a := by omega
              rw [this] at hncomp
              exact hncomp (firstCompat_compat a)
          have key := ih (start + 1) 0 ret (by omega) (by omega) (by omega) hst' (by intro i hi; omega)
            (by intro h; omega)
          by_cases ha : am > 0
          · rw [if_pos ha]
            have : start + am - am + 1 = start + 1 + 0 := by omega
            rw [this]; exact key
          · rw [if_neg ha]
            have : start + am + 1 = start + 1 + 0 := by omega
            rw [this]; exact key
      · rw [if_neg hc]
        simp only [trouveEnd]
        by_cases ha : am = 0
        · subst ha
          have h1 : start = a.length := by omega
          rw [if_pos ⟨by omega, rfl⟩]
          have := firstCompat_le a
          omega
        · rw [if_neg (by omega)]
          have hr := hret (by omega)
          rw [hr]
          have hcomp : Compat (a.drop start) := by
            rw [compat_iff]
            intro i h1 h2
            rw [hgd]
            apply hm
            simp at h1; omega
          have := firstCompat_drop a start (by omega) hst
          have h0 : firstCompat (a.drop start) = 0 := by
            rw [hdr (by omega)] at hcomp ⊢
            rw [firstCompat, if_pos hcomp]
          omega

theorem trouveAmorce_eq (a : Bytes) : trouveAmorce a = firstCompat a := by
  have := trouveLoop_spec a (6 * a.length + 6) 0 0 0 (by omega) (by omega) (by omega) (by omega)
    (by intro i hi; omega) (by intro h; omega)
  simpa [trouveAmorce] using this

/-! ### escData -/

theorem escData_nil : escData [] = [] := by simp [escData]

theorem escData_pattern (d : Bytes) : escData (escPattern ++ d) = escSeq .notASequence ++ escData d := by
  conv => lhs; rw [show escPattern ++ d = EscByte.b :: 0xFD :: 0xEA :: 0x77 :: 0x21 :: d from rfl]
  rw [escData, if_pos]
  · simp
  · exact ⟨d, rfl⟩

theorem escData_cons (b : UInt8) (d : Bytes) (h : ¬ escPattern <+: b :: d) :
    escData (b :: d) = b :: escData d := by
  rw [escData, if_neg h]

theorem not_prefix_of_not_compat (s z : Bytes) (h : ¬ Compat s) : ¬ escPattern <+: s ++ z := by
  intro hp
  apply h
  rcases List.prefix_or_prefix_of_prefix hp (List.prefix_append s z) with h1 | h1
  · exact Or.inr h1
  · exact Or.inl h1

/-- Data before the first comparable position is written as is, whatever follows. -/
theorem escData_firstCompat (a z : Bytes) :
    escData (a ++ z) = a.take (firstCompat a) ++ escData (a.drop (firstCompat a) ++ z) := by
  induction a with
  | nil => simp [firstCompat]
  | cons b t ih =>
      simp only [firstCompat]; split
      · simp
      · rename_i h
        have := not_prefix_of_not_compat _ z h
        rw [List.cons_append] at this ⊢
        rw [escData_cons _ _ this, ih]; simp

theorem escData_short (s : Bytes) (h : s.length < 5) : escData s = s := by
  induction s with
  | nil => simp [escData]
  | cons b t ih =>
      rw [escData_cons, ih (by simp at h; omega)]
      intro hp
      have := hp.length_le
      simp [escPattern] at this h; omega

theorem compat_full {s : Bytes} (h : Compat s) (hl : 5 ≤ s.length) : ∃ t, s = escPattern ++ t := by
  rcases h with h | ⟨t, h⟩
  · have := h.length_le
    have : s = escPattern := h.eq_of_length (by simp [escPattern] at this ⊢; omega)
    exact ⟨[], by simpa using this⟩
  · exact ⟨t, h.symm⟩

/-- The writing loop produces the on-disk form, up to a short pending part. -/
theorem escWriteLoop_spec (a : Bytes) :
    ∃ o p, escWriteLoop a = .ok (o, p) ∧ p.length < 5 ∧
      ∀ z, escData (a ++ z) = o ++ escData (p ++ z) := by
  induction h : a.length using Nat.strong_induction_on generalizing a with
  | _ n ih =>
      rw [escWriteLoop]
      split
      · rename_i h0; subst h0; exact ⟨[], [], rfl, by simp, by simp⟩
      · rename_i h0
        simp only [trouveAmorce_eq]
        have hle := firstCompat_le a
        have hcomp := firstCompat_compat a
        have hE := escData_firstCompat a
        generalize firstCompat a = k at *
        split
        · rename_i hk
          refine ⟨a, [], rfl, by simp, ?_⟩
          intro z
          rw [hE z, hk]; simp
        · split
          · rename_i hk
            obtain ⟨t, ht⟩ := compat_full hcomp (by simp; omega)
            have ht5 : a.drop (k + 5) = t := by
              rw [← List.drop_drop, ht]; simp [escPattern]
            have htl : t.length < n := by rw [← ht5]; simp; omega
            obtain ⟨o, p, h1, h2, h3⟩ := ih _ htl t rfl
            rw [ht5, h1]
            refine ⟨_, _, rfl, h2, ?_⟩
            intro z
            rw [hE z, ht, List.append_assoc, escData_pattern, h3 z]
            simp
          · split
            · rename_i h1 h2; simp at h2; omega
            · rename_i h1 h2 h3
              refine ⟨_, _, rfl, by omega, ?_⟩
              intro z; exact hE z

/-- Completing pending bytes. -/
theorem escWritePending_spec (pend a : Bytes) (hp : pend.length < 5) (hne : pend ≠ []) :
    ∃ o p rest, escWritePending pend a = .ok (o, p, rest) ∧ p.length < 5 ∧ (rest = [] ∨ p = []) ∧
      ∀ z, escData (pend ++ a ++ z) = o ++ escData (p ++ rest ++ z) := by
  rw [escWritePending, if_neg (by omega)]
  simp only [trouveAmorce_eq]
  have hpl : 0 < pend.length := List.length_pos_iff.mpr hne
  generalize hdelta : min (12 - pend.length) a.length = delta
  have hd1 : delta ≤ a.length := by omega
  have hwl : (pend ++ a.take delta).length = pend.length + delta := by simp; omega
  have hle := firstCompat_le (pend ++ a.take delta)
  have hcomp := firstCompat_compat (pend ++ a.take delta)
  have hE := escData_firstCompat (pend ++ a.take delta)
  have hsplit : ∀ z, pend ++ a ++ z = (pend ++ a.take delta) ++ (a.drop delta ++ z) := by
    intro z
    rw [List.append_assoc, List.append_assoc, ← List.append_assoc (a.take delta), List.take_append_drop]
  generalize firstCompat (pend ++ a.take delta) = k at *
  split
  · rename_i hk
    refine ⟨_, _, _, rfl, by simp, by simp, ?_⟩
    intro z
    rw [hsplit, hE, hk, List.take_length, List.drop_length]; simp
  · split
    · rename_i hk
      obtain ⟨t, ht⟩ := compat_full hcomp (by simp; omega)
      refine ⟨_, _, _, rfl, by simp, by simp, ?_⟩
      intro z
      rw [hsplit, hE, ht]
      rw [List.append_assoc, escData_pattern]
      have : a.drop (k + 5 - pend.length) = t ++ a.drop delta := by
        have h1 : (pend ++ a).drop (k+5) = t ++ a.drop delta := by
          rw [show pend ++ a = (pend ++ a.take delta) ++ a.drop delta by simp]
          rw [List.drop_append_of_le_length (by omega)]
          congr 1
          rw [← List.drop_drop, ht]; simp [escPattern]
        rw [← h1, List.drop_append]
        simp
        omega
      rw [this]; simp
    · split
      · rename_i h1 h2 h3; omega
      · split
        · rename_i h1 h2 h3 h4
          split
          · rename_i h5; omega
          · rename_i h5
            refine ⟨_, _, _, rfl, by simp, by simp, ?_⟩
            intro z
            rw [hsplit, hE]
            have : a.drop (k - pend.length) = (pend ++ a.take delta).drop k ++ a.drop delta := by
              rw [← List.drop_append_of_le_length (by omega)]
              rw [show (pend ++ a.take delta) ++ a.drop delta = pend ++ a by simp]
              rw [List.drop_append]
              simp; omega
            rw [this]; simp
        · split
          · rename_i h1 h2 h3 h4 h5; simp at h5; omega
          · split
            · rename_i h1 h2 h3 h4 h5 h6; simp at h6; omega
            · rename_i h1 h2 h3 h4 h5 h6
              refine ⟨_, _, _, rfl, ?_, by simp, ?_⟩
              · simp; omega
              · intro z; rw [hsplit, hE]; simp

theorem escWrite_spec (pend a : Bytes) (hp : pend.length < 5) :
    ∃ o p, escWrite pend a = .ok (o, p) ∧ p.length < 5 ∧
      ∀ z, escData (pend ++ a ++ z) = o ++ escData (p ++ z) := by
  rw [escWrite]
  split
  · rename_i h; subst h; exact ⟨[], pend, rfl, hp, by simp⟩
  · split
    · rename_i h1 h2; subst h2
      simpa using escWriteLoop_spec a
    · rename_i h1 h2
      obtain ⟨o, p, rest, e, hl, hor, hz⟩ := escWritePending_spec pend a hp h2
      rw [e]
      simp only
      rw [if_neg (by rintro ⟨x, y⟩; rcases hor with h | h <;> simp_all)]
      split
      · rename_i h3; subst h3; exact ⟨o, p, rfl, hl, by simpa using hz⟩
      · rename_i h3
        have hp0 : p = [] := by rcases hor with h | h <;> simp_all
        subst hp0
        obtain ⟨o', p', e', hl', hz'⟩ := escWriteLoop_spec rest
        rw [e']
        refine ⟨_, _, rfl, hl', ?_⟩
        intro z
        rw [hz z, List.append_assoc o, ← hz' z]; simp

/-- A whole run: what has been sent below plus what is pending is the on-disk form. -/
theorem escRun_spec (ops : List EscOp) (hns : EscOp.sync ∉ ops) (hr : EscOp.mark .notASequence ∉ ops)
    (out pend : Bytes) (hp : pend.length < 5) :
    ∃ o p, escRun (out, pend) ops = .ok (out ++ o, p) ∧
      o ++ p = escData (pend ++ (opsMeaning ops).1) ++ encMarks (opsMeaning ops).2 := by
  induction ops generalizing out pend with
  | nil =>
      refine ⟨[], pend, by simp [escRun], ?_⟩
      simp [opsMeaning, encMarks, escData_short _ hp]
  | cons op ops ih =>
      have hns' : EscOp.sync ∉ ops := fun h => hns (List.mem_cons_of_mem _ h)
      have hr' : EscOp.mark .notASequence ∉ ops := fun h => hr (List.mem_cons_of_mem _ h)
      cases op with
      | sync => exact absurd List.mem_cons_self hns
      | write a =>
          obtain ⟨o, p, e, hl, hz⟩ := escWrite_spec pend a hp
          obtain ⟨o', p', e', h'⟩ := ih hns' hr' (out ++ o) p hl
          refine ⟨o ++ o', p', ?_, ?_⟩
          · simp [escRun, escStep, e, e']
          · rw [List.append_assoc, h']
            simp only [opsMeaning]
            rw [← List.append_assoc pend, hz]; simp
      | mark t =>
          have ht : t ≠ .notASequence := by
            intro h; subst h; exact hr List.mem_cons_self
          obtain ⟨o', p', e', h'⟩ := ih hns' hr' (out ++ pend ++ escSeq t) [] (by simp)
          refine ⟨pend ++ escSeq t ++ o', p', ?_, ?_⟩
          · simp only [escRun, escStep, if_neg ht, e']; simp
          · simp only [opsMeaning, encMarks]
            rw [List.append_nil, escData_short _ hp]
            rw [List.append_assoc, h']; simp

theorem escProduce_spec (ops : List EscOp) (hns : EscOp.sync ∉ ops) (hr : EscOp.mark .notASequence ∉ ops) :
    escProduce ops = .ok (encStream (opsMeaning ops).1 (opsMeaning ops).2) := by
  obtain ⟨o, p, e, h⟩ := escRun_spec ops hns hr [] [] (by simp)
  rw [escProduce, e]
  simp [encStream] at h ⊢; exact h

end Dar
