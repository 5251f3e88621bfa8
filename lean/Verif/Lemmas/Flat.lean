import Verif.Model.Flat
import Mathlib.Tactic.Ring
/- Lemmas on the content of files after writes. -/
namespace Dar

theorem patch_nil (d : Bytes) (off : Nat) : patch d off [] = d := by simp [patch]

theorem patch_get (d : Bytes) (off : Nat) (b : Bytes) (hb : b ≠ []) (i : Nat) :
    (patch d off b)[i]? = if i < off then (if i < d.length then d[i]? else some 0) else if i < off + b.length then b[i - off]? else d[i]? := by
  unfold patch
  rw [if_neg hb]
  have hl : ((d ++ List.replicate (off - d.length) 0).take off).length = off := by simp; omega
  rw [List.append_assoc]
  by_cases h1 : i < off
  · rw [if_pos h1, List.getElem?_append_left (by omega), List.getElem?_take_of_lt h1]
    by_cases h2 : i < d.length
    · rw [if_pos h2, List.getElem?_append_left h2]
    · rw [if_neg h2, List.getElem?_append_right (by omega), List.getElem?_replicate, if_pos (by omega)]
  · rw [if_neg h1, List.getElem?_append_right (by omega), hl]
    by_cases h2 : i < off + b.length
    · rw [if_pos h2, List.getElem?_append_left (by omega)]
    · rw [if_neg h2, List.getElem?_append_right (by omega), List.getElem?_drop]
      congr 1; omega

theorem patch_length (d : Bytes) (off : Nat) (b : Bytes) (hb : b ≠ []) : (patch d off b).length = max d.length (off + b.length) := by
  unfold patch
  rw [if_neg hb]
  simp
  omega

theorem get_none_of_len (d : Bytes) (i : Nat) (h : ¬ i < d.length) : d[i]? = none := List.getElem?_eq_none (by omega)

/-- Writing two pieces one after the other is writing them together. -/
theorem patch_append (d : Bytes) (off : Nat) (a b : Bytes) : patch (patch d off a) (off + a.length) b = patch d off (a ++ b) := by
  by_cases ha : a = []
  · subst ha; simp [patch_nil]
  · by_cases hb : b = []
    · subst hb; simp [patch_nil]
    · apply List.ext_getElem?
      intro i
      rw [patch_get _ _ b hb, patch_get _ _ (a ++ b) (by simp [ha]), patch_get _ _ a ha, patch_length _ _ _ ha]
      simp only [List.length_append, List.getElem?_append]
      split_ifs <;> first | rfl | omega | (congr 1; omega) | skip
      all_goals (rw [get_none_of_len _ _ (by omega)] )

/-- Writing what is already there changes nothing. -/
theorem patch_same (d : Bytes) (off : Nat) (b : Bytes) (h : ∀ i, i < b.length → d[off + i]? = b[i]?) : patch d off b = d := by
  by_cases hb : b = []
  · subst hb; simp [patch_nil]
  · have hlen : 0 < b.length := List.length_pos_iff.mpr hb
    have hoff : off + (b.length - 1) < d.length := by
      have := h (b.length - 1) (by omega)
      by_contra hc
      rw [get_none_of_len _ _ hc, List.getElem?_eq_getElem (by omega)] at this
      cases this
    apply List.ext_getElem?
    intro i
    rw [patch_get _ _ b hb]
    split_ifs with h1 h2 h3
    · rfl
    · omega
    · rw [← h (i - off) (by omega)]; congr 1; omega
    · rfl

end Dar
