import Verif.Model.Mask
import Verif.Props.Paths
/- Lemmas on the sorted list of mask_list. -/
namespace Dar

/-- rank of a character in the modified lexicographic order -/
def mlRank (c : UInt8) : Int := if c = 47 then -1000 else mlSigned c

theorem mlSigned_inj {a b : UInt8} (h : mlSigned a = mlSigned b) : a = b := by
  unfold mlSigned at h
  have ha := a.toNat_lt
  have hb := b.toNat_lt
  apply UInt8.toNat_inj.mp
  split at h <;> split at h <;> omega

theorem mlSigned_gt (a : UInt8) : -1000 < mlSigned a := by
  unfold mlSigned; split <;> omega

theorem mlRank_inj {a b : UInt8} (h : mlRank a = mlRank b) : a = b := by
  unfold mlRank at h
  have ha := mlSigned_gt a
  have hb := mlSigned_gt b
  split at h <;> split at h
  · rename_i h1 h2; rw [h1, h2]
  · omega
  · omega
  · exact mlSigned_inj h

theorem mlLe_cons (a b : UInt8) (as bs : Bytes) :
    mlLe (a :: as) (b :: bs) = true ↔ mlRank a < mlRank b ∨ (a = b ∧ mlLe as bs = true) := by
  have ha := mlSigned_gt a
  have hb := mlSigned_gt b
  rw [mlLe]
  unfold mlRank
  by_cases h1 : a = 47
  · by_cases h2 : b = 47
    · simp [h1, h2]
    · simp only [h1, h2, if_true, if_false, ne_eq, not_false_eq_true, true_iff]; left; omega
  · by_cases h2 : b = 47
    · simp only [h1, h2, if_true, if_false]; simp; omega
    · simp only [h1, h2, if_false]
      by_cases h3 : a = b
      · subst h3; simp
      · simp [h3]

theorem mlLe_refl (a : Bytes) : mlLe a a = true := by
  induction a with
  | nil => rfl
  | cons c a ih => rw [mlLe_cons]; exact Or.inr ⟨rfl, ih⟩

theorem mlLe_trans : ∀ (a b c : Bytes), mlLe a b = true → mlLe b c = true → mlLe a c = true
  | [], _, _, _, _ => by simp [mlLe]
  | _ :: _, [], _, h, _ => by simp [mlLe] at h
  | _ :: _, _ :: _, [], _, h => by simp [mlLe] at h
  | x :: a, y :: b, z :: c, h1, h2 => by
    rw [mlLe_cons] at *
    rcases h1 with h1 | ⟨rfl, h1⟩ <;> rcases h2 with h2 | ⟨rfl, h2⟩
    · left; omega
    · left; exact h1
    · left; exact h2
    · right; exact ⟨rfl, mlLe_trans a b c h1 h2⟩

theorem mlLe_total : ∀ (a b : Bytes), mlLe a b = true ∨ mlLe b a = true
  | [], _ => by simp [mlLe]
  | _ :: _, [] => by simp [mlLe]
  | x :: a, y :: b => by
    rw [mlLe_cons, mlLe_cons]
    rcases lt_trichotomy (mlRank x) (mlRank y) with h | h | h
    · exact Or.inl (Or.inl h)
    · have := mlRank_inj h
      subst this
      rcases mlLe_total a b with h | h
      · exact Or.inl (Or.inr ⟨rfl, h⟩)
      · exact Or.inr (Or.inr ⟨rfl, h⟩)
    · exact Or.inr (Or.inl h)

theorem mlLe_antisymm : ∀ (a b : Bytes), mlLe a b = true → mlLe b a = true → a = b
  | [], [], _, _ => rfl
  | [], _ :: _, _, h => by simp [mlLe] at h
  | _ :: _, [], h, _ => by simp [mlLe] at h
  | x :: a, y :: b, h1, h2 => by
    rw [mlLe_cons] at *
    rcases h1 with h1 | ⟨rfl, h1⟩ <;> rcases h2 with h2 | ⟨h2, h3⟩
    · omega
    · subst h2; omega
    · omega
    · rw [mlLe_antisymm a b h1 h3]

theorem mlLe_append (a r : Bytes) : mlLe a (a ++ r) = true := by
  induction a with
  | nil => simp [mlLe]
  | cons c a ih => rw [List.cons_append, mlLe_cons]; exact Or.inr ⟨rfl, ih⟩

/-- What lies between a text and the same text followed by '/' and something, in this order, continues it with '/'. -/
theorem mlLe_between (t x r : Bytes) (h1 : mlLe t x = true) (h2 : mlLe x (t ++ 47 :: r) = true) (hne : x ≠ t) :
    ∃ r', x = t ++ 47 :: r' := by
  induction t generalizing x with
  | nil =>
    cases x with
    | nil => exact absurd rfl hne
    | cons c x =>
      rw [List.nil_append, mlLe_cons] at h2
      rcases h2 with h2 | ⟨rfl, _⟩
      · have : mlRank 47 = -1000 := by unfold mlRank; simp
        have hc := mlSigned_gt c
        unfold mlRank at h2
        split at h2 <;> simp at h2
        omega
      · exact ⟨x, rfl⟩
  | cons d t ih =>
    cases x with
    | nil => simp [mlLe] at h1
    | cons c x =>
      rw [List.cons_append, mlLe_cons] at h2
      rw [mlLe_cons] at h1
      rcases h1 with h1 | ⟨rfl, h1⟩
      · rcases h2 with h2 | ⟨rfl, h2⟩
        · omega
        · omega
      · rcases h2 with h2 | ⟨_, h2⟩
        · omega
        · obtain ⟨r', rfl⟩ := ih x h1 h2 (fun e => hne (by rw [e]))
          exact ⟨r', rfl⟩

theorem mlUnique_mem (l : List Bytes) (x : Bytes) : x ∈ mlUnique l ↔ x ∈ l := by
  fun_induction mlUnique l with
  | case1 => simp
  | case2 => simp
  | case3 b l ih => rw [ih]; simp
  | case4 a b l h ih => rw [List.mem_cons, ih]; simp

theorem mlUnique_sorted (l : List Bytes) (h : l.Pairwise (fun a b => mlLe a b = true)) :
    (mlUnique l).Pairwise (fun a b => mlLe a b = true ∧ a ≠ b) := by
  fun_induction mlUnique l with
  | case1 => simp
  | case2 => simp
  | case3 b l ih => exact ih (List.pairwise_cons.mp h).2
  | case4 a b l hab ih =>
    obtain ⟨h1, h2⟩ := List.pairwise_cons.mp h
    refine List.pairwise_cons.mpr ⟨?_, ih h2⟩
    intro x hx
    rw [mlUnique_mem] at hx
    refine ⟨h1 x hx, ?_⟩
    rintro rfl
    rcases List.mem_cons.mp hx with hx | hx
    · exact hab hx
    · have h3 := (List.pairwise_cons.mp h2).1 a hx
      have h4 := h1 b (by simp)
      exact hab (mlLe_antisymm _ _ h4 h3)

theorem mlBuild_mem (l : List Bytes) (x : Bytes) : x ∈ mlBuild l ↔ x ∈ l := by
  unfold mlBuild; rw [mlUnique_mem]; simp

theorem mlBuild_sorted (l : List Bytes) : (mlBuild l).Pairwise (fun a b => mlLe a b = true ∧ a ≠ b) := by
  unfold mlBuild
  apply mlUnique_sorted
  apply List.pairwise_mergeSort
  · intro a b c; exact mlLe_trans a b c
  · intro a b; simpa using mlLe_total a b

theorem mlSearch_inv (c : List Bytes) (t : Bytes) (lo hi : Nat) (hlh : lo ≤ hi) (hlen : hi < c.length)
    (h1 : lo = 0 ∨ mlLe (c.getD lo []) t = true) (h2 : hi = c.length - 1 ∨ mlLe (c.getD hi []) t = false) :
    ∃ lo' hi', mlSearch c t lo hi = (lo', hi') ∧ lo' ≤ hi' ∧ hi' ≤ lo' + 1 ∧ hi' < c.length ∧
      (lo' = 0 ∨ mlLe (c.getD lo' []) t = true) ∧ (hi' = c.length - 1 ∨ mlLe (c.getD hi' []) t = false) := by
  fun_induction mlSearch c t lo hi with
  | case1 lo hi h hc ih => exact ih (by omega) hlen (Or.inr hc) h2
  | case2 lo hi h hc ih => exact ih (by omega) (by omega) h1 (Or.inr (by simpa using hc))
  | case3 lo hi h => exact ⟨lo, hi, rfl, hlh, by omega, hlen, h1, h2⟩

/-- The position the search ends at: the elements of the list that are not the text are all smaller, or the element at
this position is the first greater one. -/
theorem mlSearch_spec (c : List Bytes) (hs : c.Pairwise (fun a b => mlLe a b = true ∧ a ≠ b)) (hc : c ≠ []) (t : Bytes) :
    ∃ lo hi, (lo < c.length ∧ hi < c.length) ∧
      (let r := mlSearch c t 0 (c.length - 1)
       (r.1 = lo ∧ (if r.1 = 0 ∧ mlLe t (c.getD r.1 []) = true then r.1 else r.2) = hi)) ∧
      (∀ i (h : i < c.length), i < hi → i ≠ lo → c[i] ≠ t ∧ mlLe (c[i]) t = true) ∧
      (∀ i (h : i < c.length), hi < i → c[i] ≠ t ∧ mlLe t (c[i]) = true) ∧
      (lo ≠ hi → lo < hi ∧ mlLe (c.getD lo []) t = true) ∧
      (mlLe (c.getD hi []) t = true → hi = c.length - 1 ∨ c.getD hi [] = t) := by
  have hpos : 0 < c.length := List.length_pos_iff.mpr hc
  obtain ⟨lo, hi, e, a1, a2, a3, a4, a5⟩ := mlSearch_inv c t 0 (c.length - 1) (by omega) (by omega) (Or.inl rfl) (Or.inl rfl)
  have hlt : ∀ i j (hi : i < c.length) (hj : j < c.length), i < j → mlLe c[i] c[j] = true ∧ c[i] ≠ c[j] :=
    fun i j hi hj hij => List.pairwise_iff_getElem.mp hs i j hi hj hij
  have gd : ∀ i (h : i < c.length), c.getD i [] = c[i] := fun i h => by simp [List.getD, h]
  refine ⟨lo, if lo = 0 ∧ mlLe t (c.getD lo []) = true then lo else hi, ⟨by omega, by split <;> omega⟩, ⟨by rw [e], by rw [e]⟩, ?_⟩
  by_cases hx : lo = 0 ∧ mlLe t (c.getD lo []) = true
  · rw [if_pos hx]
    obtain ⟨rfl, hx⟩ := hx
    rw [gd 0 hpos] at *
    refine ⟨by intro i _ h; omega, ?_, by intro h; exact absurd rfl h, fun h => Or.inr (mlLe_antisymm _ _ h hx)⟩
    intro i hi' h
    obtain ⟨b1, b2⟩ := hlt 0 i hpos hi' h
    refine ⟨?_, mlLe_trans _ _ _ hx b1⟩
    rintro rfl
    exact b2 (mlLe_antisymm _ _ b1 hx)
  · rw [if_neg hx]
    have hlo : mlLe (c.getD lo []) t = true := by
      rcases a4 with rfl | h
      · rcases mlLe_total t (c.getD 0 []) with h | h
        · exact absurd ⟨rfl, h⟩ hx
        · exact h
      · exact h
    rw [gd lo (by omega)] at *
    rw [gd hi a3] at *
    refine ⟨?_, ?_, ?_, ?_⟩
    · intro i hi' h hne
      obtain ⟨b1, b2⟩ := hlt i lo hi' (by omega) (by omega)
      refine ⟨?_, mlLe_trans _ _ _ b1 hlo⟩
      rintro rfl
      exact b2 (mlLe_antisymm _ _ b1 hlo)
    · intro i hi' h
      rcases a5 with h5 | h5
      · omega
      · obtain ⟨b1, b2⟩ := hlt hi i a3 hi' h
        have : mlLe t c[hi] = true := by
          rcases mlLe_total t c[hi] with h | h
          · exact h
          · rw [h] at h5; cases h5
        refine ⟨?_, mlLe_trans _ _ _ this b1⟩
        rintro rfl
        rw [b1] at h5; cases h5
    · intro hne; exact ⟨by omega, hlo⟩
    · intro h
      rcases a5 with h5 | h5
      · exact Or.inl h5
      · rw [h] at h5; cases h5

theorem mlCovered_found (c : List Bytes) (hs : c.Pairwise (fun a b => mlLe a b = true ∧ a ≠ b)) (incl : Bool) (t : Bytes)
    (ht : t ∈ c) : mlCovered c incl t = .ok true := by
  have hc : c ≠ [] := by rintro rfl; simp at ht
  obtain ⟨lo, hi, ⟨hl, hh⟩, ⟨e1, e2⟩, f1, f2, f3, f4⟩ := mlSearch_spec c hs hc t
  have gd : ∀ i (h : i < c.length), c.getD i [] = c[i] := fun i h => by simp [List.getD, h]
  unfold mlCovered
  rw [if_neg hc]
  generalize mlSearch c t 0 (c.length - 1) = r at e1 e2
  obtain ⟨r1, r2⟩ := r
  simp only at e1 e2 ⊢
  rw [e2, e1, gd lo hl, gd hi hh]
  rw [if_pos]
  obtain ⟨i, hi', rfl⟩ := List.mem_iff_getElem.mp ht
  by_cases h1 : i = hi
  · subst h1; exact Or.inl rfl
  · by_cases h2 : i = lo
    · subst h2; exact Or.inr rfl
    · by_cases h3 : i < hi
      · exact absurd rfl (f1 i hi' h3 h2).1
      · exact absurd rfl (f2 i hi' (by omega)).1

theorem mlCovered_absent (c : List Bytes) (incl : Bool) (t : Bytes) (hc : c ≠ [])
    (hs : c.Pairwise (fun a b => mlLe a b = true ∧ a ≠ b)) (ht : t ∉ c) :
    ∃ x ∈ c, ((∀ y ∈ c, mlLe y t = true) ∨ (mlLe t x = true ∧ ∀ y ∈ c, mlLe t y = true → mlLe x y = true)) ∧
    mlCovered c incl t = if incl then (do
        let p ← pathOf x false
        let q ← pathOf t false
        .ok (p.isSubdirOf id q)) else .ok false := by
  obtain ⟨lo, hi, ⟨hl, hh⟩, ⟨e1, e2⟩, f1, f2, f3, f4⟩ := mlSearch_spec c hs hc t
  have hlt : ∀ i j (hi : i < c.length) (hj : j < c.length), i < j → mlLe c[i] c[j] = true ∧ c[i] ≠ c[j] :=
    fun i j hi hj hij => List.pairwise_iff_getElem.mp hs i j hi hj hij
  have gd : ∀ i (h : i < c.length), c.getD i [] = c[i] := fun i h => by simp [List.getD, h]
  refine ⟨c[hi], by simp, ?_, ?_⟩
  · by_cases h : mlLe c[hi] t = true
    · left
      intro y hy
      obtain ⟨i, hi', rfl⟩ := List.mem_iff_getElem.mp hy
      rcases f4 (by rw [gd hi hh]; exact h) with h5 | h5
      · by_cases hih : i = hi
        · subst hih; exact h
        · exact mlLe_trans _ _ _ (hlt i hi hi' hh (by omega)).1 h
      · rw [gd hi hh] at h5; subst h5; exact absurd (by simp) ht
    · right
      have h' : mlLe t c[hi] = true := by
        rcases mlLe_total t c[hi] with h1 | h1
        · exact h1
        · exact absurd h1 h
      refine ⟨h', ?_⟩
      intro y hy hty
      obtain ⟨i, hi', rfl⟩ := List.mem_iff_getElem.mp hy
      by_cases hih : i < hi
      · have hle : mlLe c[i] t = true := by
          by_cases hil : i = lo
          · subst hil
            have := (f3 (by omega)).2
            rwa [gd i hi'] at this
          · exact (f1 i hi' hih hil).2
        have := mlLe_antisymm _ _ hle hty
        subst this; exact absurd (by simp) ht
      · by_cases hie : i = hi
        · subst hie; exact mlLe_refl _
        · exact (hlt hi i hh hi' (by omega)).1
  · unfold mlCovered
    rw [if_neg hc]
    generalize mlSearch c t 0 (c.length - 1) = r at e1 e2
    obtain ⟨r1, r2⟩ := r
    simp only at e1 e2 ⊢
    rw [e2, e1, gd lo hl, gd hi hh]
    rw [if_neg]
    rintro (h | h) <;> (subst h; exact absurd (by simp) ht)

end Dar
