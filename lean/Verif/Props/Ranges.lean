import Verif.Model.Range
import Verif.Spec.Ranges
import Verif.Props.Decimal
/- Property theorems C40: ranges. -/
namespace Dar

/-- Membership in a list of intervals. -/
def inSegs (l : List Seg) (x : Nat) : Prop := ∃ s ∈ l, s.low ≤ x ∧ x ≤ s.high

/-- Intervals sorted and neither overlapping nor adjacent. -/
def SegsSep (l : List Seg) : Prop := l.Pairwise fun a b => a.high + 1 < b.low

/-- `range(low, high)` with low not above high. -/
def SegsOk (l : List Seg) : Prop := ∀ s ∈ l, s.low ≤ s.high

theorem inSegs_cons (s : Seg) (l : List Seg) (x : Nat) :
    inSegs (s :: l) x ↔ (s.low ≤ x ∧ x ≤ s.high) ∨ inSegs l x := by simp [inSegs]

theorem segMerge_spec (a b : Seg) (ha : a.low ≤ a.high) (hb : b.low ≤ b.high) (ho : a.overlaps b = true) :
    a.merge b = .ok ⟨min a.low b.low, max a.high b.high⟩ := by
  obtain ⟨al, ah⟩ := a; obtain ⟨bl, bh⟩ := b
  simp only [Seg.overlaps, Seg.lt, Seg.gt, Bool.and_eq_true, Bool.not_eq_true', decide_eq_false_iff_not] at *
  simp only [Seg.merge, Seg.le, Seg.ge, Seg.contains, Bool.and_eq_true, decide_eq_true_eq]
  split
  · simp only [Except.ok.injEq, Seg.mk.injEq]; omega
  · split
    · simp only [Except.ok.injEq, Seg.mk.injEq]; omega
    · split
      · simp only [Except.ok.injEq, Seg.mk.injEq]; omega
      · split
        · simp only [Except.ok.injEq, Seg.mk.injEq]; omega
        · omega

theorem segOverlaps_iff (a b : Seg) : a.overlaps b = true ↔ a.low ≤ b.high + 1 ∧ b.low ≤ a.high + 1 := by
  simp [Seg.overlaps, Seg.lt, Seg.gt]

theorem rangeAdd_spec (parts : List Seg) (r : Seg) (hp : SegsOk parts) (hr : r.low ≤ r.high) :
    ∃ l, rangeAdd parts r = .ok l ∧ SegsOk l ∧ ∀ x, inSegs l x ↔ inSegs parts x ∨ (r.low ≤ x ∧ x ≤ r.high) := by
  induction parts with
  | nil => exact ⟨[r], rfl, by simpa [SegsOk] using hr, by simp [inSegs]⟩
  | cons it rest ih =>
    have hit : it.low ≤ it.high := hp it (by simp)
    have hrest : SegsOk rest := fun s hs => hp s (by simp [hs])
    unfold rangeAdd
    by_cases h1 : it.lt r = true
    · rw [if_pos h1]
      obtain ⟨l, e, ok, m⟩ := ih hrest
      rw [e]
      refine ⟨it :: l, rfl, ?_, ?_⟩
      · intro s hs; rcases List.mem_cons.mp hs with rfl | hs
        · exact hit
        · exact ok s hs
      · intro x; rw [inSegs_cons, inSegs_cons, m]; tauto
    · rw [if_neg h1]
      by_cases h2 : r.lt it = true
      · rw [if_pos h2]
        refine ⟨_, rfl, ?_, ?_⟩
        · intro s hs; rcases List.mem_cons.mp hs with rfl | hs
          · exact hr
          · exact hp s hs
        · intro x; rw [inSegs_cons]; tauto
      · rw [if_neg h2]
        have ho : it.overlaps r = true := by
          simp only [Seg.overlaps, Seg.gt]; simp [h1, h2]
        rw [ho, segMerge_spec it r hit hr ho]
        have ho' := (segOverlaps_iff _ _).mp ho
        simp only [Bool.not_true, Bool.false_eq_true, if_false]
        cases rest with
        | nil =>
          refine ⟨_, rfl, ?_, ?_⟩
          · simp [SegsOk]; omega
          · intro x; simp only [inSegs, List.mem_singleton, exists_eq_left]; omega
        | cons next rest' =>
          have hn : next.low ≤ next.high := hrest next (by simp)
          have hr' : SegsOk rest' := fun s hs => hrest s (by simp [hs])
          simp only
          by_cases h3 : (⟨min it.low r.low, max it.high r.high⟩ : Seg).overlaps next = true
          · rw [if_pos h3, segMerge_spec _ _ (by simp only; omega) hn h3]
            have h3' := (segOverlaps_iff _ _).mp h3
            simp only at h3'
            refine ⟨_, rfl, ?_, ?_⟩
            · intro s hs; rcases List.mem_cons.mp hs with rfl | hs
              · simp only; omega
              · exact hr' s hs
            · intro x; simp only [inSegs_cons]
              constructor
              · rintro (h | h)
                · by_cases hx : inSegs rest' x
                  · tauto
                  · simp only [hx, or_false]; omega
                · tauto
              · intro h
                by_cases hx : inSegs rest' x
                · tauto
                · simp only [hx, or_false] at h ⊢; omega
          · rw [if_neg h3]
            refine ⟨_, rfl, ?_, ?_⟩
            · intro s hs; rcases List.mem_cons.mp hs with rfl | hs
              · simp only; omega
              · exact hrest s hs
            · intro x; simp only [inSegs_cons]
              constructor
              · rintro (h | h | h)
                · by_cases hx : inSegs rest' x
                  · tauto
                  · simp only [hx, or_false]; omega
                · tauto
                · tauto
              · intro h
                by_cases hx : inSegs rest' x
                · tauto
                · simp only [hx, or_false] at h ⊢; omega

/-- Adding ranges one after the other always succeeds and the result contains exactly the union of what was added. -/
theorem C40_union (parts ref : List Seg) (hp : SegsOk parts) (hr : SegsOk ref) :
    ∃ l, rangeAddAll parts ref = .ok l ∧ SegsOk l ∧ ∀ x, inSegs l x ↔ inSegs parts x ∨ inSegs ref x := by
  induction ref generalizing parts with
  | nil => exact ⟨parts, rfl, hp, by simp [inSegs]⟩
  | cons r ref ih =>
    obtain ⟨l, e, ok, m⟩ := rangeAdd_spec parts r hp (hr r (by simp))
    obtain ⟨l', e', ok', m'⟩ := ih l ok (fun s hs => hr s (by simp [hs]))
    refine ⟨l', ?_, ok', ?_⟩
    · unfold rangeAddAll at e' ⊢; rw [List.foldlM_cons, e]; exact e'
    · intro x; rw [m', m, inSegs_cons]; tauto

/-- How many of the intervals the added one overlaps or is adjacent to. -/
def touching (parts : List Seg) (r : Seg) : List Seg := parts.filter fun s => r.low ≤ s.high + 1 ∧ s.low ≤ r.high + 1

/-- The intervals stay sorted and apart from one another when the interval added touches at most two of them. -/
theorem C40_sorted_partial (parts : List Seg) (r : Seg) (hp : SegsOk parts) (hr : r.low ≤ r.high) (hs : SegsSep parts)
    (ht : (touching parts r).length ≤ 2) :
    ∃ l, rangeAdd parts r = .ok l ∧ SegsSep l := by
  induction parts with
  | nil => exact ⟨[r], rfl, by simp [SegsSep]⟩
  | cons it rest ih =>
    have hit : it.low ≤ it.high := hp it (by simp)
    have hrest : SegsOk rest := fun s hs => hp s (by simp [hs])
    have hs' := List.pairwise_cons.mp hs
    unfold rangeAdd
    by_cases h1 : it.lt r = true
    · rw [if_pos h1]
      have ht' : (touching rest r).length ≤ 2 := by
        unfold touching at ht ⊢
        rw [List.filter_cons] at ht
        split at ht
        · rw [List.length_cons] at ht; omega
        · exact ht
      obtain ⟨l, e, sep⟩ := ih hrest hs'.2 ht'
      obtain ⟨l', e', _, m⟩ := rangeAdd_spec rest r hrest hr
      rw [e] at e'; injection e' with e'; subst e'
      rw [e]
      refine ⟨it :: l, rfl, List.pairwise_cons.mpr ⟨?_, sep⟩⟩
      intro b hb
      -- the low end of b belongs to the union
      have hbok : b.low ≤ b.high := by
        obtain ⟨l'', e'', ok, _⟩ := rangeAdd_spec rest r hrest hr
        rw [e] at e''; injection e'' with e''; subst e''; exact ok b hb
      have hm := (m b.low).mp ⟨b, hb, le_refl _, hbok⟩
      rcases hm with ⟨c, hc, hc1, hc2⟩ | h
      · have := hs'.1 c hc; omega
      · simp [Seg.lt] at h1; omega
    · rw [if_neg h1]
      simp only [Seg.lt, decide_eq_true_eq] at h1
      by_cases h2 : r.lt it = true
      · rw [if_pos h2]
        simp only [Seg.lt, decide_eq_true_eq] at h2
        refine ⟨_, rfl, List.pairwise_cons.mpr ⟨?_, hs⟩⟩
        intro b hb
        rcases List.mem_cons.mp hb with rfl | hb
        · exact h2
        · have := hs'.1 b hb; omega
      · rw [if_neg h2]
        have ho : it.overlaps r = true := by
          simp only [Seg.overlaps, Seg.gt, Seg.lt]; simp; simp [Seg.lt] at h2; omega
        rw [ho, segMerge_spec it r hit hr ho]
        have ho' := (segOverlaps_iff _ _).mp ho
        simp only [Bool.not_true, Bool.false_eq_true, if_false]
        cases rest with
        | nil => exact ⟨_, rfl, by simp [SegsSep]⟩
        | cons next rest' =>
          have hn : next.low ≤ next.high := hrest next (by simp)
          have hsn := List.pairwise_cons.mp hs'.2
          have hin := hs'.1 next (by simp)
          simp only
          by_cases h3 : (⟨min it.low r.low, max it.high r.high⟩ : Seg).overlaps next = true
          · rw [if_pos h3, segMerge_spec _ _ (by simp only; omega) hn h3]
            have h3' := (segOverlaps_iff _ _).mp h3
            simp only at h3'
            refine ⟨_, rfl, List.pairwise_cons.mpr ⟨?_, hsn.2⟩⟩
            intro b hb
            have hb1 := hsn.1 b hb
            have hb2 := hs'.1 b (by simp [hb])
            have hbok := hrest b (by simp [hb])
            by_cases hbt : b.low ≤ r.high + 1
            · exfalso
              have hsub : [it, next, b].Sublist (it :: next :: rest') := by
                refine List.Sublist.cons₂ _ (List.Sublist.cons₂ _ ?_)
                simpa using hb
              have hf : ([it, next, b].filter fun s => decide (r.low ≤ s.high + 1 ∧ s.low ≤ r.high + 1)) = [it, next, b] := by
                apply List.filter_eq_self.mpr
                intro s hs
                simp at hs
                rcases hs with rfl | rfl | rfl <;> simp <;> omega
              have := (hsub.filter (fun s => decide (r.low ≤ s.high + 1 ∧ s.low ≤ r.high + 1))).length_le
              rw [hf] at this
              unfold touching at ht
              simp at this ht
              omega
            · simp only; omega
          · rw [if_neg h3]
            have h3' : ¬ _ := fun hc => h3 ((segOverlaps_iff _ _).mpr hc)
            simp only at h3'
            refine ⟨_, rfl, List.pairwise_cons.mpr ⟨?_, hs'.2⟩⟩
            intro b hb
            rcases List.mem_cons.mp hb with rfl | hb
            · simp only; omega
            · have := hsn.1 b hb; simp only; omega

/-- In particular adding single numbers (slice by slice) in any order always keeps the intervals sorted, disjoint and
not adjacent, and the result contains exactly those numbers. -/
theorem C40_numbers (xs : List Nat) :
    ∃ l, rangeAddAll [] (xs.map fun x => ⟨x, x⟩) = .ok l ∧ SegsSep l ∧ ∀ x, inSegs l x ↔ x ∈ xs := by
  have key : ∀ (xs : List Nat) (parts : List Seg), SegsOk parts → SegsSep parts →
      ∃ l, rangeAddAll parts (xs.map fun x => ⟨x, x⟩) = .ok l ∧ SegsSep l := by
    intro xs
    induction xs with
    | nil => intro parts _ h; exact ⟨parts, rfl, h⟩
    | cons x xs ih =>
      intro parts hok hsep
      have ht : (touching parts ⟨x, x⟩).length ≤ 2 := by
        by_contra hc
        have hpw : (touching parts ⟨x, x⟩).Pairwise fun a b => a.high + 1 < b.low := hsep.sublist List.filter_sublist
        have hmem : ∀ s ∈ touching parts ⟨x, x⟩, s.low ≤ s.high ∧ x ≤ s.high + 1 ∧ s.low ≤ x + 1 := by
          intro s hs
          have := List.mem_filter.mp hs
          have h2 := this.2
          simp at h2
          exact ⟨hok s this.1, h2⟩
        rcases hT : touching parts ⟨x, x⟩ with _ | ⟨a, _ | ⟨b, _ | ⟨c, t⟩⟩⟩
        · rw [hT] at hc; simp at hc
        · rw [hT] at hc; simp at hc
        · rw [hT] at hc; simp at hc
        · rw [hT] at hpw hmem
          have h1 := List.pairwise_cons.mp hpw
          have h2 := List.pairwise_cons.mp h1.2
          have p1 := h1.1 b (by simp)
          have p2 := h2.1 c (by simp)
          have a1 := hmem a (by simp)
          have b1 := hmem b (by simp)
          have c1 := hmem c (by simp)
          omega
      obtain ⟨l, e, sep⟩ := C40_sorted_partial parts ⟨x, x⟩ hok (le_refl _) hsep ht
      obtain ⟨l', e', ok, _⟩ := rangeAdd_spec parts ⟨x, x⟩ hok (le_refl _)
      rw [e] at e'; injection e' with e'; subst e'
      obtain ⟨l', e', sep'⟩ := ih l ok sep
      refine ⟨l', ?_, sep'⟩
      unfold rangeAddAll at e' ⊢; rw [List.map_cons, List.foldlM_cons, e]; exact e'
  obtain ⟨l, e, sep⟩ := key xs [] (by simp [SegsOk]) (by simp [SegsSep])
  obtain ⟨l', e', _, m⟩ := C40_union [] (xs.map fun x => ⟨x, x⟩) (by simp [SegsOk]) (by simp [SegsOk])
  rw [e] at e'; injection e' with e'; subst e'
  refine ⟨l, e, sep, ?_⟩
  intro x
  rw [m]
  simp only [inSegs, List.mem_map]
  constructor
  · rintro (⟨s, hs, _⟩ | ⟨s, ⟨y, hy, rfl⟩, h⟩)
    · simp at hs
    · have : x = y := by simp only at h; omega
      exact this ▸ hy
  · intro h; exact Or.inr ⟨⟨x, x⟩, ⟨x, h, rfl⟩, by simp⟩

/-- The full statement fails: only the next interval is merged, so that adding 1-10 to 2,4,6 leaves overlapping
intervals (the set denoted is still right). -/
theorem C40_disjoint_counterexample :
    rangeAdd [⟨2, 2⟩, ⟨4, 4⟩, ⟨6, 6⟩] ⟨1, 10⟩ = .ok [⟨1, 10⟩, ⟨6, 6⟩] ∧
    SegsSep [⟨2, 2⟩, ⟨4, 4⟩, ⟨6, 6⟩] ∧ ¬ SegsSep [⟨1, 10⟩, ⟨6, 6⟩] := by
  refine ⟨by decide, ?_, ?_⟩ <;> simp [SegsSep]

theorem cutAt_none (sep : UInt8) (w : Bytes) (h : sep ∉ w) : cutAt sep w = [w] := by
  induction w with
  | nil => rfl
  | cons c w ih =>
    simp at h
    rw [cutAt, if_neg (fun e => h.1 e.symm), ih h.2]

theorem cutAt_append (sep : UInt8) (w t : Bytes) (h : sep ∉ w) : cutAt sep (w ++ sep :: t) = w :: cutAt sep t := by
  induction w with
  | nil => simp [cutAt]
  | cons c w ih =>
    simp at h
    rw [List.cons_append, cutAt, if_neg (fun e => h.1 e.symm), ih h.2]

theorem digit_no_sep (n : Nat) : (44 : UInt8) ∉ decText n ∧ (45 : UInt8) ∉ decText n := by
  constructor <;> intro h <;> have := decText_isDigit n _ h <;> revert this <;> unfold isDigitByte <;> decide

theorem segDisplay_spec (s : Seg) (hs : s.low ≤ s.high) : ∃ w, s.display = .ok w ∧ (44 : UInt8) ∉ w ∧ w ≠ [] ∧
    ∀ x, ((∃ a, cutAt 45 w = [a] ∧ x = decVal a) ∨ (∃ a b, cutAt 45 w = [a, b] ∧ decVal a ≤ x ∧ x ≤ decVal b)) ↔
      (s.low ≤ x ∧ x ≤ s.high) := by
  unfold Seg.display
  rw [C05_print, C05_print]
  simp only
  by_cases h : s.low = s.high
  · rw [if_pos h]
    refine ⟨_, rfl, (digit_no_sep _).1, decText_ne_nil _, ?_⟩
    intro x
    rw [cutAt_none _ _ (digit_no_sep _).2]
    simp [decVal_decText]; omega
  · rw [if_neg h]
    refine ⟨_, rfl, ?_, by simp, ?_⟩
    · simp [(digit_no_sep s.low).1, (digit_no_sep s.high).1]
    · intro x
      rw [List.append_assoc, List.singleton_append, cutAt_append _ _ _ (digit_no_sep _).2, cutAt_none _ _ (digit_no_sep _).2]
      simp [decVal_decText]

/-- The text form denotes the same set. -/
theorem C40_text (l : List Seg) (h : SegsOk l) : ∃ t, rangeDisplay l = .ok t ∧ ∀ x, textDenotes t x ↔ inSegs l x := by
  have key : ∀ l, SegsOk l → l ≠ [] → ∃ t, rangeDisplay l = .ok t ∧ t ≠ [] ∧ ∀ x, (∃ item ∈ cutAt 44 t,
      (∃ a, cutAt 45 item = [a] ∧ x = decVal a) ∨
      (∃ a b, cutAt 45 item = [a, b] ∧ decVal a ≤ x ∧ x ≤ decVal b)) ↔ inSegs l x := by
    intro l
    induction l with
    | nil => intro _ h; exact absurd rfl h
    | cons s l ih =>
      intro hok _
      obtain ⟨w, hw, hc, hne, hm⟩ := segDisplay_spec s (hok s (by simp))
      cases l with
      | nil =>
        refine ⟨w, hw, hne, ?_⟩
        intro x
        rw [cutAt_none _ _ hc, inSegs_cons, ← hm]
        simp [inSegs]
      | cons s' l' =>
        obtain ⟨t, ht, htn, htm⟩ := ih (fun s hs => hok s (by simp [hs])) (by simp)
        refine ⟨w ++ [44] ++ t, ?_, by simp, ?_⟩
        · unfold rangeDisplay; rw [hw, ht]; rfl
        · intro x
          rw [List.append_assoc, List.singleton_append, cutAt_append _ _ _ hc, inSegs_cons, ← htm, ← hm]
          simp only [List.mem_cons, exists_eq_or_imp]
  cases l with
  | nil => exact ⟨[], rfl, by simp [textDenotes, inSegs]⟩
  | cons s l =>
    obtain ⟨t, h1, h2, h3⟩ := key (s :: l) h (by simp)
    refine ⟨t, h1, fun x => ?_⟩
    unfold textDenotes
    rw [h3]; simp [h2]

example : rangeAddAll [] [⟨1, 1⟩, ⟨3, 4⟩, ⟨2, 2⟩, ⟨9, 9⟩] = .ok [⟨1, 4⟩, ⟨9, 9⟩] := by decide
example : rangeDisplay [⟨1, 4⟩, ⟨9, 9⟩] = .ok [49, 45, 52, 44, 57] := by decide +kernel

end Dar
