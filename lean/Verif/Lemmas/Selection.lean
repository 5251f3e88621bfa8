import Verif.Spec.Selection
import Verif.Props.Masks
import Verif.Props.Backup
import Mathlib.Data.List.Induction
namespace Dar

/-! ### the two methods -/

/-- a way of asking a mask -/
structure MaskEval (ev : Mask → Res Bool) : Prop where
  const : ∀ b, ev (.const b) = .ok b
  not : ∀ m, ev (.not m) = (ev m).map (!·)
  and : ∀ l, l ≠ [] → (∀ m ∈ l, ∃ b, ev m = .ok b) → ∃ b, ev (.and l) = .ok b ∧ (b = true ↔ ∀ m ∈ l, ev m = .ok true)
  or : ∀ l, l ≠ [] → (∀ m ∈ l, ∃ b, ev m = .ok b) → ∃ b, ev (.or l) = .ok b ∧ (b = true ↔ ∃ m ∈ l, ev m = .ok true)
theorem eval_path (p : PathT) : MaskEval (fun m => m.coversPath p) where
  const b := by rw [Mask.coversPath]
  not m := by rw [Mask.coversPath]
  and l hne h := by
    obtain ⟨b, h1, h2⟩ := allPath_spec l p h
    refine ⟨b, ?_, h2⟩
    rw [Mask.coversPath, if_neg (by simpa using hne)]; exact h1
  or l hne h := by
    obtain ⟨b, h1, h2⟩ := anyPath_spec l p h
    refine ⟨b, ?_, h2⟩
    rw [Mask.coversPath, if_neg (by simpa using hne)]; exact h1
theorem eval_text (s : Bytes) : MaskEval (fun m => m.coversText s) where
  const b := by rw [Mask.coversText]
  not m := by rw [Mask.coversText]
  and l hne h := by
    obtain ⟨b, h1, h2⟩ := allText_spec l s h
    refine ⟨b, ?_, h2⟩
    rw [Mask.coversText, if_neg (by simpa using hne)]; exact h1
  or l hne h := by
    obtain ⟨b, h1, h2⟩ := anyText_spec l s h
    refine ⟨b, ?_, h2⟩
    rw [Mask.coversText, if_neg (by simpa using hne)]; exact h1

section
variable {α : Type} {inc : α → Bool} {mat : α → Prop}
theorem orderedSel_nil : OrderedSel inc mat [] := Or.inr ⟨by simp, by simp⟩
theorem orderedSel_inc {l : List α} {o : α} (ho : inc o = true) : OrderedSel inc mat (l ++ [o]) ↔ mat o ∨ (l ≠ [] ∧ OrderedSel inc mat l) := by
  constructor
  · rintro (⟨a, x, b, h1, h2, h3, h4⟩ | ⟨h1, h2⟩)
    · rcases List.eq_nil_or_concat b with rfl | ⟨b', y, rfl⟩
      · have := List.append_inj_right' h1 rfl
        simp at this
        subst this
        exact Or.inl h3
      · rw [List.concat_eq_append] at h1 h4
        have h5 : l ++ [o] = (a ++ x :: b') ++ [y] := by rw [h1]; simp
        have h6 := List.append_inj_left' h5 rfl
        exact Or.inr ⟨by rw [h6]; simp, Or.inl ⟨a, x, b', h6, h2, h3, fun z hz => h4 z (by simp [hz])⟩⟩
    · refine Or.inr ?_
      cases l with
      | nil => have := h2 o [] rfl; rw [ho] at this; cases this
      | cons x l => exact ⟨by simp, Or.inr ⟨fun z hz => h1 z (by simp at hz ⊢; tauto), fun y l' he => h2 y (l' ++ [o]) (by rw [he]; rfl)⟩⟩
  · rintro (h | ⟨hne, h⟩)
    · exact Or.inl ⟨l, o, [], rfl, ho, h, by simp⟩
    · by_cases hm : mat o
      · exact Or.inl ⟨l, o, [], rfl, ho, hm, by simp⟩
      · rcases h with ⟨a, x, b, h1, h2, h3, h4⟩ | ⟨h1, h2⟩
        · refine Or.inl ⟨a, x, b ++ [o], by rw [h1]; simp, h2, h3, ?_⟩
          intro z hz
          rcases List.mem_append.mp hz with hz | hz
          · exact h4 z hz
          · simp at hz; rw [hz]; exact hm
        · refine Or.inr ⟨?_, ?_⟩
          · intro z hz
            rcases List.mem_append.mp hz with hz | hz
            · exact h1 z hz
            · simp at hz; rw [hz]; exact hm
          · intro y l' he
            cases l with
            | nil => exact absurd rfl hne
            | cons x l => simp at he; exact he.1 ▸ h2 x l rfl
theorem orderedSel_exc {l : List α} {o : α} (ho : inc o = false) : OrderedSel inc mat (l ++ [o]) ↔ ¬ mat o ∧ OrderedSel inc mat l := by
  constructor
  · rintro (⟨a, x, b, h1, h2, h3, h4⟩ | ⟨h1, h2⟩)
    · rcases List.eq_nil_or_concat b with rfl | ⟨b', y, rfl⟩
      · have := List.append_inj_right' h1 rfl
        simp at this
        subst this
        rw [ho] at h2; cases h2
      · rw [List.concat_eq_append] at h1 h4
        have h5 : l ++ [o] = (a ++ x :: b') ++ [y] := by rw [h1]; simp
        have h6 := List.append_inj_left' h5 rfl
        have h7 := List.append_inj_right' h5 rfl
        simp at h7
        exact ⟨h7 ▸ h4 y (by simp), Or.inl ⟨a, x, b', h6, h2, h3, fun z hz => h4 z (by simp [hz])⟩⟩
    · refine ⟨h1 o (by simp), Or.inr ⟨fun z hz => h1 z (by simp [hz]), fun y l' he => ?_⟩⟩
      exact h2 y (l' ++ [o]) (by rw [he]; rfl)
  · rintro ⟨hm, h⟩
    rcases h with ⟨a, x, b, h1, h2, h3, h4⟩ | ⟨h1, h2⟩
    · refine Or.inl ⟨a, x, b ++ [o], by rw [h1]; simp, h2, h3, ?_⟩
      intro z hz
      rcases List.mem_append.mp hz with hz | hz
      · exact h4 z hz
      · simp at hz; rw [hz]; exact hm
    · refine Or.inr ⟨?_, ?_⟩
      · intro z hz
        rcases List.mem_append.mp hz with hz | hz
        · exact h1 z hz
        · simp at hz; rw [hz]; exact hm
      · intro y l' he
        cases l with
        | nil => simp at he; exact he.1 ▸ ho
        | cons x l => simp at he; exact he.1 ▸ h2 x l rfl
theorem exists_last_of {l : List α} (h : ∃ o ∈ l, mat o) : ∃ a o b, l = a ++ o :: b ∧ mat o ∧ ∀ o' ∈ b, ¬ mat o' := by
  classical
  induction l with
  | nil => obtain ⟨o, ho, -⟩ := h; cases ho
  | cons x l ih =>
    by_cases hl : ∃ o ∈ l, mat o
    · obtain ⟨a, o, b, h1, h2, h3⟩ := ih hl
      exact ⟨x :: a, o, b, by rw [h1]; rfl, h2, h3⟩
    · obtain ⟨o, ho, hm⟩ := h
      rcases List.mem_cons.mp ho with rfl | ho
      · exact ⟨[], o, l, rfl, hm, fun o' ho' hm' => hl ⟨o', ho', hm'⟩⟩
      · exact absurd ⟨o, ho, hm⟩ hl
end

theorem ordered_eval {ev : Mask → Res Bool} (he : MaskEval ev) (l : List FilterOpt) : (∀ o ∈ l, ∃ b, ev o.mask = .ok b) →
    ((l = [] ↔ l.foldl orderedStep .empty = .empty) ∧ (∀ s, l.foldl orderedStep .empty = .ou s → s ≠ [] ∧ ∀ m ∈ s, ∃ b, ev m = .ok b) ∧
      (∀ s, l.foldl orderedStep .empty = .et s → s ≠ [] ∧ ∀ m ∈ s, ∃ b, ev m = .ok b)) ∧
    ∃ b, ev (orderedMask l) = .ok b ∧ (b = true ↔ OrderedSel FilterOpt.included (fun o => ev o.mask = .ok true) l) := by
  induction l using List.reverseRecOn with
  | nil =>
    intro _
    refine ⟨⟨by simp, by simp, by simp⟩, true, he.const true, ?_⟩
    simp [orderedSel_nil]
  | append_singleton l o ih =>
    intro h
    obtain ⟨⟨ih1, ihou, ihet⟩, b, hb, hiff⟩ := ih (fun x hx => h x (by simp [hx]))
    obtain ⟨c, hc⟩ := h o (by simp)
    have hnc : ev (.not o.mask) = .ok (!c) := by rw [he.not, hc]; rfl
    unfold orderedMask at hb ⊢
    rw [List.foldl_append, List.foldl_cons, List.foldl_nil]
    generalize hs : l.foldl orderedStep .empty = s at *
    unfold orderedStep
    cases hi : o.included with
    | true =>
      rw [if_pos rfl, orderedSel_inc hi]
      cases s with
      | empty =>
        have hl : l = [] := ih1.mpr rfl
        refine ⟨⟨by simp, by simp, by simp⟩, c, hc, ?_⟩
        rw [hc]; simp [hl]
      | one m =>
        have hl : l ≠ [] := fun h => by have := ih1.mp h; cases this
        have hb' : ev m = .ok b := hb
        have hall : ∀ x ∈ [m, o.mask], ∃ b, ev x = .ok b := by
          intro x hx; simp at hx; rcases hx with rfl | rfl
          · exact ⟨b, hb'⟩
          · exact ⟨c, hc⟩
        obtain ⟨d, hd, hd2⟩ := he.or [m, o.mask] (by simp) hall
        refine ⟨⟨by simp, ?_, by simp⟩, d, hd, ?_⟩
        · rintro s ⟨⟩; exact ⟨by simp, hall⟩
        · rw [hd2, ← hiff]; simp [hb', hl]; tauto
      | ou m =>
        have hl : l ≠ [] := fun h => by have := ih1.mp h; cases this
        obtain ⟨hm1, hm2⟩ := ihou m rfl
        have hall : ∀ x ∈ m ++ [o.mask], ∃ b, ev x = .ok b := by
          intro x hx; rcases List.mem_append.mp hx with hx | hx
          · exact hm2 x hx
          · simp at hx; rw [hx]; exact ⟨c, hc⟩
        obtain ⟨d, hd, hd2⟩ := he.or (m ++ [o.mask]) (by simp) hall
        obtain ⟨d', hd', hd2'⟩ := he.or m hm1 hm2
        have hdb : d' = b := by
          have : ev (.or m) = .ok b := hb
          rw [hd'] at this; cases this; rfl
        refine ⟨⟨by simp, ?_, by simp⟩, d, hd, ?_⟩
        · rintro s ⟨⟩; exact ⟨by simp, hall⟩
        · rw [hd2, ← hiff, ← hdb, hd2']
          constructor
          · rintro ⟨x, hx, hx2⟩
            rcases List.mem_append.mp hx with hx | hx
            · exact Or.inr ⟨hl, x, hx, hx2⟩
            · simp at hx; rw [hx] at hx2; exact Or.inl hx2
          · rintro (h | ⟨-, x, hx, hx2⟩)
            · exact ⟨o.mask, by simp, h⟩
            · exact ⟨x, by simp [hx], hx2⟩
      | et m =>
        have hl : l ≠ [] := fun h => by have := ih1.mp h; cases this
        have hb' : ev (.and m) = .ok b := hb
        have hall : ∀ x ∈ [Mask.and m, o.mask], ∃ b, ev x = .ok b := by
          intro x hx; simp at hx; rcases hx with rfl | rfl
          · exact ⟨b, hb'⟩
          · exact ⟨c, hc⟩
        obtain ⟨d, hd, hd2⟩ := he.or [Mask.and m, o.mask] (by simp) hall
        refine ⟨⟨by simp, ?_, by simp⟩, d, hd, ?_⟩
        · rintro s ⟨⟩; exact ⟨by simp, hall⟩
        · rw [hd2, ← hiff]; simp [hb', hl]; tauto
    | false =>
      rw [if_neg (by simp), orderedSel_exc hi]
      cases s with
      | empty =>
        have hl : l = [] := ih1.mpr rfl
        refine ⟨⟨by simp, by simp, by simp⟩, !c, hnc, ?_⟩
        rw [hc, hl]
        simp [orderedSel_nil]
      | one m =>
        have hb' : ev m = .ok b := hb
        have hall : ∀ x ∈ [m, .not o.mask], ∃ b, ev x = .ok b := by
          intro x hx; simp at hx; rcases hx with rfl | rfl
          · exact ⟨b, hb'⟩
          · exact ⟨_, hnc⟩
        obtain ⟨d, hd, hd2⟩ := he.and [m, .not o.mask] (by simp) hall
        refine ⟨⟨by simp, by simp, ?_⟩, d, hd, ?_⟩
        · rintro s ⟨⟩; exact ⟨by simp, hall⟩
        · rw [hd2, ← hiff]; simp [hb', hnc, hc]; tauto
      | et m =>
        obtain ⟨hm1, hm2⟩ := ihet m rfl
        have hall : ∀ x ∈ m ++ [.not o.mask], ∃ b, ev x = .ok b := by
          intro x hx; rcases List.mem_append.mp hx with hx | hx
          · exact hm2 x hx
          · simp at hx; rw [hx]; exact ⟨_, hnc⟩
        obtain ⟨d, hd, hd2⟩ := he.and (m ++ [.not o.mask]) (by simp) hall
        obtain ⟨d', hd', hd2'⟩ := he.and m hm1 hm2
        have hdb : d' = b := by
          have : ev (.and m) = .ok b := hb
          rw [hd'] at this; cases this; rfl
        refine ⟨⟨by simp, by simp, ?_⟩, d, hd, ?_⟩
        · rintro s ⟨⟩; exact ⟨by simp, hall⟩
        · rw [hd2, ← hiff, ← hdb, hd2']
          constructor
          · intro h
            refine ⟨?_, fun x hx => h x (by simp [hx])⟩
            have := h (.not o.mask) (by simp)
            rw [hnc] at this
            rw [hc]
            cases c
            · simp
            · simp at this
          · rintro ⟨h1, h2⟩ x hx
            rcases List.mem_append.mp hx with hx | hx
            · exact h2 x hx
            · simp at hx; rw [hx, hnc]
              rw [hc] at h1
              cases c
              · rfl
              · simp at h1
      | ou m =>
        have hb' : ev (.or m) = .ok b := hb
        have hall : ∀ x ∈ [Mask.or m, .not o.mask], ∃ b, ev x = .ok b := by
          intro x hx; simp at hx; rcases hx with rfl | rfl
          · exact ⟨b, hb'⟩
          · exact ⟨_, hnc⟩
        obtain ⟨d, hd, hd2⟩ := he.and [Mask.or m, .not o.mask] (by simp) hall
        refine ⟨⟨by simp, by simp, ?_⟩, d, hd, ?_⟩
        · rintro s ⟨⟩; exact ⟨by simp, hall⟩
        · rw [hd2, ← hiff]; simp [hb', hnc, hc]; tauto

theorem unordered_eval {ev : Mask → Res Bool} (he : MaskEval ev) (l : List FilterOpt) (h : ∀ o ∈ l, ∃ b, ev o.mask = .ok b) :
    ∃ b, ev (unorderedMask l) = .ok b ∧ (b = true ↔ NormalSel FilterOpt.included (fun o => ev o.mask = .ok true) l) := by
  unfold unorderedMask
  dsimp only
  generalize hI : (l.filter (·.included)).map (·.mask) = I
  generalize hE : (l.filter (!·.included)).map (·.mask) = E
  have hIm : ∀ m, m ∈ I ↔ ∃ o ∈ l, o.included = true ∧ o.mask = m := by
    intro m; rw [← hI]; simp [and_assoc]
  have hEm : ∀ m, m ∈ E ↔ ∃ o ∈ l, o.included = false ∧ o.mask = m := by
    intro m; rw [← hE]; simp [and_assoc]
  have hIall : ∀ m ∈ I, ∃ b, ev m = .ok b := by
    intro m hm; obtain ⟨o, ho, -, rfl⟩ := (hIm m).mp hm; exact h o ho
  have hEall : ∀ m ∈ E, ∃ b, ev m = .ok b := by
    intro m hm; obtain ⟨o, ho, -, rfl⟩ := (hEm m).mp hm; exact h o ho
  -- the first part
  obtain ⟨mi, hmi, bi, hbi, hbi2⟩ : ∃ mi, (if I.length > 0 then [Mask.or I] else [.const true]) = [mi] ∧ ∃ b, ev mi = .ok b ∧
      (b = true ↔ (∀ o ∈ l, o.included = false) ∨ ∃ o ∈ l, o.included = true ∧ ev o.mask = .ok true) := by
    by_cases hl : I.length > 0
    · obtain ⟨b, hb, hb2⟩ := he.or I (List.length_pos_iff.mp hl) hIall
      refine ⟨.or I, if_pos hl, b, hb, ?_⟩
      rw [hb2]
      constructor
      · rintro ⟨m, hm, hm2⟩
        obtain ⟨o, ho, hoi, rfl⟩ := (hIm m).mp hm
        exact Or.inr ⟨o, ho, hoi, hm2⟩
      · rintro (hn | ⟨o, ho, hoi, ho2⟩)
        · obtain ⟨m, hm⟩ := List.exists_mem_of_length_pos hl
          obtain ⟨o, ho, hoi, -⟩ := (hIm m).mp hm
          rw [hn o ho] at hoi; cases hoi
        · exact ⟨o.mask, (hIm _).mpr ⟨o, ho, hoi, rfl⟩, ho2⟩
    · refine ⟨.const true, if_neg hl, true, he.const true, ?_⟩
      simp only [true_iff]
      left
      intro o ho
      cases hoi : o.included with
      | false => rfl
      | true => exact absurd (List.length_pos_of_mem ((hIm o.mask).mpr ⟨o, ho, hoi, rfl⟩)) hl
  rw [hmi]
  by_cases hl : E.length > 0
  · obtain ⟨b, hb, hb2⟩ := he.or E (List.length_pos_iff.mp hl) hEall
    have hn : ev (.not (.or E)) = .ok (!b) := by rw [he.not, hb]; rfl
    rw [if_pos hl]
    obtain ⟨d, hd, hd2⟩ := he.and ([mi] ++ [.not (.or E)]) (by simp) (by
      intro m hm; simp at hm; rcases hm with rfl | rfl
      · exact ⟨_, hbi⟩
      · exact ⟨_, hn⟩)
    refine ⟨d, hd, ?_⟩
    rw [hd2]
    unfold NormalSel
    rw [← hbi2]
    have hexc : (∀ o ∈ l, o.included = false → ¬ ev o.mask = .ok true) ↔ b = false := by
      constructor
      · intro hh
        cases hbb : b with
        | false => rfl
        | true =>
          obtain ⟨m, hm, hm2⟩ := hb2.mp hbb
          obtain ⟨o, ho, hoi, rfl⟩ := (hEm m).mp hm
          exact absurd hm2 (hh o ho hoi)
      · intro hbb o ho hoi hcov
        have := hb2.mpr ⟨o.mask, (hEm _).mpr ⟨o, ho, hoi, rfl⟩, hcov⟩
        rw [hbb] at this; cases this
    rw [hexc]
    simp [hbi, hn]
  · rw [if_neg hl]
    obtain ⟨d, hd, hd2⟩ := he.and ([mi] ++ []) (by simp) (by
      intro m hm; simp at hm; rw [hm]; exact ⟨_, hbi⟩)
    refine ⟨d, hd, ?_⟩
    rw [hd2]
    unfold NormalSel
    rw [← hbi2]
    have hexc : (∀ o ∈ l, o.included = false → ¬ ev o.mask = .ok true) := by
      intro o ho hoi
      exact absurd (List.length_pos_of_mem ((hEm o.mask).mpr ⟨o, ho, hoi, rfl⟩)) hl
    simp [hbi]
    intro _
    simpa using hexc

/-! ### paths -/

theorem orderedSel_congr {α β : Type} {inc : α → Bool} {mat : α → Prop} {inc' : β → Bool} {mat' : β → Prop} {l : List α} (f : α → β)
    (hi : ∀ o ∈ l, inc' (f o) = inc o) (hm : ∀ o ∈ l, mat' (f o) ↔ mat o) : OrderedSel inc' mat' (l.map f) ↔ OrderedSel inc mat l := by
  constructor
  · rintro (⟨a, o, b, h1, h2, h3, h4⟩ | ⟨h1, h2⟩)
    · obtain ⟨a', t, rfl, rfl, ht⟩ := List.map_eq_append_iff.mp h1
      obtain ⟨o', b', rfl, rfl, rfl⟩ := List.map_eq_cons_iff.mp ht
      refine Or.inl ⟨a', o', b', rfl, by rw [← hi o' (by simp)]; exact h2, (hm o' (by simp)).mp h3, ?_⟩
      intro z hz hz2
      exact h4 (f z) (List.mem_map_of_mem hz) ((hm z (by simp [hz])).mpr hz2)
    · refine Or.inr ⟨fun o ho hmo => h1 (f o) (List.mem_map_of_mem ho) ((hm o ho).mpr hmo), fun o l' he => ?_⟩
      rw [← hi o (by rw [he]; simp)]
      exact h2 (f o) (l'.map f) (by rw [he]; rfl)
  · rintro (⟨a, o, b, h1, h2, h3, h4⟩ | ⟨h1, h2⟩)
    · subst h1
      refine Or.inl ⟨a.map f, f o, b.map f, by simp, by rw [hi o (by simp)]; exact h2, (hm o (by simp)).mpr h3, ?_⟩
      intro z hz
      obtain ⟨y, hy, rfl⟩ := List.mem_map.mp hz
      intro hz2
      exact h4 y hy ((hm y (by simp [hy])).mp hz2)
    · refine Or.inr ⟨?_, ?_⟩
      · intro z hz
        obtain ⟨y, hy, rfl⟩ := List.mem_map.mp hz
        intro hz2
        exact h1 y hy ((hm y hy).mp hz2)
      · intro o l' he
        obtain ⟨o', b', rfl, rfl, rfl⟩ := List.map_eq_cons_iff.mp he
        rw [hi o' (by simp)]
        exact h2 o' b' rfl
theorem normalSel_congr {α β : Type} {inc : α → Bool} {mat : α → Prop} {inc' : β → Bool} {mat' : β → Prop} {l : List α} (f : α → β)
    (hi : ∀ o ∈ l, inc' (f o) = inc o) (hm : ∀ o ∈ l, mat' (f o) ↔ mat o) : NormalSel inc' mat' (l.map f) ↔ NormalSel inc mat l := by
  unfold NormalSel
  simp only [List.mem_map, forall_exists_index, and_imp, forall_apply_eq_imp_iff₂, exists_exists_and_eq_and]
  constructor
  · rintro ⟨h1, h2⟩
    refine ⟨?_, fun o ho hoi hmo => h2 o ho (by rw [hi o ho]; exact hoi) ((hm o ho).mpr hmo)⟩
    rcases h1 with h1 | ⟨o, ho, h3, h4⟩
    · exact Or.inl fun o ho => by rw [← hi o ho]; exact h1 o ho
    · exact Or.inr ⟨o, ho, by rw [← hi o ho]; exact h3, (hm o ho).mp h4⟩
  · rintro ⟨h1, h2⟩
    refine ⟨?_, fun o ho hoi hmo => h2 o ho (by rw [← hi o ho]; exact hoi) ((hm o ho).mp hmo)⟩
    rcases h1 with h1 | ⟨o, ho, h3, h4⟩
    · exact Or.inl fun o ho => by rw [hi o ho]; exact h1 o ho
    · exact Or.inr ⟨o, ho, by rw [hi o ho]; exact h3, (hm o ho).mpr h4⟩

theorem abs_of_names {l : List Bytes} (h : ∀ d ∈ l, PlainName d) : AbsNames ⟨l, false, false⟩ := ⟨rfl, rfl, fun d hd => ⟨(h d hd).1, (h d hd).2.1⟩⟩
theorem names_plain {l : List Bytes} (h : ∀ d ∈ l, isName d ∧ (0 : UInt8) ∉ d) : ∀ d ∈ l, plain d := fun d hd => ⟨(h d hd).1.1, (h d hd).1.2.1⟩
theorem display_abs (l : List Bytes) : PathT.display ⟨l, false, false⟩ = 47 :: joinSlash l := rfl
theorem joinSlash_literal {l : List Bytes} (h : ∀ d ∈ l, PlainName d) : ∀ c ∈ joinSlash l, c ∉ ([42, 63, 91, 92] : Bytes) := by
  induction l with
  | nil => intro c hc; cases hc
  | cons d l ih =>
    intro c hc
    cases l with
    | nil => exact (h d (by simp)).2.2 c hc
    | cons e l =>
      rw [show joinSlash (d :: e :: l) = d ++ 47 :: joinSlash (e :: l) from by rw [joinSlash]; simp] at hc
      rcases List.mem_append.mp hc with hc | hc
      · exact (h d (by simp)).2.2 c hc
      · rcases List.mem_cons.mp hc with rfl | hc
        · decide
        · exact ih (fun x hx => h x (by simp at hx ⊢; tauto)) c hc
theorem display_literal {l : List Bytes} (h : ∀ d ∈ l, PlainName d) : ∀ c ∈ PathT.display ⟨l, false, false⟩, c ∉ ([42, 63, 91, 92] : Bytes) := by
  intro c hc
  rw [display_abs] at hc
  rcases List.mem_cons.mp hc with rfl | hc
  · decide
  · exact joinSlash_literal h c hc

section
variable {glob : Bytes → Bytes → Bool} (hg : GlobLiteral glob) {root : List Bytes} (hroot : ∀ d ∈ root, PlainName d)
include hg hroot

/-- -g: the mask covers what the option concerns -/
theorem go_covers {q p : List Bytes} (hq : ∀ d ∈ q, PlainName d) (hp : ∀ d ∈ p, isName d ∧ (0 : UInt8) ∉ d) :
    ∃ b, (includePathMask (.path ⟨root ++ q, false, false⟩)).coversPath ⟨root ++ p, false, false⟩ = .ok b ∧ (b = true ↔ q <+: p ∨ p <+: q) := by
  have h1 : AbsNames ⟨root ++ q, false, false⟩ := abs_of_names (fun d hd => by rcases List.mem_append.mp hd with h | h; exacts [hroot d h, hq d h])
  have h2 : AbsNames ⟨root ++ p, false, false⟩ := ⟨rfl, rfl, fun d hd => by rcases List.mem_append.mp hd with h | h; exacts [⟨(hroot d h).1, (hroot d h).2.1⟩, hp d h]⟩
  obtain ⟨b, hb, hiff⟩ := C27_simple_path _ _ h2 h1
  refine ⟨b, hb, ?_⟩
  rw [hiff]
  simp [List.prefix_append_right_inj]
/-- -P, ordered method -/
theorem prune_covers_ordered {q p : List Bytes} (hq : ∀ d ∈ q, PlainName d) (hqn : q ≠ []) (hp : ∀ d ∈ p, isName d ∧ (0 : UInt8) ∉ d) (hpn : p ≠ []) :
    ∃ b, (excludePathOrdered glob (.path ⟨root ++ q, false, false⟩)).coversPath ⟨root ++ p, false, false⟩ = .ok b ∧ (b = true ↔ q <+: p) := by
  have hq' : ∀ d ∈ root ++ q, PlainName d := fun d hd => by rcases List.mem_append.mp hd with h | h; exacts [hroot d h, hq d h]
  have hp' : ∀ d ∈ root ++ p, plain d := names_plain (fun d hd => by rcases List.mem_append.mp hd with h | h; exacts [⟨(hroot d h).1, (hroot d h).2.1⟩, hp d h])
  have hq2 : ∀ d ∈ root ++ q, plain d := names_plain (fun d hd => ⟨(hq' d hd).1, (hq' d hd).2.1⟩)
  have hlit := display_literal hq'
  obtain ⟨b, hb, hiff⟩ := (eval_path ⟨root ++ p, false, false⟩).or
    [.pred (glob (PathT.display ⟨root ++ q, false, false⟩)), .pred (glob (PathT.display ⟨root ++ q, false, false⟩ ++ [47, 42]))] (by simp) (by
      intro m hm; simp at hm; rcases hm with rfl | rfl <;> exact ⟨_, by rw [Mask.coversPath]⟩)
  refine ⟨b, hb, ?_⟩
  rw [hiff]
  have e1 : ∀ f : Bytes → Bool, (Mask.pred f).coversPath ⟨root ++ p, false, false⟩ = .ok true ↔ f (PathT.display ⟨root ++ p, false, false⟩) = true := by
    intro f; rw [Mask.coversPath]; simp
  simp only [List.mem_cons, List.not_mem_nil, or_false, exists_eq_or_imp, exists_eq_left, e1]
  rw [hg.exact _ _ hlit, hg.below _ _ hlit, display_abs, display_abs]
  have := joinSlash_prefix (root ++ q) (root ++ p) (by simp [hqn]) (by simp [hpn]) hq2 hp'
  rw [List.prefix_append_right_inj] at this
  rw [← this]
  simp
/-- -P, normal method -/
theorem prune_covers_normal {q p : List Bytes} (hq : ∀ d ∈ q, PlainName d) (hp : ∀ d ∈ p, isName d ∧ (0 : UInt8) ∉ d) :
    ∃ b, (excludePathUnordered glob (.path ⟨root ++ q, false, false⟩)).coversPath ⟨root ++ p, false, false⟩ = .ok b ∧ (b = true ↔ p = q) := by
  have hq' : ∀ d ∈ root ++ q, PlainName d := fun d hd => by rcases List.mem_append.mp hd with h | h; exacts [hroot d h, hq d h]
  have h2 : AbsNames ⟨root ++ p, false, false⟩ := ⟨rfl, rfl, fun d hd => by rcases List.mem_append.mp hd with h | h; exacts [⟨(hroot d h).1, (hroot d h).2.1⟩, hp d h]⟩
  have hlit := display_literal hq'
  refine ⟨_, by unfold excludePathUnordered; dsimp only; rw [Mask.coversPath], ?_⟩
  rw [hg.exact _ _ hlit]
  constructor
  · intro h
    have h3 := h2.reparse
    rw [h, (abs_of_names hq').reparse] at h3
    simp at h3
    exact h3.symm
  · rintro rfl; rfl
end

/-- the ordered method: what is selected is reached -/
theorem ordered_reached {opts : List TreeOpt} {p : List Bytes} (hp : p ≠ []) :
    ReachedBy (fun q => OrderedSel TreeOpt.isGo (TreeOpt.Concerns q) opts) p ↔ OrderedSel TreeOpt.isGo (TreeOpt.Concerns p) opts := by
  constructor
  · intro h; exact h p hp (List.prefix_refl _)
  · intro h q hq hqp
    -- a -P that concerns q concerns p
    have hprune : ∀ o : TreeOpt, o.isGo = false → o.Concerns q → o.Concerns p := by
      intro o ho hc
      cases o with
      | go x => cases ho
      | prune x => exact List.IsPrefix.trans hc hqp
    have hlast : ∀ l1 l2, opts = l1 ++ l2 → (∃ o ∈ l2, o.Concerns q) → (∀ o ∈ l2, o.Concerns q → o.isGo = true) → OrderedSel TreeOpt.isGo (TreeOpt.Concerns q) opts := by
      intro l1 l2 he hex hgo
      obtain ⟨a, o, b, h1, h2, h3⟩ := exists_last_of hex
      exact Or.inl ⟨l1 ++ a, o, b, by rw [he, h1]; simp, hgo o (by rw [h1]; simp) h2, h2, h3⟩
    rcases h with ⟨a, o, b, h1, h2, h3, h4⟩ | ⟨h1, h2⟩
    · refine hlast a (o :: b) h1 ⟨o, by simp, ?_⟩ ?_
      · cases o with
        | prune x => cases h2
        | go x =>
          rcases h3 with h3 | h3
          · exact List.prefix_or_prefix_of_prefix h3 hqp
          · exact Or.inr (hqp.trans h3)
      · intro x hx hxc
        rcases List.mem_cons.mp hx with rfl | hx
        · exact h2
        · cases hxi : x.isGo with
          | true => rfl
          | false => exact absurd (hprune x hxi hxc) (h4 x hx)
    · by_cases hex : ∃ o ∈ opts, o.Concerns q
      · refine hlast [] opts rfl hex ?_
        intro x hx hxc
        cases hxi : x.isGo with
        | true => rfl
        | false => exact absurd (hprune x hxi hxc) (h1 x hx)
      · exact Or.inr ⟨fun o ho hc => hex ⟨o, ho, hc⟩, h2⟩
/-- what a mask of the normal method looks at -/
def TreeOpt.Exactly (p : List Bytes) : TreeOpt → Prop
  | .go q => q <+: p ∨ p <+: q
  | .prune q => p = q
theorem normal_reached {opts : List TreeOpt} (hne : ∀ o ∈ opts, o.names ≠ []) {p : List Bytes} (hp : p ≠ []) :
    ReachedBy (fun q => NormalSel TreeOpt.isGo (TreeOpt.Exactly q) opts) p ↔ NormalSel TreeOpt.isGo (TreeOpt.Concerns p) opts := by
  constructor
  · intro h
    obtain ⟨h1, -⟩ := h p hp (List.prefix_refl _)
    refine ⟨?_, ?_⟩
    · rcases h1 with h1 | ⟨o, ho, h2, h3⟩
      · exact Or.inl h1
      · refine Or.inr ⟨o, ho, h2, ?_⟩
        cases o with
        | go x => exact h3
        | prune x => cases h2
    · intro o ho hoi hc
      cases o with
      | go x => cases hoi
      | prune x => exact (h x (hne _ ho) hc).2 _ ho rfl rfl
  · rintro ⟨h1, h2⟩ q hq hqp
    refine ⟨?_, ?_⟩
    · rcases h1 with h1 | ⟨o, ho, h3, h4⟩
      · exact Or.inl h1
      · refine Or.inr ⟨o, ho, h3, ?_⟩
        cases o with
        | prune x => cases h3
        | go x =>
          rcases h4 with h4 | h4
          · exact List.prefix_or_prefix_of_prefix h4 hqp
          · exact Or.inr (hqp.trans h4)
    · intro o ho hoi hc
      cases o with
      | go x => cases hoi
      | prune x =>
        have hc' : q = x := hc
        exact h2 _ ho rfl (hc' ▸ hqp)

end Dar
