import Verif.Lemmas.Merge7
import Mathlib.Data.List.Perm.Subperm
/- The renumbering of the hard links, and the whole merging. -/
namespace Dar

/-! ### renumbering -/

mutual
theorem relabel_congr {f g : Nat → Nat} (e : BEntry) (h : ∀ j ∈ e.labels, f j = g j) : e.relabel f = e.relabel g := by
  match e, h with
  | .mirage n k, h => rw [BEntry.relabel, BEntry.relabel, h k (by rw [BEntry.labels]; simp)]
  | .dir x c, h => rw [BEntry.relabel, BEntry.relabel, relabelL_congr c (fun j hj => h j (by rw [BEntry.labels]; exact hj))]
  | .node x, _ => rw [BEntry.relabel, BEntry.relabel]
  | .detruit n k d, _ => rw [BEntry.relabel, BEntry.relabel]
  | .ignored n, _ => rw [BEntry.relabel, BEntry.relabel]
  | .ignoredDir x, _ => rw [BEntry.relabel, BEntry.relabel]
theorem relabelL_congr {f g : Nat → Nat} (l : List BEntry) (h : ∀ j ∈ BEntry.labelsL l, f j = g j) : BEntry.relabelL f l = BEntry.relabelL g l := by
  match l, h with
  | [], _ => rw [BEntry.relabelL, BEntry.relabelL]
  | e :: l, h =>
    rw [BEntry.labelsL] at h
    rw [BEntry.relabelL, BEntry.relabelL, relabel_congr e (fun j hj => h j (List.mem_append.2 (Or.inl hj))),
      relabelL_congr l (fun j hj => h j (List.mem_append.2 (Or.inr hj)))]
end
mutual
theorem relabel_comp (f g : Nat → Nat) (e : BEntry) : (e.relabel f).relabel g = e.relabel (fun j => g (f j)) := by
  match e with
  | .mirage n k => simp only [BEntry.relabel]
  | .dir x c => simp only [BEntry.relabel, relabelL_comp f g c]
  | .node x => simp only [BEntry.relabel]
  | .detruit n k d => simp only [BEntry.relabel]
  | .ignored n => simp only [BEntry.relabel]
  | .ignoredDir x => simp only [BEntry.relabel]
theorem relabelL_comp (f g : Nat → Nat) (l : List BEntry) : BEntry.relabelL g (BEntry.relabelL f l) = BEntry.relabelL (fun j => g (f j)) l := by
  match l with
  | [] => simp only [BEntry.relabelL]
  | e :: l => simp only [BEntry.relabelL, relabel_comp f g e, relabelL_comp f g l]
end
mutual
theorem relabel_id (e : BEntry) : e.relabel (fun j => j) = e := by
  match e with
  | .mirage n k => simp only [BEntry.relabel]
  | .dir x c => simp only [BEntry.relabel, relabelL_id c]
  | .node x => simp only [BEntry.relabel]
  | .detruit n k d => simp only [BEntry.relabel]
  | .ignored n => simp only [BEntry.relabel]
  | .ignoredDir x => simp only [BEntry.relabel]
theorem relabelL_id (l : List BEntry) : BEntry.relabelL (fun j => j) l = l := by
  match l with
  | [] => simp only [BEntry.relabelL]
  | e :: l => simp only [BEntry.relabelL, relabel_id e, relabelL_id l]
end
mutual
theorem relabel_labels (f : Nat → Nat) (e : BEntry) : (e.relabel f).labels = e.labels.map f := by
  match e with
  | .mirage n k => simp only [BEntry.relabel, BEntry.labels, List.map_cons, List.map_nil]
  | .dir x c => simp only [BEntry.relabel, BEntry.labels, relabelL_labels f c]
  | .node x => simp [BEntry.relabel, BEntry.labels]
  | .detruit n k d => simp [BEntry.relabel, BEntry.labels]
  | .ignored n => simp [BEntry.relabel, BEntry.labels]
  | .ignoredDir x => simp [BEntry.relabel, BEntry.labels]
theorem relabelL_labels (f : Nat → Nat) (l : List BEntry) : BEntry.labelsL (BEntry.relabelL f l) = (BEntry.labelsL l).map f := by
  match l with
  | [] => simp [BEntry.relabelL, BEntry.labelsL]
  | e :: l => simp only [BEntry.relabelL, BEntry.labelsL, List.map_append, relabel_labels f e, relabelL_labels f l]
end
mutual
theorem relabel_select (o : MgOpts) (p : List Bytes) (f : Nat → Nat) (e : BEntry) : (e.relabel f).select o p = BEntry.relabelL f (e.select o p) := by
  match e with
  | .dir x c =>
    rw [BEntry.relabel, BEntry.select, BEntry.select, relabelL_select o _ f c]
    by_cases h1 : o.subtree (p ++ [x.name]) = true
    · rw [if_pos h1, if_pos h1]; simp only [BEntry.relabelL, BEntry.relabel]
    · rw [if_neg h1, if_neg h1]
      by_cases h2 : o.emptyDir = true
      · rw [if_pos h2]; simp only [BEntry.relabelL, BEntry.relabel]
      · rw [if_neg h2]; simp only [BEntry.relabelL]
  | .mirage n k => simp only [BEntry.relabel, BEntry.select, BEntry.name]; (by_cases hc : (o.subtree (p ++ [n]) && o.filter n) = true) <;> simp [hc, BEntry.relabelL, BEntry.relabel]
  | .node x => simp only [BEntry.relabel, BEntry.select, BEntry.name]; (by_cases hc : (o.subtree (p ++ [x.name]) && o.filter x.name) = true) <;> simp [hc, BEntry.relabelL, BEntry.relabel]
  | .detruit n k d => simp only [BEntry.relabel, BEntry.select, BEntry.name]; (by_cases hc : (o.subtree (p ++ [n]) && o.filter n) = true) <;> simp [hc, BEntry.relabelL, BEntry.relabel]
  | .ignored n => simp only [BEntry.relabel, BEntry.select, BEntry.name]; (by_cases hc : (o.subtree (p ++ [n]) && o.filter n) = true) <;> simp [hc, BEntry.relabelL, BEntry.relabel]
  | .ignoredDir x => simp only [BEntry.relabel, BEntry.select, BEntry.name]; (by_cases hc : (o.subtree (p ++ [x.name]) && o.filter x.name) = true) <;> simp [hc, BEntry.relabelL, BEntry.relabel]
theorem relabelL_select (o : MgOpts) (p : List Bytes) (f : Nat → Nat) (l : List BEntry) : BEntry.selectL o p (BEntry.relabelL f l) = BEntry.relabelL f (BEntry.selectL o p l) := by
  match l with
  | [] => simp only [BEntry.relabelL, BEntry.selectL]
  | e :: l =>
    rw [BEntry.relabelL, BEntry.selectL, BEntry.selectL, relabel_select o p f e, relabelL_select o p f l]
    rw [relabelL_eq, relabelL_eq, relabelL_eq, List.map_append]
end

theorem highest_spec {known : List Nat} {search : Nat} : ∀ {max k m : Nat}, highest known search max = .ok (k, m) → k ∈ known ∧ search < k
  | 0, k, m, h => by cases h
  | x + 1, k, m, h => by
    unfold highest at h
    by_cases h1 : x + 1 ≤ search
    · rw [if_pos h1] at h; cases h
    · rw [if_neg h1] at h
      by_cases h2 : x + 1 ∈ known
      · rw [if_pos h2] at h
        cases h
        exact ⟨h2, by omega⟩
      · rw [if_neg h2] at h
        exact highest_spec h

/-- the exchange of two labels -/
def swapLab (a b j : Nat) : Nat := if j = a then b else if j = b then a else j
theorem swap_swap (a b j : Nat) : swapLab a b (swapLab a b j) = j := by
  unfold swapLab
  split
  · subst_vars; split <;> simp_all
  · split <;> simp_all

theorem filter_length {l : List Nat} {k : Nat} (hn : l.Nodup) (hk : k ∈ l) : (l.filter (· ≠ k)).length + 1 = l.length := by
  induction l with
  | nil => cases hk
  | cons a l ih =>
    obtain ⟨h1, h2⟩ := List.nodup_cons.1 hn
    by_cases ha : a = k
    · subst ha
      have : (a :: l).filter (· ≠ a) = l := by
        rw [List.filter_cons]
        simp only [ne_eq, not_true_eq_false, decide_false, Bool.false_eq_true, if_false]
        rw [List.filter_eq_self]
        intro b hb
        simp only [decide_eq_true_eq]
        rintro rfl
        exact h1 hb
      rw [this]; rfl
    · rw [List.filter_cons]
      simp only [ne_eq, ha, not_false_eq_true, decide_true, if_true, List.length_cons]
      rcases List.mem_cons.1 hk with rfl | hk
      · exact absurd rfl ha
      · have := ih h2 hk
        simp only [ne_eq] at this
        omega

theorem norm_spec : ∀ (n : Nat) (root : List BEntry) (stars : Nat → Obj) (known : List Nat) (max search : Nat) (r : List BEntry) (st : Nat → Obj) (kn : List Nat),
    normLoop root stars known max search n = .ok (r, st, kn) → known.Nodup → (∀ j, j ∈ known ↔ j ∈ BEntry.labelsL root) → (∀ j, j < search → j ∈ known) →
    known.length = search + n →
    ∃ ρ σ : Nat → Nat, (∀ j, σ (ρ j) = j) ∧ (∀ j, ρ (σ j) = j) ∧ r = BEntry.relabelL ρ root ∧ (∀ j ∈ known, st (ρ j) = stars j) ∧ kn.Nodup ∧
      (∀ j, j ∈ kn ↔ j ∈ BEntry.labelsL r) ∧ (∀ j, j < search + n → j ∈ kn) ∧ kn.length = search + n
  | 0, root, stars, known, max, search, r, st, kn, h, hn, hk, hs, hl => by
    cases h
    exact ⟨fun j => j, fun j => j, fun _ => rfl, fun _ => rfl, (relabelL_id _).symm, fun _ _ => rfl, hn, hk, fun j hj => hs j (by omega), hl⟩
  | n + 1, root, stars, known, max, search, r, st, kn, h, hn, hk, hs, hl => by
    unfold normLoop at h
    by_cases h1 : search ∈ known
    · rw [if_pos h1] at h
      obtain ⟨ρ, σ, a1, a1', a2, a3, a4, a5, a6, a7⟩ := norm_spec n root stars known max (search + 1) r st kn h hn hk
        (fun j hj => by
          by_cases hj2 : j = search
          · subst hj2; exact h1
          · exact hs j (by omega)) (by omega)
      exact ⟨ρ, σ, a1, a1', a2, a3, a4, a5, fun j hj => a6 j (by omega), by omega⟩
    · rw [if_neg h1] at h
      obtain ⟨⟨k, m⟩, h2, h3⟩ := bind_ok h
      obtain ⟨hk1, hk2⟩ := highest_spec h2
      dsimp only at h3
      have hrel : BEntry.relabelL (fun j => if j = k then search else j) root = BEntry.relabelL (swapLab k search) root := by
        apply relabelL_congr
        intro j hj
        unfold swapLab
        by_cases hjk : j = k
        · rw [if_pos hjk, if_pos hjk]
        · rw [if_neg hjk, if_neg hjk, if_neg]
          rintro rfl
          exact h1 ((hk _).2 hj)
      rw [hrel] at h3
      have hks : search ≠ k := by omega
      obtain ⟨ρ, σ, a1, a1', a2, a3, a4, a5, a6, a7⟩ := norm_spec n _ _ _ m (search + 1) r st kn h3
        (List.nodup_cons.2 ⟨fun hc => h1 (List.mem_filter.1 hc).1, nodup_filter_ne hn k⟩)
        (fun j => by
          rw [relabelL_labels, List.mem_map]
          simp only [List.mem_cons, List.mem_filter, decide_eq_true_eq, ne_eq]
          constructor
          · rintro (rfl | ⟨hj1, hj2⟩)
            · exact ⟨k, (hk k).1 hk1, by simp [swapLab]⟩
            · refine ⟨j, (hk j).1 hj1, ?_⟩
              unfold swapLab
              rw [if_neg hj2, if_neg (by rintro rfl; exact h1 hj1)]
          · rintro ⟨i, hi, rfl⟩
            have hi2 := (hk i).2 hi
            unfold swapLab
            by_cases hik : i = k
            · rw [if_pos hik]; exact Or.inl rfl
            · rw [if_neg hik, if_neg (by rintro rfl; exact h1 hi2)]
              exact Or.inr ⟨hi2, hik⟩)
        (fun j hj => by
          simp only [List.mem_cons, List.mem_filter, decide_eq_true_eq, ne_eq]
          by_cases hj2 : j = search
          · exact Or.inl hj2
          · exact Or.inr ⟨hs j (by omega), by omega⟩)
        (by
          have := filter_length hn hk1
          simp only [List.length_cons, ne_eq] at this ⊢
          omega)
      refine ⟨fun j => ρ (swapLab k search j), fun j => swapLab k search (σ j), fun j => ?_, fun j => ?_, ?_, fun j hj => ?_, a4, a5, fun j hj => a6 j (by omega), by omega⟩
      · show swapLab k search (σ (ρ (swapLab k search j))) = j
        rw [a1, swap_swap]
      · show ρ (swapLab k search (swapLab k search (σ j))) = j
        rw [swap_swap, a1']
      · rw [a2, relabelL_comp]
      · have hj2 : j ≠ search := by rintro rfl; exact h1 hj
        show st (ρ (swapLab k search j)) = stars j
        by_cases hjk : j = k
        · have he : swapLab k search j = search := by unfold swapLab; rw [if_pos hjk]
          rw [he, a3 search (List.mem_cons_self ..), if_pos rfl, hjk]
        · have he : swapLab k search j = j := by unfold swapLab; rw [if_neg hjk, if_neg hj2]
          rw [he, a3 j (List.mem_cons_of_mem _ (by simp [hj, hjk])), if_neg hj2]

/-- the labels are exactly the first ones -/
theorem first_labels {l : List Nat} (hn : l.Nodup) (h : ∀ j, j < l.length → j ∈ l) : ∀ j ∈ l, j < l.length := by
  intro j hj
  have hsub : (List.range l.length).Subperm l := List.subperm_of_subset List.nodup_range (fun i hi => h i (List.mem_range.1 hi))
  have hp := hsub.perm_of_length_le (by simp)
  exact List.mem_range.1 (hp.mem_iff.2 hj)

theorem at_links {l : List BEntry} {j : Nat} : (0 < Cursor.links j ⟨[], l⟩) ↔ j ∈ BEntry.labelsL l := by
  rw [mem_labelsL, cursor_links]
  simp

theorem normalize_spec {T : Nat → Obj} {s s' : MgSt} (hi : MInv T none s) (hf : s.at_.frames = []) (h : s.normalize = .ok s') :
    ∃ ρ σ : Nat → Nat, (∀ j, σ (ρ j) = j) ∧ (∀ j, ρ (σ j) = j) ∧ s'.at_ = ⟨[], BEntry.relabelL ρ s.at_.cur⟩ ∧ (∀ j ∈ BEntry.labelsL s.at_.cur, s'.stars (ρ j) = T j) ∧
      s'.known.Nodup ∧ (∀ j, j ∈ s'.known ↔ j ∈ BEntry.labelsL s'.at_.cur) ∧ (∀ j, j ∈ s'.known → j < s'.known.length) := by
  unfold MgSt.normalize at h
  obtain ⟨⟨r, st, kn⟩, h1, h2⟩ := bind_ok h
  have hk : ∀ j, j ∈ s.known ↔ j ∈ BEntry.labelsL s.at_.cur := by
    intro j
    rw [hi.known j, ← at_links (l := s.at_.cur)]
    have : s.at_ = ⟨[], s.at_.cur⟩ := by rw [← hf]
    rw [← this]
    simp
  obtain ⟨ρ, σ, a1, a1', a2, a3, a4, a5, a6, a7⟩ := norm_spec _ _ _ _ _ _ _ _ _ h1 hi.nodup hk (fun j hj => by omega) (by omega)
  cases h2
  refine ⟨ρ, σ, a1, a1', ?_, fun j hj => ?_, a4, a5, first_labels a4 (fun j hj => a6 j (by change j < kn.length at hj; omega))⟩
  · show (⟨s.at_.frames, r⟩ : Cursor) = _
    rw [hf, a2]
  · exact (a3 j ((hk j).2 hj)).trans (hi.right j ((hk j).2 hj))

end Dar
