import Verif.Lemmas.SeqSim2
/- The deletion records at the end of a sequential reading. -/
namespace Dar

/-! ### names -/

theorem inline_title (stars : Nat → Star) (dalgo : Compr) (e : Entry) : (e.inline stars dalgo).title = e.title := by
  cases e with
  | mirage n k => simp only [Entry.inline]; split <;> rfl
  | node n => rfl
  | dir => rfl
  | detruit => rfl
  | ignored => rfl

theorem seen_titles (stars : Nat → Star) (dalgo : Compr) (l : List Entry) : ∀ e ∈ seenTree stars dalgo l, ∃ e' ∈ l, e'.title = e.title := by
  induction l with
  | nil => intro e he; unfold seenTree at he; cases he
  | cons x l ih =>
    intro e he
    have hrec : e ∈ seenTree stars dalgo l → ∃ e' ∈ x :: l, e'.title = e.title := fun h => by
      obtain ⟨e', h1, h2⟩ := ih e h
      exact ⟨e', List.mem_cons_of_mem _ h1, h2⟩
    have hcons : ∀ y, y.title = x.title → e ∈ y :: seenTree stars dalgo l → ∃ e' ∈ x :: l, e'.title = e.title := fun y hy h => by
      rcases List.mem_cons.1 h with rfl | h
      · exact ⟨x, by simp, hy.symm⟩
      · exact hrec h
    cases x with
    | node n => unfold seenTree at he; exact hcons _ (inline_title stars dalgo _) he
    | mirage n k => unfold seenTree at he; exact hcons _ (inline_title stars dalgo _) he
    | dir n st i ch => unfold seenTree at he; exact hcons (.dir n st (i.kept true) (seenTree stars dalgo ch)) rfl he
    | detruit => unfold seenTree at he; exact hrec he
    | ignored => unfold seenTree at he; exact hrec he

theorem distinct_seen (stars : Nat → Star) (dalgo : Compr) : ∀ l : List Entry, DistinctNames l → DistinctNames (seenTree stars dalgo l)
  | [], _ => by unfold seenTree DistinctNames; trivial
  | x :: l, h => by
    unfold DistinctNames at h
    obtain ⟨h1, h2, h3⟩ := h
    have hl := distinct_seen stars dalgo l h3
    have hno : ∀ e' ∈ seenTree stars dalgo l, e'.title ≠ x.title := fun e' he => by
      obtain ⟨e, g1, g2⟩ := seen_titles stars dalgo l e' he
      rw [← g2]; exact h1 e g1
    cases x with
    | node n => unfold seenTree DistinctNames; exact ⟨fun e' he => by rw [inline_title]; exact hno e' he, (by simp only [Entry.inline]), hl⟩
    | mirage n k =>
      unfold seenTree DistinctNames
      refine ⟨fun e' he => by rw [inline_title]; exact hno e' he, ?_, hl⟩
      simp only [Entry.inline]
      by_cases hk : shared stars k = true
      · rw [if_pos hk]; trivial
      · rw [if_neg hk]; trivial
    | dir n st i ch =>
      have hc := distinct_seen stars dalgo ch h2
      unfold seenTree DistinctNames
      exact ⟨hno, hc, hl⟩
    | detruit => unfold seenTree; exact hl
    | ignored => unfold seenTree; exact hl

/-! ### the pruned catalogue -/

theorem unsaved_twice (i : InodeB) : i.unsaved.unsaved = i.unsaved := by
  obtain ⟨_, _, _, _, _, _, ea, _, _, _, fsa, _, _, _, _⟩ := i
  cases ea <;> cases fsa <;> rfl

theorem dropEaFsa_twice : ∀ l : List Entry, dropEaFsa (dropEaFsa l) = dropEaFsa l
  | [] => by simp [dropEaFsa]
  | x :: l => by
    have hl := dropEaFsa_twice l
    cases x with
    | node n => simp [dropEaFsa, hl, unsaved_twice]
    | dir n st i ch => simp [dropEaFsa, hl, dropEaFsa_twice ch, unsaved_twice]
    | mirage => simp [dropEaFsa, hl]
    | detruit => simp [dropEaFsa, hl]
    | ignored => simp [dropEaFsa, hl]

theorem pruned_unsigned (stars : Nat → Star) (dalgo : Compr) :
    ∀ l : List Entry, reduceDirs (onlyDetruit (Entry.keptList stars dalgo l)) = deletionTree l
  | [] => by simp [Entry.keptList, onlyDetruit, reduceDirs, deletionTree]
  | x :: l => by
    have hl := pruned_unsigned stars dalgo l
    cases x with
    | node n => simp [Entry.keptList, Entry.kept, onlyDetruit, deletionTree, hl]
    | mirage n k =>
      simp only [Entry.keptList, Entry.kept, deletionTree]
      split <;> simp [onlyDetruit, reduceDirs, hl]
    | dir n st i ch => simp only [Entry.keptList, Entry.kept, onlyDetruit, reduceDirs, deletionTree, hl, pruned_unsigned stars dalgo ch]
    | detruit => simp [Entry.keptList, Entry.kept, onlyDetruit, reduceDirs, deletionTree, hl]
    | ignored => simp [Entry.keptList, deletionTree, hl]

theorem dropEaFsa_empty (l : List Entry) : (dropEaFsa l).isEmpty = l.isEmpty := by
  cases l with
  | nil => simp [dropEaFsa]
  | cons x l => cases x <;> simp [dropEaFsa]

theorem pruned_signed (stars : Nat → Star) (dalgo : Compr) :
    ∀ l : List Entry, dropEaFsa (dropNonDetruits (Entry.keptList stars dalgo l)) = deletionTree l
  | [] => by simp [Entry.keptList, dropNonDetruits, dropEaFsa, deletionTree]
  | x :: l => by
    have hl := pruned_signed stars dalgo l
    cases x with
    | node n => simp [Entry.keptList, Entry.kept, dropNonDetruits, deletionTree, hl]
    | mirage n k =>
      simp only [Entry.keptList, Entry.kept, deletionTree]
      split <;> simp [dropNonDetruits, hl]
    | dir n st i ch =>
      have hc := pruned_signed stars dalgo ch
      simp only [Entry.keptList, Entry.kept, dropNonDetruits, deletionTree, ← hc, dropEaFsa_empty]
      split
      · exact hl
      · simp [dropEaFsa, hl]
    | detruit => simp [Entry.keptList, Entry.kept, dropNonDetruits, dropEaFsa, deletionTree, hl]
    | ignored => simp [Entry.keptList, deletionTree, hl]

/-- nothing has been read in line: the catalogue only has deletion records -/
theorem unseen_deletions (stars fstars : Nat → Star) (dalgo : Compr) (l : List Entry) (h : seenTree stars dalgo l = []) :
    Entry.keptList fstars dalgo l = deletionTree l ∧ wholeTree stars dalgo l = deletionTree l := by
  unfold wholeTree
  induction l with
  | nil => simp [Entry.keptList, deletionTree, seenWhole, deletions]
  | cons x l ih =>
    cases x with
    | node n => unfold seenTree at h; cases h
    | mirage n k => unfold seenTree at h; cases h
    | dir n st i ch => unfold seenTree at h; cases h
    | detruit n s d =>
      unfold seenTree at h
      obtain ⟨h1, h2⟩ := ih h
      have h3 : seenWhole stars dalgo l = [] := by
        clear h1 h2 ih
        induction l with
        | nil => simp [seenWhole]
        | cons y l ih' => cases y <;> unfold seenTree at h <;> first | (simp only [seenWhole]; exact ih' h) | cases h
      rw [h3] at h2
      simp only [List.nil_append] at h2
      simp [Entry.keptList, Entry.kept, deletionTree, h1, seenWhole, deletions, h2, h3]
    | ignored => unfold seenTree at h; simp [Entry.keptList, deletionTree, seenWhole, deletions, ih h]

/-! ### the deletion records put in the catalogue in memory -/

theorem copyDetruits_drop : ∀ (t l : List Entry), copyDetruits l (dropEaFsa t) = copyDetruits l t
  | [], l => by simp [dropEaFsa]
  | x :: t, l => by
    cases x with
    | node n => simp [dropEaFsa, copyDetruits, copyDetruits_drop t]
    | mirage => simp [dropEaFsa, copyDetruits, copyDetruits_drop t]
    | ignored => simp [dropEaFsa, copyDetruits, copyDetruits_drop t]
    | detruit =>
      simp only [dropEaFsa, copyDetruits]
      congr 1
      funext l'
      exact copyDetruits_drop t l'
    | dir n st i ch =>
      simp only [dropEaFsa, copyDetruits, copyDetruits_drop ch]
      congr 1
      funext l'
      exact copyDetruits_drop t l'

theorem changeFolder_mid (n : Bytes) (f : List Entry → Res (List Entry)) (A : List Entry) (st : SavedStatus) (i : InodeB) (ch ch' B : List Entry)
    (hA : ∀ e ∈ A, e.title ≠ n) (hf : f ch = .ok ch') : changeFolder n f (A ++ .dir n st i ch :: B) = .ok (A ++ .dir n st i ch' :: B) := by
  induction A with
  | nil =>
    simp only [List.nil_append, changeFolder]
    rw [if_pos (show (Entry.dir n st i ch).title = n from rfl), hf]
    rfl
  | cons a A ih =>
    simp only [List.cons_append, changeFolder]
    rw [if_neg (hA a (by simp)), ih fun e he => hA e (List.mem_cons_of_mem _ he)]
    rfl

theorem no_deletion (stars : Nat → Star) (dalgo : Compr) : ∀ l : List Entry, deletionTree l = [] →
    seenWhole stars dalgo l = seenTree stars dalgo l ∧ deletions l = []
  | [], _ => by simp [seenWhole, seenTree, deletions]
  | x :: l, h => by
    cases x with
    | node n => simp only [deletionTree] at h; simp [seenWhole, seenTree, deletions, no_deletion stars dalgo l h]
    | mirage n => simp only [deletionTree] at h; simp [seenWhole, seenTree, deletions, no_deletion stars dalgo l h]
    | ignored n => simp only [deletionTree] at h; simp [seenWhole, seenTree, deletions, no_deletion stars dalgo l h]
    | detruit => simp only [deletionTree] at h; cases h
    | dir n st i ch =>
      simp only [deletionTree] at h
      by_cases hc : (deletionTree ch).isEmpty = true
      · rw [if_pos hc] at h
        have h1 := no_deletion stars dalgo ch (by simpa using hc)
        simp [seenWhole, seenTree, deletions, no_deletion stars dalgo l h, h1]
      · rw [if_neg hc] at h
        cases h

theorem copy_whole (stars : Nat → Star) (dalgo : Compr) : ∀ (l A D : List Entry), DistinctNames l → (∀ e ∈ l, ∀ x ∈ A, x.title ≠ e.title) →
    (∀ e ∈ l, ∀ x ∈ D, x.title ≠ e.title) →
    copyDetruits (A ++ (seenTree stars dalgo l ++ D)) (deletionTree l) = .ok (A ++ (seenWhole stars dalgo l ++ (D ++ deletions l)))
  | [], A, D, _, _, _ => by simp [deletionTree, copyDetruits, seenTree, seenWhole, deletions]
  | x :: l, A, D, hd, hA, hD => by
    unfold DistinctNames at hd
    obtain ⟨h1, h2, h3⟩ := hd
    have hA' : ∀ e ∈ l, ∀ x ∈ A, x.title ≠ e.title := fun e he => hA e (List.mem_cons_of_mem _ he)
    have hD' : ∀ e ∈ l, ∀ x ∈ D, x.title ≠ e.title := fun e he => hD e (List.mem_cons_of_mem _ he)
    have hpush : ∀ y : Entry, y.title = x.title → ∀ e ∈ l, ∀ z ∈ A ++ [y], z.title ≠ e.title := fun y hy e he z hz => by
      rcases List.mem_append.1 hz with hz | hz
      · exact hA' e he z hz
      · rw [List.mem_singleton.1 hz, hy]; exact (h1 e he).symm
    have leafCase : ∀ y : Entry, y.title = x.title → seenTree stars dalgo (x :: l) = y :: seenTree stars dalgo l →
        seenWhole stars dalgo (x :: l) = y :: seenWhole stars dalgo l → deletionTree (x :: l) = deletionTree l → deletions (x :: l) = deletions l →
        copyDetruits (A ++ (seenTree stars dalgo (x :: l) ++ D)) (deletionTree (x :: l)) =
          .ok (A ++ (seenWhole stars dalgo (x :: l) ++ (D ++ deletions (x :: l)))) := fun y hy g1 g2 g3 g4 => by
      have := copy_whole stars dalgo l (A ++ [y]) D h3 (hpush y hy) hD'
      rw [g1, g2, g3, g4]
      simpa using this
    cases x with
    | node n => exact leafCase _ (inline_title stars dalgo (.node n)) (by conv => lhs; unfold seenTree) (by conv => lhs; unfold seenWhole) (by conv => lhs; unfold deletionTree) (by conv => lhs; unfold deletions)
    | mirage n k => exact leafCase _ (inline_title stars dalgo (.mirage n k)) (by conv => lhs; unfold seenTree) (by conv => lhs; unfold seenWhole) (by conv => lhs; unfold deletionTree) (by conv => lhs; unfold deletions)
    | ignored n =>
      have := copy_whole stars dalgo l A D h3 hA' hD'
      simp only [deletionTree, seenTree, seenWhole, deletions]
      exact this
    | detruit n s d =>
      have hD2 : ∀ e ∈ l, ∀ z ∈ D ++ [Entry.detruit n s d], z.title ≠ e.title := fun e he z hz => by
        rcases List.mem_append.1 hz with hz | hz
        · exact hD' e he z hz
        · rw [List.mem_singleton.1 hz]; exact (h1 e he).symm
      have := copy_whole stars dalgo l A (D ++ [.detruit n s d]) h3 hA' hD2
      have hadd : addChild (A ++ (seenTree stars dalgo l ++ D)) (.detruit n s d) = .ok (A ++ (seenTree stars dalgo l ++ (D ++ [.detruit n s d]))) := by
        unfold addChild
        rw [findNamed_none]
        · simp
        · intro e he
          rcases List.mem_append.1 he with he | he
          · exact hA _ (by simp) e he
          · rcases List.mem_append.1 he with he | he
            · obtain ⟨e', g1, g2⟩ := seen_titles stars dalgo l e he
              rw [← g2]; exact h1 e' g1
            · exact hD _ (by simp) e he
      simp only [deletionTree, seenTree, seenWhole, deletions, copyDetruits]
      rw [hadd]
      show copyDetruits _ _ = _
      rw [this]
      simp
    | dir n st i ch =>
      by_cases hc : (deletionTree ch).isEmpty = true
      · obtain ⟨g1, g2⟩ := no_deletion stars dalgo ch (by simpa using hc)
        refine leafCase (.dir n st (i.kept true) (seenTree stars dalgo ch)) rfl (by conv => lhs; unfold seenTree) ?_ ?_ (by conv => lhs; unfold deletions)
        · conv => lhs; unfold seenWhole
          rw [g1, g2, List.append_nil]
        · conv => lhs; unfold deletionTree
          rw [if_pos hc]
      · have hch := copy_whole stars dalgo ch [] [] h2 (by simp) (by simp)
        simp only [List.nil_append, List.append_nil] at hch
        have hmid := changeFolder_mid n (fun c => copyDetruits c (deletionTree ch)) A st (i.kept true) (seenTree stars dalgo ch)
          (seenWhole stars dalgo ch ++ deletions ch) (seenTree stars dalgo l ++ D) (fun e he => hA (.dir n st i ch) (by simp) e he) hch
        have := copy_whole stars dalgo l (A ++ [.dir n st (i.kept true) (seenWhole stars dalgo ch ++ deletions ch)]) D h3 (hpush _ rfl) hD'
        simp only [deletionTree, seenTree, seenWhole, deletions]
        rw [if_neg hc]
        simp only [copyDetruits, List.cons_append]
        rw [hmid]
        show copyDetruits _ _ = _
        simp only [List.append_assoc, List.singleton_append] at this
        exact this
termination_by l => sizeOf l
decreasing_by all_goals (subst_vars; simp; try omega)

theorem copy_whole_tree (stars : Nat → Star) (dalgo : Compr) (l : List Entry) (h : DistinctNames l) :
    copyDetruits (seenTree stars dalgo l) (deletionTree l) = .ok (wholeTree stars dalgo l) := by
  have := copy_whole stars dalgo l [] [] h (by simp) (by simp)
  simpa [wholeTree] using this

end Dar
