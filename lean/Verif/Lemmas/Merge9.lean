import Verif.Lemmas.Merge8
/- The whole merging. -/
namespace Dar

/-! ### the relation does not depend on the labels -/

theorem relabel_label (f : Nat → Nat) (e : BEntry) : (e.relabel f).label = e.label.map f := by cases e <;> simp [BEntry.relabel, BEntry.label]
theorem relabel_ign (f : Nat → Nat) (e : BEntry) : (e.relabel f).isIgnoredDir = e.isIgnoredDir := by cases e <;> simp [BEntry.relabel, BEntry.isIgnoredDir]
theorem relabel_contents (f : Nat → Nat) (e : BEntry) : (e.relabel f).contents = BEntry.relabelL f e.contents := by
  cases e <;> simp [BEntry.relabel, BEntry.contents, BEntry.relabelL]
theorem relabel_obj {f : Nat → Nat} {T T' : Nat → Obj} {e : BEntry} (h : ∀ k, e.label = some k → T' (f k) = T k) : (e.relabel f).obj T' = e.obj T := by
  cases e <;> simp only [BEntry.relabel, BEntry.obj]
  rw [h _ rfl]
theorem relabel_crit {f : Nat → Nat} {T T' : Nat → Obj} {e : BEntry} (fl : Bool) (h : ∀ k, e.label = some k → T' (f k) = T k) :
    (e.relabel f).crit T' fl = e.crit T fl := by
  cases e <;> simp [BEntry.relabel, BEntry.crit]
  rw [h _ rfl]
theorem relabel_sig {f : Nat → Nat} {T T' : Nat → Obj} {e : BEntry} (h : ∀ k, e.label = some k → T' (f k) = T k) : (e.relabel f).sigKind T' = e.sigKind T := by
  cases e <;> simp [BEntry.relabel, BEntry.sigKind]
  rw [h _ rfl]

section
variable {o : MgOpts}

theorem decided_relabel {f g : Nat → Nat} {T T' U U' : Nat → Obj} {P : List Bytes} {a b : BEntry} {d : OverData} {e : OverEa}
    (ha : ∀ k, a.label = some k → T' (f k) = T k) (hb : ∀ k, b.label = some k → U' (g k) = U k) :
    Decided o T' U' P (a.relabel f) (b.relabel g) d e ↔ Decided o T U P a b d e := by
  have h1 : ∀ fl, (a.relabel f).crit T' fl = a.crit T fl := fun fl => relabel_crit fl ha
  have h2 : ∀ fl, (b.relabel g).crit U' fl = b.crit U fl := fun fl => relabel_crit fl hb
  have h3 := relabel_obj ha
  have h4 := relabel_obj hb
  constructor
  · rintro ⟨d0, a0, ⟨f1, f2, hp⟩, h⟩
    rw [h1, h2] at hp
    rw [h3, h4] at h
    exact ⟨d0, a0, ⟨f1, f2, hp⟩, h⟩
  · rintro ⟨d0, a0, ⟨f1, f2, hp⟩, h⟩
    rw [← h1, ← h2] at hp
    rw [← h3, ← h4] at h
    exact ⟨d0, a0, ⟨f1, f2, hp⟩, h⟩

theorem head_relabel {f : Nat → Nat} {T T' : Nat → Obj} {d : OverData} {a : OverEa} {e1 e2 r : BEntry}
    (h1 : ∀ k, e1.label = some k → T' (f k) = T k) (h2 : ∀ k, e2.label = some k → T' (f k) = T k) (h : HeadOf o T T d a e1 e2 r) :
    HeadOf o T' T' d a (e1.relabel f) (e2.relabel f) (r.relabel f) := by
  have o1 := relabel_obj h1
  have o2 := relabel_obj h2
  have hri : ∀ t z, ResultInode o T T d a e1 e2 t z → ResultInode o T' T' d a (e1.relabel f) (e2.relabel f) t z := by
    intro t z hr
    unfold ResultInode at hr ⊢
    rw [o1, o2]
    exact hr
  unfold HeadOf at h ⊢
  have hif : (if d = .overwrite ∨ d = .overwriteMark then e2.relabel f else e1.relabel f) = (if d = .overwrite ∨ d = .overwriteMark then e2 else e1).relabel f := by
    by_cases hc : d = .overwrite ∨ d = .overwriteMark
    · rw [if_pos hc, if_pos hc]
    · rw [if_neg hc, if_neg hc]
  rw [hif]
  generalize (if d = .overwrite ∨ d = .overwriteMark then e2 else e1) = e at h
  cases e with
  | node t =>
    obtain ⟨z, q1, q2⟩ := h
    subst q1
    simp only [BEntry.relabel]
    exact ⟨z, rfl, hri _ _ q2⟩
  | dir t c =>
    obtain ⟨z, c', q1, q2⟩ := h
    subst q1
    simp only [BEntry.relabel]
    exact ⟨z, _, rfl, hri _ _ q2⟩
  | mirage n k => dsimp only at h; subst h; simp only [BEntry.relabel]
  | detruit n k t => dsimp only at h; subst h; simp only [BEntry.relabel]
  | ignored n => dsimp only at h; subst h; simp only [BEntry.relabel]
  | ignoredDir t => dsimp only at h; subst h; simp only [BEntry.relabel]

theorem mark_relabel (f : Nat → Nat) (e : BEntry) : emptyMark o (e.relabel f) = (emptyMark o e).map (BEntry.relabel f) := by
  cases e <;> simp only [BEntry.relabel, emptyMark, Option.map_none]
  split <;> simp [BEntry.relabel]

theorem mergedAt_relabel {f : Nat → Nat} {T T' : Nat → Obj} {dt : DateT} {P : List Bytes} {f1 f2 r : Option BEntry}
    (hl : ∀ e k, (f1 = some e ∨ f2 = some e) → e.label = some k → T' (f k) = T k) (h : MergedAt o T T dt P f1 f2 r) :
    MergedAt o T' T' dt P (f1.map (BEntry.relabel f)) (f2.map (BEntry.relabel f)) (r.map (BEntry.relabel f)) := by
  cases f1 with
  | none =>
    cases f2 with
    | none =>
      rw [h.neither rfl rfl]
      refine ⟨(fun e h _ => by cases h), (fun e _ h _ => by cases h), (fun e _ h _ _ => by cases h), (fun _ _ => rfl), (fun e1 e2 h _ _ => by cases h),
        (fun e1 e2 h _ _ _ => by cases h), (fun e1 e2 e h _ _ _ => by cases h)⟩
    | some E =>
      cases hd : o.decremental with
      | false =>
        rw [h.second E rfl rfl (Or.inl hd)]
        refine ⟨(fun e h _ => by cases h), (fun e _ h _ => h), (fun e _ h h1 h2 => by rw [hd] at h1; cases h1), (fun _ h => by cases h), (fun e1 e2 h _ _ => by cases h),
          (fun e1 e2 h _ _ _ => by cases h), (fun e1 e2 e h _ _ _ => by cases h)⟩
      | true =>
        cases hE : E.isIgnoredDir with
        | true =>
          rw [h.second E rfl rfl (Or.inr hE)]
          refine ⟨(fun e h _ => by cases h), (fun e _ h _ => h), (fun e _ h h1 h2 => by cases h; rw [relabel_ign, hE] at h2; cases h2), (fun _ h => by cases h), (fun e1 e2 h _ _ => by cases h),
            (fun e1 e2 h _ _ _ => by cases h), (fun e1 e2 e h _ _ _ => by cases h)⟩
        | false =>
          rw [h.gone E rfl rfl hd hE]
          refine ⟨(fun e h _ => by cases h), (fun e _ h h1 => ?_), (fun e _ h h1 h2 => ?_), (fun _ h => by cases h), (fun e1 e2 h _ _ => by cases h),
            (fun e1 e2 h _ _ _ => by cases h), (fun e1 e2 e h _ _ _ => by cases h)⟩
          · cases h
            rw [hd, relabel_ign, hE] at h1
            rcases h1 with h1 | h1 <;> cases h1
          · cases h
            rw [relabel_sig (fun k hk => hl E k (Or.inr rfl) hk), relabel_name]
            simp [BEntry.relabel]
  | some al =>
    cases f2 with
    | none =>
      rw [h.first al rfl rfl]
      refine ⟨(fun e h _ => h), (fun e _ h _ => by cases h), (fun e _ h _ _ => by cases h), (fun h => by cases h), (fun e1 e2 _ h _ => by cases h),
        (fun e1 e2 _ h _ _ => by cases h), (fun e1 e2 e _ h _ _ => by cases h)⟩
    | some E =>
      have l1 : ∀ k, al.label = some k → T' (f k) = T k := fun k hk => hl al k (Or.inl rfl) hk
      have l2 : ∀ k, E.label = some k → T' (f k) = T k := fun k hk => hl E k (Or.inr rfl) hk
      refine ⟨(fun e _ h => by cases h), (fun e h _ _ => by cases h), (fun e h _ _ _ => by cases h), (fun h _ => by cases h), fun e1 e2 h3 h4 h5 => ?_,
        fun e1 e2 h3 h4 h5 h6 => ?_, fun e1 e2 e h3 h4 h5 h6 => ?_⟩
      · cases h3; cases h4
        rw [relabel_ign, relabel_ign] at h5 ⊢
        obtain ⟨a, b, c⟩ := h.excluded al E rfl rfl h5
        exact ⟨a, b, by rw [c]; rfl⟩
      · cases h3; cases h4
        rw [relabel_ign] at h5 h6
        obtain ⟨d, a, c1, c2, c3, c4⟩ := h.conflict al E rfl rfl h5 h6
        refine ⟨d, a, (decided_relabel l1 l2).2 c1, fun hkt => ?_, fun hr => ?_, c4⟩
        · obtain ⟨e, c5, c6⟩ := c2 hkt
          exact ⟨e.relabel f, by rw [c5]; rfl, head_relabel l1 l2 c6⟩
        · rw [c3 hr, mark_relabel]
      · cases h3; cases h4
        cases hr : r with
        | none => rw [hr] at h5; cases h5
        | some e0 =>
          rw [hr] at h5
          cases h5
          rw [relabel_isDir] at h6
          obtain ⟨c1, c2⟩ := h.alone al E e0 rfl rfl hr h6
          rw [relabel_isDir, relabel_isDir, relabel_contents, relabel_contents, relabel_contents]
          exact ⟨fun a b => by rw [c1 a b], fun a b => by rw [c2 a b]⟩

theorem relabel_tree (f : Nat → Nat) : ∀ (p : List Bytes) (l : List BEntry), treeAt (BEntry.relabelL f l) p = (treeAt l p).map (BEntry.relabel f)
  | [], l => by simp [treeAt]
  | [n], l => relabelL_find f l n
  | n :: m :: p, l => by
    have h := relabelL_find f l n
    unfold findChild at h
    simp only [treeAt, h]
    cases hf : l.find? (fun e => decide (e.name = n)) with
    | none => rfl
    | some e =>
      cases e with
      | dir x c =>
        simp only [Option.map_some, BEntry.relabel]
        exact relabel_tree f (m :: p) c
      | _ => simp [BEntry.relabel]
theorem relabel_dirAt (f : Nat → Nat) : ∀ (p : List Bytes) (l : List BEntry), dirAt (BEntry.relabelL f l) p = (dirAt l p).map (BEntry.relabelL f)
  | [], l => rfl
  | n :: p, l => by
    have h := relabelL_find f l n
    unfold dirAt
    rw [h]
    cases hf : findChild l n with
    | none => rfl
    | some e =>
      cases e with
      | dir x c =>
        simp only [Option.map_some, BEntry.relabel]
        exact relabel_dirAt f p c
      | _ => simp [BEntry.relabel]
theorem relabel_dirDate (f : Nat → Nat) (dt : DateT) (l : List BEntry) (p : List Bytes) : dirDate dt (BEntry.relabelL f l) p = dirDate dt l p := by
  unfold dirDate
  by_cases hp : p = []
  · rw [if_pos hp, if_pos hp]
  · rw [if_neg hp, if_neg hp, relabel_tree]
    cases treeAt l p with
    | none => rfl
    | some e => cases e <;> simp [BEntry.relabel]
theorem labelsL_child {l : List BEntry} {n : Bytes} {e : BEntry} (h : findChild l n = some e) {k : Nat} (hk : k ∈ e.labels) : k ∈ BEntry.labelsL l := by
  rw [mem_labelsL, links_find h]
  rw [mem_labels] at hk
  omega
theorem label_mem {e : BEntry} {k : Nat} (h : e.label = some k) : k ∈ e.labels := by
  cases e <;> first | (cases h; done) | (cases h; simp [BEntry.labels])
theorem labelsL_dirAt : ∀ {p : List Bytes} {l c : List BEntry}, dirAt l p = some c → ∀ k ∈ BEntry.labelsL c, k ∈ BEntry.labelsL l
  | [], l, c, h, k, hk => by cases h; exact hk
  | n :: p, l, c, h, k, hk => by
    unfold dirAt at h
    cases hf : findChild l n with
    | none => rw [hf] at h; cases h
    | some e =>
      rw [hf] at h
      cases e with
      | dir x c' =>
        have := labelsL_dirAt h k hk
        exact labelsL_child hf (by rw [BEntry.labels]; exact this)
      | _ => cases h
theorem labelsL_treeAt : ∀ {p : List Bytes} {l : List BEntry} {e : BEntry}, treeAt l p = some e → ∀ k ∈ e.labels, k ∈ BEntry.labelsL l
  | [], l, e, h, k, hk => by cases h
  | [n], l, e, h, k, hk => labelsL_child (n := n) h hk
  | n :: m :: p, l, e, h, k, hk => by
    simp only [treeAt] at h
    cases hf : findChild l n with
    | none => unfold findChild at hf; rw [hf] at h; cases h
    | some b =>
      have hf' := hf
      unfold findChild at hf
      rw [hf] at h
      cases b with
      | dir x c' =>
        have := labelsL_treeAt h k hk
        exact labelsL_child hf' (by rw [BEntry.labels]; exact this)
      | _ => cases h

theorem merged_relabel {f : Nat → Nat} {T T' : Nat → Obj} {dt : DateT} {l1 l2 r : List BEntry}
    (h1 : ∀ k ∈ BEntry.labelsL l1, T' (f k) = T k) (h2 : ∀ k ∈ BEntry.labelsL l2, T' (f k) = T k) (h : Merged o T T dt l1 l2 r) :
    Merged o T' T' dt (BEntry.relabelL f l1) (BEntry.relabelL f l2) (BEntry.relabelL f r) := by
  intro p c1 c2 c d g1 g2 g3 g4 n
  rw [relabel_dirAt] at g1 g2 g3
  rw [relabel_dirDate] at g4
  obtain ⟨d1, k1, rfl⟩ := Option.map_eq_some_iff.1 g1
  obtain ⟨d2, k2, rfl⟩ := Option.map_eq_some_iff.1 g2
  obtain ⟨d3, k3, rfl⟩ := Option.map_eq_some_iff.1 g3
  rw [relabelL_find, relabelL_find, relabelL_find]
  refine mergedAt_relabel ?_ (h p d1 d2 d3 d k1 k2 k3 g4 n)
  rintro e k (he | he) hk
  · exact h1 k (labelsL_dirAt k1 k (labelsL_child he (label_mem hk)))
  · exact h2 k (labelsL_dirAt k2 k (labelsL_child he (label_mem hk)))

/-! ### the two archives -/

/-- not a record of an ignored entry -/
def BEntry.notIgnored : BEntry → Prop
  | .ignored _ => False
  | .ignoredDir _ => False
  | _ => True

theorem notIgnored_of {e : BEntry} (h : match e with
    | .ignored _ => False
    | .ignoredDir _ => False
    | _ => True) : e.notIgnored := by cases e <;> exact h

mutual
theorem src_entry (e : BEntry) (hd : e.Distinct) (h : ∀ x c, e = .dir x c → ∀ p a, treeAt c p = some a → a.notIgnored)
    (h0 : e.notIgnored) : e.Src := by
  match e, hd, h, h0 with
  | .dir x c, hd, h, _ =>
    unfold BEntry.Src
    unfold BEntry.Distinct at hd
    exact src_list c hd (h x c rfl)
  | .node x, _, _, _ => unfold BEntry.Src; trivial
  | .mirage n k, _, _, _ => unfold BEntry.Src; trivial
  | .detruit n k d, _, _, _ => unfold BEntry.Src; trivial
  | .ignored n, _, _, h0 => exact h0.elim
  | .ignoredDir x, _, _, h0 => exact h0.elim
theorem src_list (l : List BEntry) (hd : BEntry.DistinctL l) (h : ∀ p a, treeAt l p = some a → a.notIgnored) : BEntry.SrcL l := by
  match l, hd, h with
  | [], _, _ => unfold BEntry.SrcL; trivial
  | e :: l, hd, h =>
    have hd' := hd
    unfold BEntry.DistinctL at hd'
    unfold BEntry.SrcL
    have hfe : findChild (e :: l) e.name = some e := by unfold findChild; simp [List.find?_cons]
    refine ⟨src_entry e hd'.1 ?_ (h [e.name] e hfe), src_list l hd'.2.2 ?_⟩
    · intro x c he p a hp
      have hq : p ≠ [] := by rintro rfl; cases hp
      refine h (e.name :: p) a ?_
      rw [treeAt_cons (x := x) (c := c) (by rw [hfe, he]) hq]
      exact hp
    · intro p a hp
      refine h p a ?_
      cases p with
      | nil => cases hp
      | cons n p =>
        have hne : findChild (e :: l) n = findChild l n := by
          by_cases hn : e.name = n
          · exfalso
            have hnone : findChild l n = none := (find_none_iff l n).2 (fun a ha => hn ▸ hd'.2.1 a ha)
            cases p with
            | nil => rw [treeAt_one, hnone] at hp; cases hp
            | cons m p =>
              unfold findChild at hnone
              simp only [treeAt, hnone] at hp
              cases hp
          · unfold findChild; simp [List.find?_cons, hn]
        cases p with
        | nil => exact hne.trans hp
        | cons m p =>
          unfold findChild at hne
          simp only [treeAt] at hp ⊢
          rw [hne]; exact hp
end

mutual
theorem select_clean (off : Nat) (f : Nat → Nat) (p : List Bytes) (e : BEntry) (h : e.Src) (hf : ∀ a ∈ e.select o p, ∀ k ∈ a.labels, f k < off) :
    ∀ a ∈ e.select o p, (a.relabel f).Clean o off p := by
  match e, h with
  | .dir x c, h =>
    intro a ha
    have hf' := hf a ha
    rw [BEntry.select] at ha
    by_cases h1 : o.subtree (p ++ [x.name]) = true
    · rw [if_pos h1] at ha
      cases List.mem_singleton.1 ha
      rw [BEntry.relabel]
      unfold BEntry.Clean
      unfold BEntry.Src at h
      exact ⟨h1, selectL_clean off f _ c h (fun k hk => hf' k (by rw [BEntry.labels]; exact hk))⟩
    · rw [if_neg h1] at ha
      by_cases h2 : o.emptyDir = true
      · rw [if_pos h2] at ha
        cases List.mem_singleton.1 ha
        rw [BEntry.relabel]
        unfold BEntry.Clean
        simpa using h1
      · rw [if_neg h2] at ha; cases ha
  | .node x, _ =>
    intro a ha
    simp only [BEntry.select] at ha
    split at ha <;> simp at ha
    rename_i hc
    subst ha
    rw [BEntry.relabel]
    unfold BEntry.Clean
    simp only [Bool.and_eq_true] at hc
    exact hc.1
  | .mirage n k, _ =>
    intro a ha
    have hf' := hf a ha
    simp only [BEntry.select] at ha
    split at ha <;> simp at ha
    rename_i hc
    subst ha
    rw [BEntry.relabel]
    unfold BEntry.Clean
    simp only [Bool.and_eq_true] at hc
    exact ⟨hc.1, hf' k (by simp [BEntry.labels])⟩
  | .detruit n k d, _ =>
    intro a ha
    simp only [BEntry.select] at ha
    split at ha <;> simp at ha
    rename_i hc
    subst ha
    rw [BEntry.relabel]
    unfold BEntry.Clean
    simp only [Bool.and_eq_true] at hc
    exact hc.1
  | .ignored n, h => unfold BEntry.Src at h; exact h.elim
  | .ignoredDir x, h => unfold BEntry.Src at h; exact h.elim
theorem selectL_clean (off : Nat) (f : Nat → Nat) (p : List Bytes) (l : List BEntry) (h : BEntry.SrcL l) (hf : ∀ k ∈ BEntry.labelsL (BEntry.selectL o p l), f k < off) :
    BEntry.CleanL o off p (BEntry.relabelL f (BEntry.selectL o p l)) := by
  match l, h with
  | [], _ => rw [BEntry.selectL, BEntry.relabelL]; unfold BEntry.CleanL; trivial
  | e :: l, h =>
    unfold BEntry.SrcL at h
    have happ : ∀ (a b : List BEntry), BEntry.labelsL (a ++ b) = BEntry.labelsL a ++ BEntry.labelsL b := by
      intro a b
      induction a with
      | nil => simp [BEntry.labelsL]
      | cons c a ih => simp only [List.cons_append, BEntry.labelsL, ih, List.append_assoc]
    rw [BEntry.selectL, happ] at hf
    have h1 := select_clean off f p e h.1 (fun a ha k hk => hf k (List.mem_append.2 (Or.inl (by
      rcases select_short o p e with hs | ⟨b, hs⟩
      · rw [hs] at ha; cases ha
      · rw [hs] at ha ⊢
        cases List.mem_singleton.1 ha
        rw [BEntry.labelsL]
        exact List.mem_append.2 (Or.inl hk)))))
    have h2 := selectL_clean off f p l h.2 (fun k hk => hf k (List.mem_append.2 (Or.inr hk)))
    rw [BEntry.selectL]
    rcases select_short o p e with hs | ⟨b, hs⟩
    · rw [hs]; exact h2
    · rw [hs] at h1 ⊢
      show BEntry.CleanL o off p (BEntry.relabelL f (b :: BEntry.selectL o p l))
      rw [BEntry.relabelL]
      unfold BEntry.CleanL
      exact ⟨h1 b (by simp), h2⟩
end

theorem label_isHardLink (e : BEntry) : e.label ≠ none ↔ e.isHardLink = true := by cases e <;> simp [BEntry.label, BEntry.isHardLink]

/-- the state after the first archive -/
structure FirstDone (o : MgOpts) (t1 : Nat → Obj) (l1 : List BEntry) (s : MgSt) (ρ : Nat → Nat) : Prop where
  inj : ∀ i j, ρ i = ρ j → i = j
  at_ : s.at_ = ⟨[], BEntry.relabelL ρ (BEntry.selectL o [] l1)⟩
  stars : ∀ j ∈ BEntry.labelsL (BEntry.selectL o [] l1), s.stars (ρ j) = t1 j
  nodup : s.known.Nodup
  known : ∀ j, j ∈ s.known ↔ j ∈ BEntry.labelsL s.at_.cur
  less : ∀ j, j ∈ s.known → j < s.known.length

theorem first_loop (d1 : DateT) (r1 : BCat) (hd : BEntry.DistinctL r1.root) :
    ∃ s0, mergeLoop o false r1.stars 0 ⟨⟨[], []⟩, fun _ => r1.stars 0, [], [d1], 0⟩ (BEntry.eventsList r1.root) = .ok s0 ∧
      s0.at_ = ⟨[], BEntry.selectL o [] r1.root⟩ ∧ MInv r1.stars none s0 := by
  obtain ⟨s0, a1, a2, a3, a4⟩ := fresh_list (o := o) (T := r1.stars) (rs := r1.stars) (off := 0) (fun k => rfl) (b := false) rfl r1.root hd ⟨⟨[], []⟩, fun _ => r1.stars 0, [], [d1], 0⟩
    ⟨rfl, List.nodup_nil, fun j => by simp [Cursor.links, BEntry.linksL], (fun j hj => by cases hj)⟩ (fun e _ => rfl)
  refine ⟨s0, a1, ?_, a4⟩
  rw [a2]
  show (⟨[], [] ++ BEntry.selectL o [] (BEntry.relabelL (· + 0) r1.root)⟩ : Cursor) = _
  have : BEntry.relabelL (· + 0) r1.root = r1.root := relabelL_id r1.root
  rw [this]; rfl

theorem first_done (d1 : DateT) (r1 : BCat) (hd : BEntry.DistinctL r1.root) {s : MgSt}
    (h : mergePass o false d1 ⟨⟨[], []⟩, fun _ => r1.stars 0, [], [], 0⟩ r1 = .ok s) : ∃ ρ, FirstDone o r1.stars r1.root s ρ := by
  unfold mergePass at h
  obtain ⟨s0, h1, h2⟩ := bind_ok h
  obtain ⟨s0', a1, a2, a3⟩ := first_loop (o := o) d1 r1 hd
  have : s0 = s0' := by
    have h1' : mergeLoop o false r1.stars 0 ⟨⟨[], []⟩, fun _ => r1.stars 0, [], [d1], 0⟩ (BEntry.eventsList r1.root) = .ok s0 := h1
    rw [a1] at h1'
    cases h1'; rfl
  subst this
  obtain ⟨ρ, σ, b1, b1', b2, b3, b4, b5, b6⟩ := normalize_spec a3 (by rw [a2]) h2
  refine ⟨ρ, fun i j hij => ?_, by rw [b2, a2], ?_, b4, b5, b6⟩
  · rw [← b1 i, ← b1 j, hij]
  · rw [a2] at b3; exact b3

/-- the inodes of both archives -/
def bothStars (s1 : MgSt) (t2 : Nat → Obj) (j : Nat) : Obj := if j < s1.known.length then s1.stars j else t2 (j - s1.known.length)

theorem second_start {t1 t2 : Nat → Obj} {l1 l2 : List BEntry} {s1 : MgSt} {ρ : Nat → Nat} (hs : FirstDone o t1 l1 s1 ρ) (d2 : DateT) :
    (∀ k, bothStars s1 t2 (k + s1.known.length) = t2 k) ∧ MInv (bothStars s1 t2) none { s1 with dates := [d2], skip := 0 } ∧
    (∀ k ∈ BEntry.labelsL (BEntry.selectL o [] l1), bothStars s1 t2 (ρ k) = t1 k ∧ ρ k < s1.known.length) ∧
    (LinksWhole o t1 t2 (BEntry.selectL o [] l1) (BEntry.selectL o [] l2) → PairE o (bothStars s1 t2) [] s1.at_.cur (BEntry.selectL o [] (BEntry.relabelL (· + s1.known.length) l2))) := by
  have hT : ∀ k, bothStars s1 t2 (k + s1.known.length) = t2 k := by
    intro k
    unfold bothStars
    rw [if_neg (by omega), Nat.add_sub_cancel]
  have hlab : ∀ k ∈ BEntry.labelsL (BEntry.selectL o [] l1), bothStars s1 t2 (ρ k) = t1 k ∧ ρ k < s1.known.length := by
    intro k hk
    have hk2 : ρ k ∈ s1.known := by
      rw [hs.known, hs.at_]
      show ρ k ∈ BEntry.labelsL (BEntry.relabelL ρ (BEntry.selectL o [] l1))
      rw [relabelL_labels]
      exact List.mem_map.2 ⟨k, hk, rfl⟩
    refine ⟨?_, hs.less _ hk2⟩
    unfold bothStars
    rw [if_pos (hs.less _ hk2)]
    exact hs.stars k hk
  refine ⟨hT, ⟨rfl, hs.nodup, fun j => ?_, fun j hj => ?_⟩, hlab, fun hl q a b ha hb hab => ?_⟩
  · show j ∈ s1.known ↔ 0 < Cursor.links j s1.at_ ∨ _
    have : s1.at_ = ⟨[], s1.at_.cur⟩ := by rw [hs.at_]
    rw [this, at_links, hs.known]
    simp
  · show s1.stars j = _
    unfold bothStars
    rw [if_pos (hs.less j hj)]
  · rw [hs.at_] at ha
    rw [relabelL_select] at hb
    change treeAt (BEntry.relabelL ρ (BEntry.selectL o [] l1)) q = some a at ha
    rw [relabel_tree] at ha hb
    obtain ⟨a0, ga, rfl⟩ := Option.map_eq_some_iff.1 ha
    obtain ⟨b0, gb, rfl⟩ := Option.map_eq_some_iff.1 hb
    have la : ∀ k, a0.label = some k → bothStars s1 t2 (ρ k) = t1 k := fun k hk => (hlab k (labelsL_treeAt ga k (label_mem hk))).1
    have lb : ∀ k, b0.label = some k → bothStars s1 t2 (k + s1.known.length) = t2 k := fun k _ => hT k
    have h0 : a0.isHardLink = true ∨ b0.isHardLink = true := by
      rw [relabel_label, relabel_label] at hab
      rcases hab with hab | hab
      · exact Or.inl ((label_isHardLink _).1 (fun hc => hab (by rw [hc]; rfl)))
      · exact Or.inr ((label_isHardLink _).1 (fun hc => hab (by rw [hc]; rfl)))
    obtain ⟨w1, w2⟩ := hl q a0 b0 ga gb h0
    refine ⟨fun d e hde => w1 d e ((decided_relabel la lb).1 hde), fun k hk => ?_⟩
    rw [relabel_label] at hk
    obtain ⟨k0, hk0, rfl⟩ := Option.map_eq_some_iff.1 hk
    rw [lb k0 hk0]
    cases b0 <;> first | (cases hk0; done) | skip
    cases hk0
    have := w2 rfl _ rfl
    exact this

theorem decided_keeps (hdec : o.decremental = true → ∀ x y d a, o.policy.get o.capa x y = .ok (d, a) → KeepsOld d) (hd : o.decremental = true)
    (t : Nat → Obj) (P : List Bytes) (e1 e2 : BEntry) (d : OverData) (a : OverEa) (h : Decided o t t P e1 e2 d a) : KeepsOld d := by
  obtain ⟨d0, a0, ⟨f1, f2, h1⟩, h2, _⟩ := h
  have hk := hdec hd _ _ _ _ h1
  rw [h2]
  unfold answered
  dsimp only
  rw [if_neg hk.not_ask]
  split
  · exact Or.inl rfl
  · exact hk

theorem merge_spec {d1 d2 : DateT} {r1 r2 r : BCat} (h1 : FromArchive r1.root) (h2 : FromArchive r2.root) (hw : o.warn = true → ∀ p, o.acceptEa p = true)
    (hdec : o.decremental = true → ∀ x y d a, o.policy.get o.capa x y = .ok (d, a) → KeepsOld d)
    (hl : LinksWhole o r1.stars r2.stars (BEntry.selectL o [] r1.root) (BEntry.selectL o [] r2.root)) (h : merge o d1 d2 r1 r2 = .ok r) :
    ∃ (f1 f2 : Nat → Nat) (T : Nat → Obj), (∀ i j, f1 i = f1 j → i = j) ∧ (∀ i j, f2 i = f2 j → i = j) ∧
      (∀ k ∈ BEntry.labelsL (BEntry.selectL o [] r1.root), T (f1 k) = r1.stars k ∧ ∀ j, f1 k ≠ f2 j) ∧ (∀ k, T (f2 k) = r2.stars k) ∧
      (∀ k ∈ BEntry.labelsL r.root, r.stars k = T k) ∧
      BEntry.DistinctL r.root ∧ Merged o T T d2 (BEntry.relabelL f1 (BEntry.selectL o [] r1.root)) (BEntry.relabelL f2 (BEntry.selectL o [] r2.root)) r.root := by
  unfold merge at h
  obtain ⟨s1, g1, g2⟩ := bind_ok h
  obtain ⟨s3, g3, g4⟩ := bind_ok g2
  obtain ⟨ρ, hs⟩ := first_done d1 r1 h1.distinct g1
  unfold mergePass at g3
  obtain ⟨s2, g5, g6⟩ := bind_ok g3
  change mergeLoop o true r2.stars s1.known.length { s1 with dates := [d2], skip := 0 } (BEntry.eventsList r2.root) = .ok s2 at g5
  obtain ⟨hT, hinv, hlab, hpair⟩ := second_start (t2 := r2.stars) (l2 := r2.root) hs d2
  have hat0 : ({ s1 with dates := [d2], skip := 0 } : MgSt).at_ = ⟨[], BEntry.relabelL ρ (BEntry.selectL o [] r1.root)⟩ := hs.at_
  have hpath : ({ s1 with dates := [d2], skip := 0 } : MgSt).at_.path = [] := by rw [hat0]; rfl
  have hcur : ({ s1 with dates := [d2], skip := 0 } : MgSt).at_.cur = BEntry.relabelL ρ (BEntry.selectL o [] r1.root) := by rw [hat0]
  have hclean := selectL_clean (o := o) s1.known.length ρ [] r1.root (src_list _ h1.distinct (fun p a hp => notIgnored_of (h1.entries p a hp))) (fun k hk => (hlab k hk).2)
  obtain ⟨b1, b2⟩ := second_list hT hw (decided_keeps hdec) r2.root h2.distinct (src_list _ h2.distinct (fun p a hp => notIgnored_of (h2.entries p a hp))) _ s2 d2 [] rfl hinv
    (by rw [hcur]; exact relabelL_distinct _ _ (selectL_distinct o _ _ h1.distinct))
    (fun e he al hf => by rw [hpath]; rw [hcur] at hf; exact cleanL_find hclean hf)
    (by rw [hpath]; exact hpair hl) g5
  rw [hpath, hcur] at b2
  have hm := mergedP_of b2
  have hfr : s2.at_.frames = [] := by rw [b1.frames, hat0]
  obtain ⟨ρ', σ', c1, c1', c2, c3, c4, c5, c6⟩ := normalize_spec b1.inv hfr g6
  cases g4
  refine ⟨fun k => ρ' (ρ k), fun k => ρ' (k + s1.known.length), fun j => bothStars s1 r2.stars (σ' j), fun i j hij => ?_, fun i j hij => ?_, fun k hk => ⟨?_, fun j hj => ?_⟩, fun k => ?_, fun k hk => ?_, ?_, ?_⟩
  · change ρ' (ρ i) = ρ' (ρ j) at hij
    have : ρ i = ρ j := by rw [← c1 (ρ i), ← c1 (ρ j), hij]
    exact hs.inj i j this
  · change ρ' (i + s1.known.length) = ρ' (j + s1.known.length) at hij
    have : i + s1.known.length = j + s1.known.length := by rw [← c1 (i + _), ← c1 (j + _), hij]
    omega
  · show bothStars s1 r2.stars (σ' (ρ' (ρ k))) = _
    rw [c1]
    exact (hlab k hk).1
  · change ρ' (ρ k) = ρ' (j + s1.known.length) at hj
    have : ρ k = j + s1.known.length := by rw [← c1 (ρ k), hj, c1]
    have := (hlab k hk).2
    omega
  · show bothStars s1 r2.stars (σ' (ρ' (k + s1.known.length))) = _
    rw [c1]
    exact hT k
  · change k ∈ BEntry.labelsL s3.at_.cur at hk
    rw [c2] at hk
    change k ∈ BEntry.labelsL (BEntry.relabelL ρ' s2.at_.cur) at hk
    rw [relabelL_labels] at hk
    obtain ⟨i, hi, rfl⟩ := List.mem_map.1 hk
    show s3.stars (ρ' i) = bothStars s1 r2.stars (σ' (ρ' i))
    rw [c1]
    exact c3 i hi
  · show BEntry.DistinctL s3.at_.cur
    rw [c2]
    exact relabelL_distinct _ _ b1.distinct
  · have hmm : Merged o (bothStars s1 r2.stars) (bothStars s1 r2.stars) d2 (BEntry.relabelL ρ (BEntry.selectL o [] r1.root))
        (BEntry.selectL o [] (BEntry.relabelL (· + s1.known.length) r2.root)) s2.at_.cur := by
      intro p a b c d k1 k2 k3 k4 n
      exact hm p a b c d k1 k2 k3 k4 n
    have := merged_relabel (f := ρ') (T' := fun j => bothStars s1 r2.stars (σ' j)) (fun k _ => by rw [c1]) (fun k _ => by rw [c1]) hmm
    rw [relabelL_comp, relabelL_select, relabelL_comp] at this
    show Merged o _ _ d2 _ _ s3.at_.cur
    rw [c2]
    exact this
end

end Dar
