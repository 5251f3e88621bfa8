import Verif.Lemmas.Absent
import Verif.Props.Destroyed
/- C34, interrupted backups: what was not reached is recorded as unchanged. -/
namespace Dar

theorem unsaved_copy (x : Obj) : x.unsaved = { x with ino := { x.ino with status := .notSaved, eaStatus := x.unsaved.ino.eaStatus } } ∧
    (x.unsaved.ino.eaStatus = .none ∨ x.unsaved.ino.eaStatus = .part) := by
  refine ⟨rfl, ?_⟩
  unfold Obj.unsaved
  dsimp only
  cases x.ino.eaStatus <;> simp

structure AbsOk (rstars : Nat → Obj) (refl cur cur' : List BEntry) (s s' : ACore) : Prop where
  kept : ∀ p e, treeAt cur p = some e → ∃ e', treeAt cur' p = some e' ∧ SameHead e e'
  added : ∀ p e', treeAt cur p = none → treeAt cur' p = some e' →
    ∃ g, treeAt refl p = some g ∧ g.isDet = false ∧ Unblocked cur p ∧ UnsavedCopy s'.lookup g e'
  all : ∀ p g, treeAt refl p = some g → g.isDet = false → Unblocked cur p → ∃ e', treeAt cur' p = some e'
  grow : ∀ k j, s.lookup k = some j → s'.lookup k = some j
  next : s.next ≤ s'.next
  stars : ∀ j, j < s.next → s'.stars j = s.stars j
  labels : ∀ k j, s'.lookup k = some j → s.lookup k = some j ∨ (s.next ≤ j ∧ j < s'.next ∧ s'.stars j = (rstars k).unsaved) ∨
    (∃ q n m, treeAt refl q = some (.mirage n k) ∧ treeAt cur q = some (.mirage m j))

theorem UnsavedCopy.grow {a b : Nat → Option Nat} (h : ∀ k j, a k = some j → b k = some j) {g e' : BEntry} (hc : UnsavedCopy a g e') : UnsavedCopy b g e' := by
  cases g with
  | mirage n k => obtain ⟨j, h1, h2⟩ := hc; exact ⟨j, h k j h1, h2⟩
  | _ => exact hc
theorem UnsavedCopy.same {a : Nat → Option Nat} {g e e' : BEntry} (hc : UnsavedCopy a g e) (hs : SameHead e e') : UnsavedCopy a g e' := by
  cases g with
  | node x => obtain ⟨y, rfl, h2⟩ := hc; cases hs; exact ⟨y, rfl, h2⟩
  | dir x c => obtain ⟨y, c1, rfl, h2⟩ := hc; obtain ⟨c2, rfl⟩ := hs; exact ⟨y, c2, rfl, h2⟩
  | mirage n k => obtain ⟨j, h1, rfl⟩ := hc; cases hs; exact ⟨j, h1, rfl⟩
  | ignoredDir x => cases hc; exact hs
  | _ => exact hc.elim

theorem treeAt_head {l : List BEntry} {n : Bytes} {p : List Bytes} {e : BEntry} (h : treeAt l (n :: p) = some e) : ∃ a ∈ l, a.name = n := by
  have : ∃ a, findChild l n = some a := by
    cases p with
    | nil => exact ⟨e, h⟩
    | cons m p =>
      rw [treeAt_more, subOf] at h
      cases hf : findChild l n with
      | none => rw [hf] at h; cases h
      | some a => exact ⟨a, rfl⟩
  obtain ⟨a, ha⟩ := this
  exact ⟨a, List.mem_of_find?_eq_some ha, findChild_name ha⟩
theorem treeAt_cons_ne {l : List BEntry} {a : BEntry} {n : Bytes} (h : a.name ≠ n) (p : List Bytes) : treeAt (a :: l) (n :: p) = treeAt l (n :: p) := by
  apply treeAt_congr
  unfold findChild
  simp [List.find?_cons, h]
theorem treeAt_cons_eq {l : List BEntry} {a : BEntry} {n : Bytes} (h : a.name = n) (p : List Bytes) : treeAt (a :: l) (n :: p) = treeAt [a] (n :: p) := by
  apply treeAt_congr
  unfold findChild
  simp [List.find?_cons, h]
theorem treeAt_nil_none (p : List Bytes) : treeAt [] p = none := by
  cases p with
  | nil => rfl
  | cons n p => cases p with
    | nil => rfl
    | cons m p => rw [treeAt_more]; rfl

theorem absOk_nil (rstars : Nat → Obj) (cur : List BEntry) (s : ACore) : AbsOk rstars [] cur cur s s :=
  ⟨fun p e h => ⟨e, h, SameHead.refl e⟩, fun p e' h h' => by (rw [h] at h'; cases h'), fun p g h => by (rw [treeAt_nil_none] at h; cases h),
    fun _ _ h => h, Nat.le_refl _, fun _ _ => rfl, fun _ _ h => Or.inl h⟩

theorem AbsOk.cons {rstars : Nat → Obj} {e : BEntry} {l cur cur1 cur2 : List BEntry} {s s1 s2 : ACore} (hdis : ∀ a ∈ l, a.name ≠ e.name)
    (h1 : AbsOk rstars [e] cur cur1 s s1) (h2 : AbsOk rstars l cur1 cur2 s1 s2) : AbsOk rstars (e :: l) cur cur2 s s2 := by
  -- what is found in the tail is not under the name of the head
  have htail : ∀ p g, treeAt l p = some g → treeAt (e :: l) p = some g := by
    intro p g h
    cases p with
    | nil => simp [treeAt] at h
    | cons n p =>
      obtain ⟨a, ha, hn⟩ := treeAt_head h
      rw [treeAt_cons_ne (by rw [← hn]; exact (hdis a ha).symm)]; exact h
  have hhead : ∀ p g, treeAt [e] p = some g → treeAt (e :: l) p = some g := by
    intro p g h
    cases p with
    | nil => simp [treeAt] at h
    | cons n p =>
      obtain ⟨a, ha, hn⟩ := treeAt_head h
      rw [treeAt_cons_eq (by rw [← hn, List.mem_singleton.1 ha])]; exact h
  -- the head changes nothing elsewhere
  have helse : ∀ q g, (∃ n r, q = n :: r ∧ n ≠ e.name) → treeAt cur1 q = some g → ∃ g0, treeAt cur q = some g0 ∧ SameHead g0 g := by
    rintro q g ⟨n, r, rfl, hn⟩ h
    cases h0 : treeAt cur (n :: r) with
    | none =>
      obtain ⟨g1, hg1, -⟩ := h1.added _ _ h0 h
      obtain ⟨a, ha, han⟩ := treeAt_head hg1
      rw [List.mem_singleton.1 ha] at han
      exact absurd han.symm hn
    | some g0 =>
      obtain ⟨g', hg', hs⟩ := h1.kept _ _ h0
      rw [h] at hg'
      cases hg'
      exact ⟨g0, rfl, hs⟩
  have hub : ∀ p, Unblocked cur1 p → Unblocked cur p := by
    intro p h q g hq hne hg
    obtain ⟨g', hg', hs⟩ := h1.kept q g hg
    have := h q g' hq hne hg'
    cases g <;> first | rfl | (cases hs; exact this)
  refine ⟨fun p a h => ?_, fun p e' h h' => ?_, fun p g hg hd hu => ?_, fun k j h => h2.grow _ _ (h1.grow _ _ h), h1.next.trans h2.next, fun j hj => ?_, fun k j h => ?_⟩
  · obtain ⟨a1, ha1, hs1⟩ := h1.kept p a h
    obtain ⟨a2, ha2, hs2⟩ := h2.kept p a1 ha1
    exact ⟨a2, ha2, hs1.trans hs2⟩
  · cases ht : treeAt cur1 p with
    | none =>
      obtain ⟨g, hg, hd, hu, hc⟩ := h2.added p e' ht h'
      exact ⟨g, htail p g hg, hd, hub p hu, hc⟩
    | some e1 =>
      obtain ⟨g, hg, hd, hu, hc⟩ := h1.added p e1 h ht
      obtain ⟨e2, he2, hs⟩ := h2.kept p _ ht
      rw [he2] at h'
      cases h'
      exact ⟨g, hhead p g hg, hd, hu, (hc.grow h2.grow).same hs⟩
  · cases p with
    | nil => simp [treeAt] at hg
    | cons n p =>
      by_cases hn : e.name = n
      · rw [treeAt_cons_eq hn] at hg
        obtain ⟨e', he'⟩ := h1.all _ g hg hd hu
        obtain ⟨e2, he2, -⟩ := h2.kept _ _ he'
        exact ⟨e2, he2⟩
      · rw [treeAt_cons_ne hn] at hg
        refine h2.all _ g hg hd (fun q a hq hne ha => ?_)
        cases q with
        | nil => simp [treeAt] at ha
        | cons m q =>
          obtain ⟨rfl, -⟩ := List.cons_prefix_cons.1 hq
          obtain ⟨g0, hg0, hs⟩ := helse _ _ ⟨m, q, rfl, Ne.symm hn⟩ ha
          have := hu _ g0 hq hne hg0
          cases g0 with
          | dir x c => obtain ⟨c2, rfl⟩ := hs; rfl
          | _ => cases this
  · rw [h2.stars j (Nat.lt_of_lt_of_le hj h1.next), h1.stars j hj]
  · rcases h2.labels k j h with h | ⟨ha, hb, hc⟩ | ⟨q, n, m, hq, hm⟩
    · rcases h1.labels k j h with h | ⟨ha, hb, hc⟩ | ⟨q, n, m, hq, hm⟩
      · exact Or.inl h
      · exact Or.inr (Or.inl ⟨ha, Nat.lt_of_lt_of_le hb h2.next, by rw [h2.stars j hb]; exact hc⟩)
      · exact Or.inr (Or.inr ⟨q, n, m, hhead _ _ hq, hm⟩)
    · exact Or.inr (Or.inl ⟨Nat.le_trans h1.next ha, hb, hc⟩)
    · refine Or.inr (Or.inr ⟨q, n, m, htail _ _ hq, ?_⟩)
      cases q with
      | nil => simp [treeAt] at hq
      | cons a q =>
        obtain ⟨b, hb, hbn⟩ := treeAt_head hq
        obtain ⟨g0, hg0, hs⟩ := helse _ _ ⟨a, q, rfl, by rw [← hbn]; exact hdis b hb⟩ hm
        cases g0 with
        | mirage => cases hs; exact hg0
        | dir => obtain ⟨c, hc⟩ := hs; cases hc
        | _ => cases hs

/-- paths below a single entry that is not a directory -/
theorem treeAt_leaf {e g : BEntry} (he : e.isDir = false) {p : List Bytes} (h : treeAt [e] p = some g) : p = [e.name] ∧ g = e := by
  cases p with
  | nil => simp [treeAt] at h
  | cons n p =>
    obtain ⟨a, ha, hn⟩ := treeAt_head h
    rw [List.mem_singleton.1 ha] at hn
    have hf : findChild [e] n = some e := by simp [findChild, List.find?_cons, hn]
    cases p with
    | nil => rw [treeAt_one, hf] at h; cases h; exact ⟨by rw [hn], rfl⟩
    | cons m p =>
      rw [treeAt_more, subOf, hf] at h
      cases e <;> first | cases h | cases he

/-- nothing is added -/
theorem absOk_same (rstars : Nat → Obj) (e : BEntry) (cur : List BEntry) (s s' : ACore)
    (hall : ∀ p g, treeAt [e] p = some g → g.isDet = false → Unblocked cur p → ∃ e', treeAt cur p = some e')
    (hg : ∀ k j, s.lookup k = some j → s'.lookup k = some j) (hn : s'.next = s.next) (hst : s'.stars = s.stars)
    (hl : ∀ k j, s'.lookup k = some j → s.lookup k = some j ∨ (∃ q n m, treeAt [e] q = some (.mirage n k) ∧ treeAt cur q = some (.mirage m j))) :
    AbsOk rstars [e] cur cur s s' :=
  ⟨fun p e h => ⟨e, h, SameHead.refl e⟩, fun p e' h h' => by (rw [h] at h'; cases h'), hall, hg, Nat.le_of_eq hn.symm, fun j _ => by rw [hst],
    fun k j h => (hl k j h).elim Or.inl (fun h => Or.inr (Or.inr h))⟩

/-- an entry is added -/
theorem absOk_new (rstars : Nat → Obj) (e e' : BEntry) (cur : List BEntry) (s s' : ACore) (h : findChild cur e.name = none) (hn : e'.name = e.name)
    (hnd : e.isDir = false) (hd : e.isDet = false) (hd' : e'.isDir = false) (hc : UnsavedCopy s'.lookup e e')
    (hg : ∀ k j, s.lookup k = some j → s'.lookup k = some j) (hnx : s.next ≤ s'.next) (hst : ∀ j, j < s.next → s'.stars j = s.stars j)
    (hl : ∀ k j, s'.lookup k = some j → s.lookup k = some j ∨ (s.next ≤ j ∧ j < s'.next ∧ s'.stars j = (rstars k).unsaved)) :
    AbsOk rstars [e] cur (cur ++ [e']) s s' := by
  have hfa : ∀ m, findChild (cur ++ [e']) m = if m = e.name then some e' else findChild cur m := by
    rw [← hn]; exact find_add cur e' (by rw [hn]; exact h)
  have hne : ∀ m p, m ≠ e.name → treeAt (cur ++ [e']) (m :: p) = treeAt cur (m :: p) := fun m p hm =>
    treeAt_congr (by rw [hfa, if_neg hm]) p
  have h0 : findChild [e] e.name = some e := by simp [findChild]
  refine ⟨fun p a ha => ?_, fun p a h0 h' => ?_, fun p g hg hgd hu => ?_, hg, hnx, hst, fun k j h => (hl k j h).elim Or.inl (fun h => Or.inr (Or.inl h))⟩
  · cases p with
    | nil => simp [treeAt] at ha
    | cons m p =>
      by_cases hm : m = e.name
      · subst hm
        cases p with
        | nil => rw [treeAt_one, h] at ha; cases ha
        | cons k p => rw [treeAt_more, subOf, h] at ha; cases ha
      · exact ⟨a, by rw [hne m p hm]; exact ha, SameHead.refl a⟩
  · cases p with
    | nil => simp [treeAt] at h'
    | cons m p =>
      by_cases hm : m = e.name
      · cases p with
        | nil =>
          rw [treeAt_one, hfa, if_pos hm] at h'
          cases h'
          refine ⟨e, by rw [hm, treeAt_one]; simp [findChild], hd, fun q b hq hneq hb => ?_, hc⟩
          cases q with
          | nil => simp [treeAt] at hb
          | cons a q =>
            obtain ⟨rfl, hq2⟩ := List.cons_prefix_cons.1 hq
            rw [List.prefix_nil.1 hq2] at hneq
            exact absurd rfl hneq
        | cons k p =>
          rw [treeAt_more, subOf, hfa, if_pos hm] at h'
          cases e' <;> first | cases h' | cases hd'
      · rw [hne m p hm, h0] at h'; cases h'
  · obtain ⟨rfl, rfl⟩ := treeAt_leaf hnd hg
    exact ⟨e', by rw [treeAt_one, hfa, if_pos rfl]⟩

/-- a directory, present or not -/
theorem absOk_dir (rstars : Nat → Obj) (x y : Obj) (ch c c' : List BEntry) (cur cur' : List BEntry) (s s' : ACore) (hn : y.name = x.name)
    (hold : findChild cur x.name = some (.dir y c) ∨ (findChild cur x.name = none ∧ y = x.unsaved ∧ c = []))
    (hnew : ∀ m, findChild cur' m = if m = x.name then some (.dir y c') else findChild cur m)
    (hi : AbsOk rstars ch c c' s s') : AbsOk rstars [.dir x ch] cur cur' s s' := by
  have hne : ∀ m p, m ≠ x.name → treeAt cur' (m :: p) = treeAt cur (m :: p) := fun m p hm => treeAt_congr (by rw [hnew, if_neg hm]) p
  have hd : findChild [BEntry.dir x ch] x.name = some (.dir x ch) := by simp [findChild, BEntry.name]
  -- what is below in the old and new trees
  have hsub : ∀ k p, treeAt cur (x.name :: k :: p) = treeAt c (k :: p) := by
    intro k p
    rw [treeAt_more, subOf]
    rcases hold with h | ⟨h, -, rfl⟩
    · rw [h]; rfl
    · rw [h, treeAt_nil_none]; rfl
  have hsub' : ∀ k p, treeAt cur' (x.name :: k :: p) = treeAt c' (k :: p) := by
    intro k p
    rw [treeAt_more, subOf, hnew, if_pos rfl]; rfl
  have hsubr : ∀ k p, treeAt [BEntry.dir x ch] (x.name :: k :: p) = treeAt ch (k :: p) := by
    intro k p
    rw [treeAt_more, subOf, hd]; rfl
  have hubl : ∀ p, Unblocked c p → Unblocked cur (x.name :: p) := by
    intro p hu q a hq hqne ha
    cases q with
    | nil => simp [treeAt] at ha
    | cons m q =>
      obtain ⟨rfl, hq2⟩ := List.cons_prefix_cons.1 hq
      cases q with
      | nil =>
        rw [treeAt_one] at ha
        rcases hold with h | ⟨h, -, -⟩
        · rw [h] at ha; cases ha; rfl
        · rw [h] at ha; cases ha
      | cons k q =>
        rw [hsub] at ha
        exact hu _ a hq2 (fun h => hqne (by rw [h])) ha
  refine ⟨fun p a ha => ?_, fun p e' h0 h' => ?_, fun p g hg hgd hu => ?_, hi.grow, hi.next, hi.stars, fun k j h => ?_⟩
  · cases p with
    | nil => simp [treeAt] at ha
    | cons m p =>
      by_cases hm : m = x.name
      · subst hm
        cases p with
        | nil =>
          rw [treeAt_one] at ha
          rcases hold with h | ⟨h, -, -⟩
          · rw [h] at ha
            cases ha
            exact ⟨_, by rw [treeAt_one, hnew, if_pos rfl], ⟨_, rfl⟩⟩
          · rw [h] at ha; cases ha
        | cons k p =>
          rw [hsub] at ha
          rw [hsub']
          exact hi.kept _ a ha
      · exact ⟨a, by rw [hne m p hm]; exact ha, SameHead.refl a⟩
  · cases p with
    | nil => simp [treeAt] at h'
    | cons m p =>
      by_cases hm : m = x.name
      · subst hm
        cases p with
        | nil =>
          rw [treeAt_one] at h0
          rcases hold with h | ⟨h, rfl, -⟩
          · rw [h] at h0; cases h0
          · rw [treeAt_one, hnew, if_pos rfl] at h'
            cases h'
            refine ⟨.dir x ch, by rw [treeAt_one]; exact hd, rfl, ?_, ⟨_, _, rfl, unsaved_copy x⟩⟩
            intro q a hq hqne ha
            cases q with
            | nil => simp [treeAt] at ha
            | cons b q =>
              obtain ⟨rfl, hq2⟩ := List.cons_prefix_cons.1 hq
              rw [List.prefix_nil.1 hq2] at hqne
              exact absurd rfl hqne
        | cons k p =>
          rw [hsub] at h0
          rw [hsub'] at h'
          obtain ⟨g, hg, hgd, hu, hc⟩ := hi.added _ e' h0 h'
          exact ⟨g, by rw [hsubr]; exact hg, hgd, hubl _ hu, hc⟩
      · rw [hne m p hm, h0] at h'; cases h'
  · cases p with
    | nil => simp [treeAt] at hg
    | cons m p =>
      obtain ⟨a, ha, han⟩ := treeAt_head hg
      rw [List.mem_singleton.1 ha] at han
      change x.name = m at han
      subst han
      cases p with
      | nil => exact ⟨_, by rw [treeAt_one, hnew, if_pos rfl]⟩
      | cons k p =>
        rw [hsubr] at hg
        rw [hsub']
        refine hi.all _ g hg hgd (fun q a hq hqne ha => ?_)
        cases q with
        | nil => simp [treeAt] at ha
        | cons b q =>
          exact hu (x.name :: b :: q) a (List.cons_prefix_cons.2 ⟨rfl, hq⟩) (fun h => hqne (List.cons.inj h).2) (by rw [hsub]; exact ha)
  · rcases hi.labels k j h with h | h | ⟨q, n, m, hq, hm⟩
    · exact Or.inl h
    · exact Or.inr (Or.inl h)
    · cases q with
      | nil => simp [treeAt] at hq
      | cons b q => exact Or.inr (Or.inr ⟨x.name :: b :: q, n, m, by rw [hsubr]; exact hq, by rw [hsub]; exact hm⟩)

theorem lookup_bind {s : ACore} {k j : Nat} (h : s.lookup k = none) (i : Nat) : (s.bindTo k j).lookup i = if i = k then some j else s.lookup i := by
  unfold ACore.lookup ACore.bindTo
  by_cases hi : i = k
  · simp [List.find?_cons, hi]
  · simp [List.find?_cons, Ne.symm hi, hi]
theorem lookup_fresh {s : ACore} {k : Nat} {x : Obj} (h : s.lookup k = none) (i : Nat) : (s.fresh k x).lookup i = if i = k then some s.next else s.lookup i := by
  unfold ACore.lookup ACore.fresh
  by_cases hi : i = k
  · simp [List.find?_cons, hi]
  · simp [List.find?_cons, Ne.symm hi, hi]

theorem abs_leaf_ok (rstars : Nat → Obj) (e : BEntry) (hnd : e.isDir = false) (hdet : e.isDet = false) (cur : List BEntry) (s : ACore) (cur' : List BEntry) (s' : ACore)
    (h : absLeaf rstars e cur s = .ok (cur', s')) : AbsOk rstars [e] cur cur' s s' := by
  unfold absLeaf at h
  cases hf : findChild cur e.name with
  | none =>
    rw [hf] at h
    cases e with
    | node x =>
      cases h
      exact absOk_new rstars _ _ cur s s hf rfl rfl rfl rfl ⟨_, rfl, unsaved_copy x⟩ (fun _ _ h => h) (Nat.le_refl _) (fun _ _ => rfl) (fun _ _ h => Or.inl h)
    | ignoredDir x =>
      cases h
      exact absOk_new rstars _ _ cur s s hf rfl rfl rfl rfl rfl (fun _ _ h => h) (Nat.le_refl _) (fun _ _ => rfl) (fun _ _ h => Or.inl h)
    | mirage n k =>
      dsimp only at h
      cases hl : s.lookup k with
      | some j =>
        rw [hl] at h
        cases h
        exact absOk_new rstars _ _ cur s s hf rfl rfl rfl rfl ⟨j, hl, rfl⟩ (fun _ _ h => h) (Nat.le_refl _) (fun _ _ => rfl) (fun _ _ h => Or.inl h)
      | none =>
        rw [hl] at h
        cases h
        refine absOk_new rstars _ _ cur s _ hf rfl rfl rfl rfl ⟨s.next, by rw [lookup_fresh hl, if_pos rfl], rfl⟩ (fun i j hi => ?_) (Nat.le_succ _) (fun j hj => ?_)
          (fun i j hi => ?_)
        · rw [lookup_fresh hl]
          by_cases hik : i = k
          · subst hik; rw [hl] at hi; cases hi
          · rw [if_neg hik]; exact hi
        · show (if j = s.next then _ else s.stars j) = _
          rw [if_neg (Nat.ne_of_lt hj)]
        · rw [lookup_fresh hl] at hi
          by_cases hik : i = k
          · subst hik
            rw [if_pos rfl] at hi
            cases hi
            exact Or.inr ⟨Nat.le_refl _, Nat.lt_succ_self _, by show (if s.next = s.next then _ else _) = _; rw [if_pos rfl]⟩
          · rw [if_neg hik] at hi; exact Or.inl hi
    | _ => cases h
  | some ici =>
    rw [hf] at h
    have hall : ∀ p g, treeAt [e] p = some g → g.isDet = false → Unblocked cur p → ∃ e', treeAt cur p = some e' := by
      intro p g hg _ _
      obtain ⟨rfl, rfl⟩ := treeAt_leaf hnd hg
      exact ⟨ici, hf⟩
    cases e with
    | mirage n k =>
      cases ici with
      | mirage m j =>
        cases h
        by_cases hl : s.lookup k = none
        · rw [if_pos hl]
          refine absOk_same rstars _ cur s _ hall (fun i a hi => ?_) rfl rfl (fun i a hi => ?_)
          · rw [lookup_bind hl]
            by_cases hik : i = k
            · subst hik; rw [hl] at hi; cases hi
            · rw [if_neg hik]; exact hi
          · rw [lookup_bind hl] at hi
            by_cases hik : i = k
            · subst hik
              rw [if_pos rfl] at hi
              cases hi
              exact Or.inr ⟨[n], n, m, by rw [treeAt_one]; simp [findChild, BEntry.name], hf⟩
            · rw [if_neg hik] at hi; exact Or.inl hi
        · rw [if_neg hl]
          exact absOk_same rstars _ _ s s hall (fun _ _ h => h) rfl rfl (fun _ _ h => Or.inl h)
      | _ => cases h; exact absOk_same rstars _ _ s s hall (fun _ _ h => h) rfl rfl (fun _ _ h => Or.inl h)
    | ignored n => cases h
    | _ => cases h; exact absOk_same rstars _ _ s s hall (fun _ _ h => h) rfl rfl (fun _ _ h => Or.inl h)

mutual
theorem abs_entry_ok (rstars : Nat → Obj) (e : BEntry) (hdi : e.Distinct) (cur : List BEntry) (s : ACore) (cur' : List BEntry) (s' : ACore)
    (h : absEntry rstars e cur s = .ok (cur', s')) : AbsOk rstars [e] cur cur' s s' := by
  match e, hdi, h with
  | .node x, _, h => exact abs_leaf_ok rstars (.node x) rfl rfl cur s cur' s' h
  | .mirage n k, _, h => exact abs_leaf_ok rstars (.mirage n k) rfl rfl cur s cur' s' h
  | .ignored n, _, h => exact abs_leaf_ok rstars (.ignored n) rfl rfl cur s cur' s' h
  | .ignoredDir x, _, h => exact abs_leaf_ok rstars (.ignoredDir x) rfl rfl cur s cur' s' h
  | .detruit n k d, _, h =>
    cases h
    refine absOk_same rstars _ _ s s (fun p g hg hd _ => ?_) (fun _ _ h => h) rfl rfl (fun _ _ h => Or.inl h)
    obtain ⟨-, rfl⟩ := treeAt_leaf (e := .detruit n k d) rfl hg
    cases hd
  | .dir x ch, hdi, h =>
    rw [absEntry] at h
    rw [BEntry.Distinct] at hdi
    cases hf : findChild cur x.name with
    | none =>
      rw [hf] at h
      cases hl : absList rstars ch [] s with
      | error err => simp only [hl, bind, Except.bind] at h; cases h
      | ok r =>
        obtain ⟨c', s1⟩ := r
        simp only [hl, bind, Except.bind] at h
        cases h
        exact absOk_dir rstars x x.unsaved ch [] c' cur _ s _ rfl (Or.inr ⟨hf, rfl, rfl⟩) (find_add cur (.dir x.unsaved c') hf)
          (abs_list_ok rstars ch hdi [] s c' _ hl)
    | some ici =>
      rw [hf] at h
      have hsame : ici.isDir = false → AbsOk rstars [.dir x ch] cur cur s s := by
        intro hi
        refine absOk_same rstars _ _ s s (fun p g hg _ hu => ?_) (fun _ _ h => h) rfl rfl (fun _ _ h => Or.inl h)
        cases p with
        | nil => simp [treeAt] at hg
        | cons m p =>
          obtain ⟨a, ha, han⟩ := treeAt_head hg
          rw [List.mem_singleton.1 ha] at han
          change x.name = m at han
          subst han
          cases p with
          | nil => exact ⟨ici, hf⟩
          | cons k p =>
            have := hu [x.name] ici ⟨k :: p, rfl⟩ (by simp) hf
            rw [hi] at this
            cases this
      cases ici with
      | dir y c =>
        dsimp only at h
        cases hl : absList rstars ch c s with
        | error err => simp only [hl, bind, Except.bind] at h; cases h
        | ok r =>
          obtain ⟨c', s1⟩ := r
          simp only [hl, bind, Except.bind] at h
          cases h
          have hn : y.name = x.name := findChild_name hf
          refine absOk_dir rstars x y ch c c' cur _ s _ hn (Or.inl hf) ?_ (abs_list_ok rstars ch hdi c s c' _ hl)
          rw [hn]
          exact find_replace cur x.name (.dir y c) (.dir y c') hf hn
      | _ => cases h; exact hsame rfl
theorem abs_list_ok (rstars : Nat → Obj) (l : List BEntry) (hdi : BEntry.DistinctL l) (cur : List BEntry) (s : ACore) (cur' : List BEntry) (s' : ACore)
    (h : absList rstars l cur s = .ok (cur', s')) : AbsOk rstars l cur cur' s s' := by
  match l, hdi, h with
  | [], _, h => cases h; exact absOk_nil rstars _ s
  | e :: l, hdi, h =>
    rw [absList] at h
    rw [BEntry.DistinctL] at hdi
    cases he : absEntry rstars e cur s with
    | error err => rw [he] at h; cases h
    | ok r =>
      obtain ⟨cur1, s1⟩ := r
      simp only [he, bind, Except.bind] at h
      exact (abs_entry_ok rstars e hdi.1 cur s cur1 s1 he).cons hdi.2.1 (abs_list_ok rstars l hdi.2.2 cur1 s1 cur' s' h)
end

/-- C34, for an interrupted backup: what was already saved is left as it is, and at any other path there is afterwards exactly what the reference had there (if
nothing that is not a directory stands above), recorded as unchanged. -/
theorem C34_interrupted (next : Nat) (cat ref cat' : BCat) (h : updateAbsent next cat ref = .ok cat') (hd : BEntry.DistinctL ref.root) :
    (∀ p e, treeAt cat.root p = some e → ∃ e', treeAt cat'.root p = some e' ∧ SameHead e e') ∧ (∀ j, j < next → cat'.stars j = cat.stars j) ∧
    ∃ lab : Nat → Option Nat,
      (∀ p, treeAt cat.root p = none →
        ((∃ e', treeAt cat'.root p = some e') ↔ Unblocked cat.root p ∧ ∃ g, treeAt ref.root p = some g ∧ g.isDet = false) ∧
        ∀ e', treeAt cat'.root p = some e' → ∃ g, treeAt ref.root p = some g ∧ UnsavedCopy lab g e') ∧
      (∀ k j, lab k = some j → (next ≤ j ∧ cat'.stars j = (ref.stars k).unsaved) ∨
        ∃ q n m, treeAt ref.root q = some (.mirage n k) ∧ treeAt cat.root q = some (.mirage m j)) := by
  rw [updateAbsent_eq] at h
  cases hl : absList ref.stars ref.root cat.root ⟨[], next, cat.stars⟩ with
  | error err => rw [hl] at h; cases h
  | ok r =>
    rw [hl] at h
    cases h
    have hok := abs_list_ok ref.stars ref.root hd _ _ r.1 r.2 hl
    refine ⟨hok.kept, hok.stars, r.2.lookup, fun p hp => ⟨⟨?_, ?_⟩, fun e' he' => ?_⟩, fun k j hk => ?_⟩
    · rintro ⟨e', he'⟩
      obtain ⟨g, h1, h2, h3, -⟩ := hok.added p e' hp he'
      exact ⟨h3, g, h1, h2⟩
    · rintro ⟨h3, g, h1, h2⟩
      exact hok.all p g h1 h2 h3
    · obtain ⟨g, h1, h2, h3, h4⟩ := hok.added p e' hp he'
      exact ⟨g, h1, h4⟩
    · rcases hok.labels k j hk with h | ⟨h1, -, h2⟩ | h
      · cases h
      · exact Or.inl ⟨h1, h2⟩
      · exact Or.inr h

/-- a catalogue read from an archive has no ignored entry -/
def NotIgnored (_ : List Bytes) : BEntry → Prop
  | .ignored _ => False
  | _ => True

mutual
theorem abs_entry_total (rstars : Nat → Obj) (e : BEntry) (path : List Bytes) (hi : BEntry.Each NotIgnored path e) (cur : List BEntry) (s : ACore) :
    ∃ r, absEntry rstars e cur s = .ok r := by
  match e, hi with
  | .node x, _ =>
    rw [absEntry, absLeaf]
    · cases findChild cur (BEntry.node x).name <;> exact ⟨_, rfl⟩
    all_goals (intros; simp_all)
  | .mirage n k, _ =>
    rw [absEntry, absLeaf]
    · cases findChild cur (BEntry.mirage n k).name with
      | none => dsimp only; cases s.lookup k <;> exact ⟨_, rfl⟩
      | some i => cases i <;> exact ⟨_, rfl⟩
    all_goals (intros; simp_all)
  | .ignored n, hi => exact hi.elim
  | .ignoredDir x, _ =>
    rw [absEntry, absLeaf]
    · cases findChild cur (BEntry.ignoredDir x).name <;> exact ⟨_, rfl⟩
    all_goals (intros; simp_all)
  | .detruit n k d, _ => exact ⟨_, rfl⟩
  | .dir x ch, hi =>
    rw [absEntry]
    rw [BEntry.Each] at hi
    cases findChild cur x.name with
    | none =>
      obtain ⟨r, hr⟩ := abs_list_total rstars ch _ hi.2 [] s
      simp only [hr, bind, Except.bind]
      exact ⟨_, rfl⟩
    | some i =>
      cases i with
      | dir y c =>
        obtain ⟨r, hr⟩ := abs_list_total rstars ch _ hi.2 c s
        simp only [hr, bind, Except.bind]
        exact ⟨_, rfl⟩
      | _ => exact ⟨_, rfl⟩
theorem abs_list_total (rstars : Nat → Obj) (l : List BEntry) (path : List Bytes) (hi : BEntry.EachL NotIgnored path l) (cur : List BEntry) (s : ACore) :
    ∃ r, absList rstars l cur s = .ok r := by
  match l, hi with
  | [], _ => exact ⟨_, rfl⟩
  | e :: l, hi =>
    rw [absList]
    rw [BEntry.EachL] at hi
    obtain ⟨r, hr⟩ := abs_entry_total rstars e path hi.1 cur s
    simp only [hr, bind, Except.bind]
    exact abs_list_total rstars l path hi.2 r.1 r.2
end

/-- C34: the update after an interruption always ends well. -/
theorem C34_interrupted_completes (next : Nat) (cat ref : BCat) (hi : BEntry.EachL NotIgnored [] ref.root) : ∃ cat', updateAbsent next cat ref = .ok cat' := by
  rw [updateAbsent_eq]
  obtain ⟨r, hr⟩ := abs_list_total ref.stars ref.root [] hi cat.root ⟨[], next, cat.stars⟩
  rw [hr]
  exact ⟨_, rfl⟩

private def abObj (name : Bytes) (fsa : FsaSt) (data : Bytes) : Obj :=
  ⟨name, ⟨.file, 0, 0, 420, ⟨7, .s⟩, ⟨7, .s⟩, .saved, 1, false, false, false, 0, 0, [], .full, 0, 0⟩, fsa, data, [], []⟩

/-- a backup interrupted after "a": "b" is recorded as unchanged -/
theorem C34_interrupted_example : ∃ cat', updateAbsent 0 ⟨[.node (abObj [97] .none [1])], fun _ => abObj [] .none []⟩
      ⟨[.node (abObj [97] .none [2]), .node (abObj [98] .none [3])], fun _ => abObj [] .none []⟩ = .ok cat' ∧
    treeAt cat'.root [[97]] = some (.node (abObj [97] .none [1])) ∧
    ∃ y, treeAt cat'.root [[98]] = some (.node y) ∧ y.ino.status = .notSaved ∧ y.ino.eaStatus = .part :=
  ⟨_, rfl, rfl, _, rfl, rfl, rfl⟩

/-- The filesystem specific attributes of what was not reached are said to be stored in the new archive, while they are not. -/
theorem C34_interrupted_fsa_counterexample : ∃ cat' y, updateAbsent 0 ⟨[], fun _ => abObj [] .none []⟩
      ⟨[.node (abObj [98] .full [3])], fun _ => abObj [] .none []⟩ = .ok cat' ∧
    treeAt cat'.root [[98]] = some (.node y) ∧ y.ino.status = .notSaved ∧ y.fsa = .full :=
  ⟨_, _, rfl, rfl, rfl, rfl⟩

/-- "a" and "c" were two names of the same inode; "a" has been replaced by another inode (that has another name too), and the backup is interrupted before "c": the
archive says that "c" is a name of the new inode, the data of which is saved.  Restoring this archive replaces "c" by the contents of "a". -/
theorem C34_interrupted_link_counterexample : ∃ cat', updateAbsent 6 ⟨[.mirage [97] 5], fun _ => abObj [] .none [1]⟩
      ⟨[.mirage [97] 0, .mirage [99] 0], fun _ => abObj [] .none [2]⟩ = .ok cat' ∧
    treeAt cat'.root [[99]] = some (.mirage [99] 5) ∧ (cat'.stars 5).ino.status = .saved ∧ (cat'.stars 5).data = [1] :=
  ⟨_, rfl, rfl, rfl, rfl⟩

end Dar
