import Verif.Spec.Database
import Verif.Props.Datetime
import Mathlib.Data.List.Induction
import Mathlib.Tactic.Ring
/- Property theorems C29 (database lookup). -/
namespace Dar

/-- Dates do not decrease when the archive number grows (what database::check_order asks for). -/
def DatesOrdered {α : Type} (date : α → DateT) (m : SMap α) : Prop :=
  m.Pairwise (fun p q => (date p.2).instant ≤ (date q.2).instant)

/-- No archive records as unchanged a file that the previous ones record as removed. -/
def NoRevival (h : List (Nat × Etat)) : Prop :=
  ∀ p n s, h = p ++ (n, Etat.present) :: s → replay p ≠ .gone

theorem dateVisible_spec (date max d : DateT) : ∃ b, dateVisible date max d = .ok b ∧
    (b = true ↔ max.instant ≤ d.instant ∧ (date.val = 0 ∨ d.instant ≤ date.instant)) := by
  obtain ⟨g, hg, h1⟩ := C22_ge d max
  obtain ⟨l, hl, h2⟩ := C22_le d date
  unfold dateVisible
  rw [hg]
  cases g with
  | false =>
    refine ⟨false, rfl, iff_of_false (by simp) (fun h => ?_)⟩
    have := h1.mpr h.1; cases this
  | true =>
    have h1' := h1.mp rfl
    by_cases hn : date.val = 0
    · exact ⟨true, by simp [DateT.isNull, hn, bind, Except.bind], by simp [h1', hn]⟩
    · exact ⟨l, by simp [DateT.isNull, hn, bind, Except.bind, hl], by simp [h1', hn, h2]⟩

/-- The history with the first visible element -/
theorem history_cons {α : Type} (date : α → DateT) (et : α → Etat) (n : Nat) (s : α) (m : SMap α) (limit : DateT) (ewr : Bool) :
    history date et ((n, s) :: m) limit ewr =
      if (limit.val = 0 ∨ (date s).instant ≤ limit.instant) ∧ ¬ (ewr = true ∧ (et s = .removed ∨ et s = .absent)) then
        (n, et s) :: history date et m limit ewr else history date et m limit ewr := by
  unfold history
  by_cases h1 : limit.val = 0 ∨ (date s).instant ≤ limit.instant
  · by_cases h2 : ewr = true ∧ (et s = .removed ∨ et s = .absent)
    · rw [if_neg (fun h => h.2 h2), List.filter_cons_of_pos (by simpa using h1), List.map_cons, List.filter_cons_of_neg (by
        rcases h2 with ⟨h, h' | h'⟩ <;> simp [h, h'])]
    · rw [if_pos ⟨h1, h2⟩, List.filter_cons_of_pos (by simpa using h1), List.map_cons, List.filter_cons_of_pos (by
        cases ewr <;> simp at h2 ⊢; exact h2)]
  · rw [if_neg (fun h => h1 h.1), List.filter_cons_of_neg (by simpa using h1)]

/-- The stack of candidates for a state of the file. -/
def Stack (st : List (Nat × Etat)) : FState → Prop
  | .unseen => st = []
  | .gone => ∃ n e, st = [(n, e)] ∧ (e = .removed ∨ e = .absent)
  | .lost => (∃ n, st = [(n, .patchUnusable)]) ∨ (∃ n, st = [(n, .present)]) ∨ (∃ n, st = [(n, .inode)]) ∨
      ∃ (n : Nat) (l : List Nat) (i : List Nat), st = (n, .patch) :: (l.map (fun n => (n, Etat.patch)) ++ i.map (fun n => (n, Etat.inode))) ∧ i.length ≤ 1
  | .ok d a => ∃ (n : Nat) (l : List Nat), d = n :: l ∧
      ((a = (n :: l).getLast (by simp) ∧ st = (n, .saved) :: l.map (fun n => (n, Etat.patch))) ∨
       st = (n, .saved) :: (l.map (fun n => (n, Etat.patch)) ++ [(a, .inode)]))

theorem stack_back (x : Nat × Etat) (l : List Nat) (hx : x.2 = .saved ∨ x.2 = .patch) :
    ∃ q, (x :: l.map (fun n => (n, Etat.patch))).getLast? = some q ∧ (q.2 = .saved ∨ q.2 = .patch) := by
  cases h : l.getLast? with
  | none =>
    have : l = [] := List.getLast?_eq_none_iff.mp h
    subst this
    exact ⟨x, rfl, hx⟩
  | some y =>
    obtain ⟨l', rfl⟩ := List.getLast?_eq_some_iff.mp h
    refine ⟨(y, .patch), ?_, Or.inr rfl⟩
    rw [List.map_append, List.map_singleton, ← List.cons_append, List.getLast?_concat]

theorem candStep (ewr : Bool) (st : List (Nat × Etat)) (fs : FState) (n : Nat) (e : Etat) (h : Stack st fs)
    (hr : e = .present → fs ≠ .gone) (hi : ¬ (ewr = true ∧ (e = .removed ∨ e = .absent))) :
    ∃ st', candAdd ewr st n e = .ok st' ∧ Stack st' (fs.step (n, e)) := by
  have hrem : ∀ e, (e = .removed ∨ e = .absent) → ¬ (ewr = true ∧ (e = .removed ∨ e = .absent)) → candFirst ewr st e = some [] := by
    intro e he hi
    have : ewr = false := by cases ewr <;> simp_all
    rcases he with rfl | rfl <;> simp [candFirst, this]
  cases e with
  | saved => exact ⟨[(n, .saved)], by simp [candAdd, candFirst], n, [], rfl, Or.inl ⟨rfl, rfl⟩⟩
  | removed => exact ⟨[(n, .removed)], by simp [candAdd, hrem .removed (Or.inl rfl) hi], n, _, rfl, Or.inl rfl⟩
  | absent => exact ⟨[(n, .absent)], by simp [candAdd, hrem .absent (Or.inr rfl) hi], n, _, rfl, Or.inr rfl⟩
  | patchUnusable => exact ⟨[(n, .patchUnusable)], by simp [candAdd, candFirst], Or.inl ⟨n, rfl⟩⟩
  | present =>
    cases fs with
    | unseen => simp only [Stack] at h; subst h; exact ⟨[(n, .present)], by simp [candAdd, candFirst], Or.inr (Or.inl ⟨n, rfl⟩)⟩
    | gone => exact absurd rfl (hr rfl)
    | lost =>
      have hne : st.isEmpty = false := by
        rcases h with ⟨_, rfl⟩ | ⟨_, rfl⟩ | ⟨_, rfl⟩ | ⟨_, _, _, rfl, _⟩ <;> rfl
      exact ⟨st, by simp [candAdd, candFirst, hne, candSecond], h⟩
    | ok d a =>
      have hne : st.isEmpty = false := by
        rcases h with ⟨_, _, _, ⟨_, rfl⟩ | rfl⟩ <;> rfl
      exact ⟨st, by simp [candAdd, candFirst, hne, candSecond], h⟩
  | patch =>
    cases fs with
    | unseen =>
      simp only [Stack] at h; subst h
      exact ⟨[(n, .patch)], by simp [candAdd, candFirst], Or.inr (Or.inr (Or.inr ⟨n, [], [], rfl, by simp⟩))⟩
    | gone =>
      obtain ⟨m, e, rfl, he⟩ := h
      refine ⟨[(n, .patch)], ?_, Or.inr (Or.inr (Or.inr ⟨n, [], [], rfl, by simp⟩))⟩
      rcases he with rfl | rfl <;> simp [candAdd, candFirst, candSecond]
    | lost =>
      rcases h with ⟨m, rfl⟩ | ⟨m, rfl⟩ | ⟨m, rfl⟩ | ⟨m, l, i, rfl, hi'⟩
      · exact ⟨_, by simp [candAdd, candFirst, candSecond], Or.inl ⟨m, rfl⟩⟩
      · exact ⟨_, by simp [candAdd, candFirst, candSecond], Or.inr (Or.inr (Or.inr ⟨n, [], [], rfl, by simp⟩))⟩
      · exact ⟨_, by simp [candAdd, candFirst, candSecond], Or.inr (Or.inr (Or.inr ⟨n, [], [], rfl, by simp⟩))⟩
      · match i, hi' with
        | [], _ =>
          obtain ⟨q, hq, hq'⟩ := stack_back (m, .patch) l (Or.inr rfl)
          refine ⟨_, ?_, Or.inr (Or.inr (Or.inr ⟨m, l ++ [n], [], rfl, by simp⟩))⟩
          obtain ⟨qn, qe⟩ := q
          simp only at hq'
          simp only [candAdd, candFirst, List.map_nil, List.append_nil, List.isEmpty_cons, Bool.false_eq_true, if_false, candSecond, hq]
          rcases hq' with rfl | rfl <;> simp
        | [j], _ =>
          refine ⟨_, ?_, Or.inr (Or.inr (Or.inr ⟨m, l ++ [n], [], rfl, by simp⟩))⟩
          have hl : ((m, Etat.patch) :: (l.map (fun n => (n, Etat.patch)) ++ [j].map (fun n => (n, Etat.inode)))).getLast? = some (j, .inode) := by
            rw [List.map_singleton, ← List.cons_append, List.getLast?_concat]
          have hd : ((m, Etat.patch) :: (l.map (fun n => (n, Etat.patch)) ++ [j].map (fun n => (n, Etat.inode)))).dropLast =
              (m, .patch) :: l.map (fun n => (n, Etat.patch)) := by
            rw [List.map_singleton, ← List.cons_append, List.dropLast_concat]
          simp only [candAdd, candFirst, List.isEmpty_cons, Bool.false_eq_true, if_false, candSecond, hl, hd]
          simp
    | ok d a =>
      obtain ⟨m, l, rfl, ⟨ha, rfl⟩ | rfl⟩ := h
      · obtain ⟨q, hq, hq'⟩ := stack_back (m, .saved) l (Or.inl rfl)
        refine ⟨_, ?_, m, l ++ [n], rfl, Or.inl ⟨by rw [List.getLast_cons (by simp)]; simp, rfl⟩⟩
        obtain ⟨qn, qe⟩ := q
        simp only at hq'
        simp only [candAdd, candFirst, List.isEmpty_cons, Bool.false_eq_true, if_false, candSecond, hq]
        rcases hq' with rfl | rfl <;> simp
      · refine ⟨_, ?_, m, l ++ [n], rfl, Or.inl ⟨by rw [List.getLast_cons (by simp)]; simp, rfl⟩⟩
        have hl : ((m, Etat.saved) :: (l.map (fun n => (n, Etat.patch)) ++ [(a, .inode)])).getLast? = some (a, .inode) := by
          rw [← List.cons_append, List.getLast?_concat]
        have hd : ((m, Etat.saved) :: (l.map (fun n => (n, Etat.patch)) ++ [(a, .inode)])).dropLast =
            (m, .saved) :: l.map (fun n => (n, Etat.patch)) := by
          rw [← List.cons_append, List.dropLast_concat]
        simp only [candAdd, candFirst, List.isEmpty_cons, Bool.false_eq_true, if_false, candSecond, hl, hd]
        simp
  | inode =>
    cases fs with
    | unseen =>
      simp only [Stack] at h; subst h
      exact ⟨[(n, .inode)], by simp [candAdd, candFirst], Or.inr (Or.inr (Or.inl ⟨n, rfl⟩))⟩
    | gone =>
      obtain ⟨m, e, rfl, he⟩ := h
      refine ⟨[(n, .inode)], ?_, Or.inr (Or.inr (Or.inl ⟨n, rfl⟩))⟩
      rcases he with rfl | rfl <;> simp [candAdd, candFirst, candSecond]
    | lost =>
      rcases h with ⟨m, rfl⟩ | ⟨m, rfl⟩ | ⟨m, rfl⟩ | ⟨m, l, i, rfl, hi'⟩
      · exact ⟨_, by simp [candAdd, candFirst, candSecond], Or.inl ⟨m, rfl⟩⟩
      · exact ⟨_, by simp [candAdd, candFirst, candSecond], Or.inr (Or.inr (Or.inl ⟨n, rfl⟩))⟩
      · exact ⟨_, by simp [candAdd, candFirst, candSecond], Or.inr (Or.inr (Or.inl ⟨n, rfl⟩))⟩
      · match i, hi' with
        | [], _ =>
          obtain ⟨q, hq, hq'⟩ := stack_back (m, .patch) l (Or.inr rfl)
          refine ⟨_, ?_, Or.inr (Or.inr (Or.inr ⟨m, l, [n], rfl, by simp⟩))⟩
          obtain ⟨qn, qe⟩ := q
          simp only at hq'
          simp only [candAdd, candFirst, List.map_nil, List.append_nil, List.isEmpty_cons, Bool.false_eq_true, if_false, candSecond, hq]
          rcases hq' with rfl | rfl <;> simp
        | [j], _ =>
          refine ⟨_, ?_, Or.inr (Or.inr (Or.inr ⟨m, l, [n], rfl, by simp⟩))⟩
          have hl : ((m, Etat.patch) :: (l.map (fun n => (n, Etat.patch)) ++ [j].map (fun n => (n, Etat.inode)))).getLast? = some (j, .inode) := by
            rw [List.map_singleton, ← List.cons_append, List.getLast?_concat]
          have hd : ((m, Etat.patch) :: (l.map (fun n => (n, Etat.patch)) ++ [j].map (fun n => (n, Etat.inode)))).dropLast =
              (m, .patch) :: l.map (fun n => (n, Etat.patch)) := by
            rw [List.map_singleton, ← List.cons_append, List.dropLast_concat]
          simp only [candAdd, candFirst, List.isEmpty_cons, Bool.false_eq_true, if_false, candSecond, hl, hd]
          simp
    | ok d a =>
      obtain ⟨m, l, rfl, ⟨ha, rfl⟩ | rfl⟩ := h
      · obtain ⟨q, hq, hq'⟩ := stack_back (m, .saved) l (Or.inl rfl)
        refine ⟨_, ?_, m, l, rfl, Or.inr rfl⟩
        obtain ⟨qn, qe⟩ := q
        simp only at hq'
        simp only [candAdd, candFirst, List.isEmpty_cons, Bool.false_eq_true, if_false, candSecond, hq]
        rcases hq' with rfl | rfl <;> simp
      · refine ⟨_, ?_, m, l, rfl, Or.inr rfl⟩
        have hl : ((m, Etat.saved) :: (l.map (fun n => (n, Etat.patch)) ++ [(a, .inode)])).getLast? = some (a, .inode) := by
          rw [← List.cons_append, List.getLast?_concat]
        have hd : ((m, Etat.saved) :: (l.map (fun n => (n, Etat.patch)) ++ [(a, .inode)])).dropLast =
            (m, .saved) :: l.map (fun n => (n, Etat.patch)) := by
          rw [← List.cons_append, List.dropLast_concat]
        simp only [candAdd, candFirst, List.isEmpty_cons, Bool.false_eq_true, if_false, candSecond, hl, hd]
        simp

theorem candAdd_ignored (st : List (Nat × Etat)) (n : Nat) (e : Etat) (h : e = .removed ∨ e = .absent) :
    candAdd true st n e = .ok st := by
  rcases h with rfl | rfl <;> simp [candAdd, candFirst]

theorem getDataLoop_spec (date : DateT) (ewr : Bool) (m : SMap StatP) : ∀ (max : DateT) (st : List (Nat × Etat)) (fs : FState),
    Stack st fs → DatesOrdered StatP.date m → (∀ p ∈ m, max.instant ≤ p.2.date.instant) →
    (∀ p n s, history StatP.date StatP.present m date ewr = p ++ (n, Etat.present) :: s → p.foldl FState.step fs ≠ .gone) →
    ∃ st', getDataLoop date ewr m max st = .ok st' ∧
      Stack st' ((history StatP.date StatP.present m date ewr).foldl FState.step fs) := by
  induction m with
  | nil => intro max st fs h _ _ _; exact ⟨st, rfl, h⟩
  | cons q m ih =>
    obtain ⟨n, s⟩ := q
    intro max st fs h ho hm hr
    obtain ⟨v, hv, hvs⟩ := dateVisible_spec date max s.date
    have ho' := List.pairwise_cons.mp ho
    rw [getDataLoop, hv]
    have hmax := hm (n, s) (by simp)
    rw [history_cons] at hr ⊢
    by_cases hd : date.val = 0 ∨ s.date.instant ≤ date.instant
    · have : v = true := hvs.mpr ⟨hmax, hd⟩
      subst this
      by_cases hi : ewr = true ∧ (s.present = .removed ∨ s.present = .absent)
      · have hc : ¬ ((date.val = 0 ∨ s.date.instant ≤ date.instant) ∧ ¬ (ewr = true ∧ (s.present = .removed ∨ s.present = .absent))) :=
          fun hh => hh.2 hi
        rw [if_neg hc] at hr ⊢
        obtain ⟨st', h1, h2⟩ := ih s.date st fs h ho'.2 (fun p hp => ho'.1 p hp) hr
        refine ⟨st', ?_, h2⟩
        have := candAdd_ignored st n s.present hi.2
        rw [← hi.1] at this
        show (candAdd ewr st n s.present >>= fun st => getDataLoop date ewr m s.date st) = _
        rw [this]; exact h1
      · have hc : ((date.val = 0 ∨ s.date.instant ≤ date.instant) ∧ ¬ (ewr = true ∧ (s.present = .removed ∨ s.present = .absent))) := ⟨hd, hi⟩
        rw [if_pos hc] at hr ⊢
        obtain ⟨st1, h1, h2⟩ := candStep ewr st fs n s.present h (fun he => by
          have := hr [] n (history StatP.date StatP.present m date ewr) (by rw [he]; rfl)
          simpa using this) hi
        obtain ⟨st', h3, h4⟩ := ih s.date st1 (fs.step (n, s.present)) h2 ho'.2 (fun p hp => ho'.1 p hp) (by
          intro p n' s' he
          have := hr ((n, s.present) :: p) n' s' (by rw [he]; rfl)
          simpa using this)
        refine ⟨st', ?_, h4⟩
        show (candAdd ewr st n s.present >>= fun st => getDataLoop date ewr m s.date st) = _
        rw [h1]; exact h3
    · have : v = false := by
        cases v with
        | false => rfl
        | true => exact absurd (hvs.mp rfl).2 hd
      subst this
      have hc : ¬ ((date.val = 0 ∨ s.date.instant ≤ date.instant) ∧ ¬ (ewr = true ∧ (s.present = .removed ∨ s.present = .absent))) :=
        fun hh => hd hh.1
      rw [if_neg hc] at hr ⊢
      obtain ⟨st', h1, h2⟩ := ih max st fs h ho'.2 (fun p hp => hm p (by simp [hp])) hr
      exact ⟨st', h1, h2⟩

/-- Archives that contribute neither to the data nor to the attributes can be left out. -/
theorem replay_filter (P : Nat → Bool) (h : List (Nat × Etat)) : ∀ d a, replay h = .ok d a → (∀ k ∈ d, P k = true) →
    ∃ a', replay (h.filter (fun p => P p.1)) = .ok d a' ∧ (P a = true → a' = a) := by
  induction h using List.reverseRecOn with
  | nil => intro d a h; simp [replay] at h
  | append_singleton h q ih =>
    obtain ⟨n, e⟩ := q
    intro d a hr hP
    have hs : ∀ l, replay (l ++ [(n, e)]) = (replay l).step (n, e) := by intro l; simp [replay, List.foldl_append]
    rw [hs] at hr
    rw [List.filter_append]
    by_cases hn : P n = true
    · have : List.filter (fun p => P p.1) [(n, e)] = [(n, e)] := by simp [hn]
      rw [this, hs]
      cases e with
      | saved => simp only [FState.step] at hr ⊢; injection hr with h1 h2; subst h1; subst h2; exact ⟨n, rfl, fun _ => rfl⟩
      | removed => simp [FState.step] at hr
      | absent => simp [FState.step] at hr
      | patchUnusable => simp [FState.step] at hr
      | patch =>
        cases hh : replay h with
        | ok d' a' =>
          rw [hh] at hr; simp only [FState.step] at hr
          injection hr with h1 h2; subst h1; subst h2
          obtain ⟨a'', h3, _⟩ := ih d' a' hh (fun k hk => hP k (by simp [hk]))
          rw [h3]; exact ⟨n, rfl, fun _ => rfl⟩
        | unseen => rw [hh] at hr; simp [FState.step] at hr
        | gone => rw [hh] at hr; simp [FState.step] at hr
        | lost => rw [hh] at hr; simp [FState.step] at hr
      | inode =>
        cases hh : replay h with
        | ok d' a' =>
          rw [hh] at hr; simp only [FState.step] at hr
          injection hr with h1 h2; subst h1; subst h2
          obtain ⟨a'', h3, _⟩ := ih d' a' hh hP
          rw [h3]; exact ⟨n, rfl, fun _ => rfl⟩
        | unseen => rw [hh] at hr; simp [FState.step] at hr
        | gone => rw [hh] at hr; simp [FState.step] at hr
        | lost => rw [hh] at hr; simp [FState.step] at hr
      | present =>
        cases hh : replay h with
        | ok d' a' =>
          rw [hh] at hr; simp only [FState.step] at hr
          injection hr with h1 h2; subst h1; subst h2
          obtain ⟨a'', h3, h4⟩ := ih d' a' hh hP
          rw [h3]; exact ⟨a'', rfl, h4⟩
        | unseen => rw [hh] at hr; simp [FState.step] at hr
        | gone => rw [hh] at hr; simp [FState.step] at hr
        | lost => rw [hh] at hr; simp [FState.step] at hr
    · have : List.filter (fun p => P p.1) [(n, e)] = [] := by simp [hn]
      rw [this, List.append_nil]
      cases e with
      | saved => simp only [FState.step] at hr; injection hr with h1 h2; subst h1; exact absurd (hP n (by simp)) hn
      | removed => simp [FState.step] at hr
      | absent => simp [FState.step] at hr
      | patchUnusable => simp [FState.step] at hr
      | patch =>
        cases hh : replay h with
        | ok d' a' =>
          rw [hh] at hr; simp only [FState.step] at hr
          injection hr with h1 h2; subst h1; exact absurd (hP n (by simp)) hn
        | unseen => rw [hh] at hr; simp [FState.step] at hr
        | gone => rw [hh] at hr; simp [FState.step] at hr
        | lost => rw [hh] at hr; simp [FState.step] at hr
      | inode =>
        cases hh : replay h with
        | ok d' a' =>
          rw [hh] at hr; simp only [FState.step] at hr
          injection hr with h1 h2; subst h1; subst h2
          obtain ⟨a'', h3, _⟩ := ih d' a' hh hP
          exact ⟨a'', h3, fun h => absurd h hn⟩
        | unseen => rw [hh] at hr; simp [FState.step] at hr
        | gone => rw [hh] at hr; simp [FState.step] at hr
        | lost => rw [hh] at hr; simp [FState.step] at hr
      | present =>
        cases hh : replay h with
        | ok d' a' =>
          rw [hh] at hr; simp only [FState.step] at hr
          injection hr with h1 h2; subst h1; subst h2
          exact ih d' a' hh hP
        | unseen => rw [hh] at hr; simp [FState.step] at hr
        | gone => rw [hh] at hr; simp [FState.step] at hr
        | lost => rw [hh] at hr; simp [FState.step] at hr

/-- Looking up the data of a file at a date.  The answer is the one told by the recorded states not later than the date:
never seen, removed, not restorable, or restorable; in the last case the archives given are exactly those its data or its
attributes come from, and restoring them alone, in order, gives the same file as restoring all. -/
theorem C29_data_partial (m : SMap StatP) (ho : DatesOrdered StatP.date m) (date : DateT) (ewr : Bool)
    (hr : NoRevival (history StatP.date StatP.present m date ewr)) :
    ∃ set r, getData m date ewr = .ok (set, r) ∧
      (replay (history StatP.date StatP.present m date ewr) = .unseen → r = .notFound ∧ set = []) ∧
      (replay (history StatP.date StatP.present m date ewr) = .gone → r = .foundRemoved) ∧
      (replay (history StatP.date StatP.present m date ewr) = .lost → r = .notRestorable) ∧
      ∀ d a, replay (history StatP.date StatP.present m date ewr) = .ok d a → r = .foundPresent ∧
        (∀ n, n ∈ set ↔ n ∈ d ∨ n = a) ∧
        replay ((history StatP.date StatP.present m date ewr).filter (fun p => decide (p.1 ∈ set))) = .ok d a := by
  obtain ⟨st, h1, h2⟩ := getDataLoop_spec date ewr m ⟨0, .s⟩ [] .unseen rfl ho (fun p _ => by simp [DateT.instant]) hr
  refine ⟨st.map Prod.fst, candStatus st, ?_, ?_⟩
  · unfold getData; rw [h1]; rfl
  · change Stack st (replay _) at h2
    generalize hh : history StatP.date StatP.present m date ewr = h at h2 ⊢
    refine ⟨?_, ?_, ?_, ?_⟩
    · intro he; rw [he] at h2; simp only [Stack] at h2; subst h2; exact ⟨rfl, rfl⟩
    · intro he; rw [he] at h2
      obtain ⟨n, e, rfl, rfl | rfl⟩ := h2 <;> rfl
    · intro he; rw [he] at h2
      rcases h2 with ⟨_, rfl⟩ | ⟨_, rfl⟩ | ⟨_, rfl⟩ | ⟨_, _, _, rfl, _⟩ <;> rfl
    · intro d a he
      have h3 := h2
      rw [he] at h3
      obtain ⟨n, l, rfl, h3⟩ := h3
      have hmem : ∀ k, k ∈ st.map Prod.fst ↔ k ∈ n :: l ∨ k = a := by
        intro k
        rcases h3 with ⟨ha, rfl⟩ | rfl
        · have hal : a ∈ n :: l := by rw [ha]; exact List.getLast_mem _
          simp only [List.map_cons, List.map_map, Function.comp_def, List.map_id']
          constructor
          · intro h; exact Or.inl h
          · rintro (h | rfl); exacts [h, hal]
        · simp only [List.map_cons, List.map_append, List.map_map, Function.comp_def, List.map_id', List.map_nil,
            List.mem_cons, List.mem_append, List.not_mem_nil, or_false, or_assoc]
      refine ⟨?_, hmem, ?_⟩
      · rcases h3 with ⟨_, rfl⟩ | rfl <;> rfl
      · obtain ⟨a', h4, h5⟩ := replay_filter (fun k => decide (k ∈ st.map Prod.fst)) h (n :: l) a he
          (fun k hk => by simpa using (hmem k).mpr (Or.inl hk))
        rw [h5 (by simpa using (hmem a).mpr (Or.inr rfl))] at h4
        exact h4

/-- Finding: a file recorded as removed by an archive then as unchanged by a later one (the file existed again, as in
the reference of that archive) is reported as removed: the later record is ignored. -/
theorem C29_revival_counterexample :
    getData [(1, ⟨⟨10, .s⟩, .saved, none, none⟩), (2, ⟨⟨20, .s⟩, .removed, none, none⟩), (3, ⟨⟨30, .s⟩, .present, none, none⟩)] ⟨0, .s⟩ false
      = .ok ([2], .foundRemoved) ∧
    replay [(1, .saved), (2, .removed), (3, .present)] = .lost := by decide

/-- A lookup always ends with an answer, whatever the order of the dates. -/
theorem C29_data_total (m : SMap StatP) (date : DateT) (ewr : Bool) : ∃ r, getData m date ewr = .ok r := by
  have key : ∀ (m : SMap StatP) (max : DateT) (st : List (Nat × Etat)), (st.length > 1 → ∀ q, st.getLast? = some q → q.2 ≠ .present) →
      ∃ st', getDataLoop date ewr m max st = .ok st' := by
    intro m
    induction m with
    | nil => intro max st _; exact ⟨st, rfl⟩
    | cons q m ih =>
      obtain ⟨n, s⟩ := q
      intro max st hst
      obtain ⟨v, hv, _⟩ := dateVisible_spec date max s.date
      rw [getDataLoop, hv]
      cases v with
      | false => exact ih max st hst
      | true =>
        have : ∃ st', candAdd ewr st n s.present = .ok st' ∧ (st'.length > 1 → ∀ q, st'.getLast? = some q → q.2 ≠ .present) := by
          have sec : ∀ st1 : List (Nat × Etat), (st1.length > 1 → ∀ q, st1.getLast? = some q → q.2 ≠ .present) →
              (∃ r, candSecond st1 s.present = .ok r ∧ (r ≠ none → s.present ≠ .present)) := by
            intro st1 h1
            unfold candSecond
            by_cases he : s.present = .present
            · exact ⟨none, by rw [if_pos he], by simp⟩
            · rw [if_neg he]
              cases hl : st1.getLast? with
              | none => exact ⟨_, rfl, fun _ => he⟩
              | some q =>
                obtain ⟨qn, qe⟩ := q
                cases qe with
                | present =>
                  have : ¬ st1.length > 1 := fun h => h1 h _ hl rfl
                  exact ⟨_, by simp only [this, if_false]; rfl, fun _ => he⟩
                | _ => exact ⟨_, rfl, fun _ => he⟩
          unfold candAdd
          have hc : ∃ o, candFirst ewr st s.present = o ∧ ∀ st1, o = some st1 → (st1.length > 1 → ∀ q, st1.getLast? = some q → q.2 ≠ .present) := by
            refine ⟨_, rfl, ?_⟩
            intro st1 h1
            cases hp : s.present <;> rw [hp] at h1 <;> simp [candFirst] at h1
            all_goals first
              | (subst h1; exact hst)
              | (subst h1; intro hl; simp at hl)
              | (obtain ⟨_, rfl⟩ := h1; intro hl; simp at hl)
              | (have := h1.2; subst this; intro hl; simp at hl)
          obtain ⟨o, ho, ho'⟩ := hc
          rw [ho]
          cases o with
          | none => exact ⟨st, rfl, hst⟩
          | some st1 =>
            simp only
            by_cases he : st1.isEmpty = true
            · rw [if_pos he]; exact ⟨_, rfl, by simp⟩
            · rw [if_neg he]
              obtain ⟨r, hr, hp⟩ := sec st1 (ho' st1 rfl)
              rw [hr]
              cases r with
              | none => exact ⟨st1, rfl, ho' st1 rfl⟩
              | some st2 =>
                refine ⟨_, rfl, fun _ q hq => ?_⟩
                rw [List.getLast?_concat] at hq
                injection hq with hq
                subst hq
                exact hp (by simp)
        obtain ⟨st', h1, h2⟩ := this
        obtain ⟨st'', h3⟩ := ih s.date st' h2
        refine ⟨st'', ?_⟩
        show (candAdd ewr st n s.present >>= fun st => getDataLoop date ewr m s.date st) = _
        rw [h1]; exact h3
  obtain ⟨st, h⟩ := key m ⟨0, .s⟩ [] (by simp)
  exact ⟨_, by unfold getData; rw [h]; rfl⟩

/-! ### Extended attributes -/

/-- States recorded for EA. -/
def EaEtat (e : Etat) : Prop := e = .saved ∨ e = .present ∨ e = .removed ∨ e = .absent

/-- Variables of the EA lookup for a state of the EA; `last` is the last archive that saved them, `fin` the
last one that tells of them. -/
def EaInv (st : EaSt) (last fin : Option Nat) : FState → Prop
  | .unseen => st.lastSeen = 0 ∧ st.archive = 0 ∧ st.presenceSeen = false ∧ st.presenceReal = false ∧ last = none ∧ st.lastEwr = 0
  | .gone => st.lastSeen ≠ 0 ∧ st.archive ≠ 0 ∧ st.presenceSeen = false ∧ st.presenceReal = false ∧ st.lastEwr = last.getD 0 ∧ fin = some st.archive
  | .lost => st.lastSeen ≠ 0 ∧ st.presenceSeen = true ∧ st.presenceReal = false ∧ st.lastEwr = last.getD 0
  | .ok d a => d = [a] ∧ st.archive = a ∧ a ≠ 0 ∧ st.lastSeen ≠ 0 ∧ st.presenceSeen = true ∧ st.presenceReal = true ∧
      st.lastEwr = a ∧ last = some a

/-- The last archive of a history that holds the EA themselves. -/
def lastSaved (h : List (Nat × Etat)) : Option Nat := ((h.filter (fun p => decide (p.2 = .saved))).getLast?).map Prod.fst

theorem eaStep (date : DateT) (n : Nat) (hn : n ≠ 0) (s : Stat) (hs : EaEtat s.present) (st : EaSt) (last fin : Option Nat) (fs : FState)
    (h : EaInv st last fin fs) (h1 : st.maxSeen.instant ≤ s.date.instant) (h2 : st.maxReal.instant ≤ s.date.instant)
    (hd : date.val = 0 ∨ s.date.instant ≤ date.instant) :
    ∃ st1 st2, eaSeen date n s st = .ok st1 ∧ eaReal date n s st1 = .ok st2 ∧ st2.maxSeen = s.date ∧
      st2.maxReal.instant ≤ s.date.instant ∧
      EaInv st2 (if s.present = .saved then some n else last) (some n) (fs.step (n, s.present)) := by
  obtain ⟨v, hv, hvs⟩ := dateVisible_spec date st.maxSeen s.date
  have hvt : v = true := hvs.mpr ⟨h1, hd⟩
  subst hvt
  obtain ⟨w, hw, hws⟩ := dateVisible_spec date st.maxReal s.date
  have hwt : w = true := hws.mpr ⟨h2, hd⟩
  subst hwt
  unfold eaSeen eaReal
  rw [hv]
  rcases hs with hs | hs | hs | hs
  · refine ⟨_, _, by simp only [bind, Except.bind, hs]; rfl, by simp only [hw, bind, Except.bind, hs]; rfl, rfl, ?_, ?_⟩
    · exact Nat.le_refl _
    · rw [if_pos hs, hs]; exact ⟨rfl, rfl, hn, hn, rfl, rfl, rfl, rfl⟩
  · refine ⟨{ st with maxSeen := s.date, lastSeen := n, presenceSeen := true }, { st with maxSeen := s.date, lastSeen := n, presenceSeen := true },
      by simp only [bind, Except.bind, hs]; rfl, by simp only [hw, bind, Except.bind, hs]; simp, rfl, h2, ?_⟩
    rw [if_neg (by rw [hs]; simp), hs]
    cases fs with
    | unseen =>
      simp only [EaInv] at h
      exact ⟨hn, rfl, h.2.2.2.1, by rw [h.2.2.2.2.1]; exact h.2.2.2.2.2⟩
    | gone => exact ⟨hn, rfl, h.2.2.2.1, h.2.2.2.2.1⟩
    | lost => exact ⟨hn, rfl, h.2.2.1, h.2.2.2⟩
    | ok d a =>
      obtain ⟨a1, a2, a3, a4, a5, a6, a7, a8⟩ := h
      exact ⟨a1, a2, a3, hn, rfl, a6, a7, a8⟩
  all_goals
    refine ⟨_, _, by simp only [bind, Except.bind, hs]; rfl, by simp only [hw, bind, Except.bind, hs]; rfl, rfl, ?_, ?_⟩
    · exact Nat.le_refl _
    · rw [if_neg (by rw [hs]; simp), hs]
      refine ⟨hn, hn, rfl, rfl, ?_, rfl⟩
      cases fs with
      | unseen => rw [h.2.2.2.2.1]; exact h.2.2.2.2.2
      | gone => exact h.2.2.2.2.1
      | lost => exact h.2.2.2
      | ok d a => obtain ⟨a1, a2, a3, a4, a5, a6, a7, a8⟩ := h; rw [a8]; exact a7

theorem getEaLoop_spec (date : DateT) (m : SMap Stat) : ∀ (pre : List (Nat × Etat)) (st : EaSt),
    EaInv st (lastSaved pre) (pre.getLast?.map Prod.fst) (replay pre) → DatesOrdered Stat.date m → (∀ p ∈ m, p.1 ≠ 0 ∧ EaEtat p.2.present) →
    (∀ p ∈ m, st.maxSeen.instant ≤ p.2.date.instant ∧ st.maxReal.instant ≤ p.2.date.instant) →
    ∃ st', getEaLoop date m st = .ok st' ∧
      EaInv st' (lastSaved (pre ++ history Stat.date Stat.present m date false))
        ((pre ++ history Stat.date Stat.present m date false).getLast?.map Prod.fst) (replay (pre ++ history Stat.date Stat.present m date false)) := by
  induction m with
  | nil => intro pre st h _ _ _; exact ⟨st, rfl, by simpa [history] using h⟩
  | cons q m ih =>
    obtain ⟨n, s⟩ := q
    intro pre st h ho hk hm
    have ho' := List.pairwise_cons.mp ho
    have hk0 := hk (n, s) (by simp)
    have hm0 := hm (n, s) (by simp)
    rw [history_cons]
    by_cases hd : date.val = 0 ∨ s.date.instant ≤ date.instant
    · have hc : ((date.val = 0 ∨ s.date.instant ≤ date.instant) ∧ ¬ (false = true ∧ (s.present = .removed ∨ s.present = .absent))) :=
        ⟨hd, by simp⟩
      rw [if_pos hc]
      obtain ⟨st1, st2, e1, e2, e3, e4, e5⟩ := eaStep date n hk0.1 s hk0.2 st _ _ _ h hm0.1 hm0.2 hd
      have hl : lastSaved (pre ++ [(n, s.present)]) = if s.present = .saved then some n else lastSaved pre := by
        unfold lastSaved
        rw [List.filter_append]
        by_cases hp : s.present = .saved <;> simp [hp]
      have hrp : replay (pre ++ [(n, s.present)]) = (replay pre).step (n, s.present) := by simp [replay, List.foldl_append]
      have hfin : (pre ++ [(n, s.present)]).getLast?.map Prod.fst = some n := by simp
      rw [← hl, ← hrp, ← hfin] at e5
      obtain ⟨st', f1, f2⟩ := ih (pre ++ [(n, s.present)]) st2 e5 ho'.2 (fun p hp => hk p (by simp [hp]))
        (fun p hp => ⟨by rw [e3]; exact ho'.1 p hp, Nat.le_trans e4 (ho'.1 p hp)⟩)
      refine ⟨st', ?_, by rw [List.append_assoc] at f2; exact f2⟩
      rw [getEaLoop, e1]
      show (eaReal date n s st1 >>= fun st => getEaLoop date m st) = _
      rw [e2]; exact f1
    · have hc : ¬ ((date.val = 0 ∨ s.date.instant ≤ date.instant) ∧ ¬ (false = true ∧ (s.present = .removed ∨ s.present = .absent))) :=
        fun hh => hd hh.1
      rw [if_neg hc]
      obtain ⟨v, hv, hvs⟩ := dateVisible_spec date st.maxSeen s.date
      have hvt : v = false := by
        cases v with
        | false => rfl
        | true => exact absurd (hvs.mp rfl).2 hd
      subst hvt
      obtain ⟨w, hw, hws⟩ := dateVisible_spec date st.maxReal s.date
      have hwt : w = false := by
        cases w with
        | false => rfl
        | true => exact absurd (hws.mp rfl).2 hd
      subst hwt
      obtain ⟨st', f1, f2⟩ := ih pre st h ho'.2 (fun p hp => hk p (by simp [hp])) (fun p hp => hm p (by simp [hp]))
      refine ⟨st', ?_, f2⟩
      have e1 : eaSeen date n s st = .ok st := by unfold eaSeen; rw [hv]; rfl
      have e2 : eaReal date n s st = .ok st := by unfold eaReal; rw [hw]; rfl
      rw [getEaLoop, e1]
      show (eaReal date n s st >>= fun st => getEaLoop date m st) = _
      rw [e2]; exact f1

/-- Looking up the EA of a file at a date: the answer told by the states not later than the date, and the archive that
holds the EA.  When removals are to be ignored, the last archive that saved them, if any. -/
theorem C29_ea (m : SMap Stat) (ho : DatesOrdered Stat.date m) (hk : ∀ p ∈ m, p.1 ≠ 0 ∧ EaEtat p.2.present) (date : DateT) (ewr : Bool) :
    ∃ arch r, getEA m date ewr = .ok (arch, r) ∧
      (ewr = true → ∀ n, lastSaved (history Stat.date Stat.present m date false) = some n → arch = n ∧ r = .foundPresent) ∧
      (ewr = false ∨ lastSaved (history Stat.date Stat.present m date false) = none →
        (replay (history Stat.date Stat.present m date false) = .unseen → r = .notFound) ∧
        (replay (history Stat.date Stat.present m date false) = .gone → r = .foundRemoved ∧
          (history Stat.date Stat.present m date false).getLast?.map Prod.fst = some arch) ∧
        (replay (history Stat.date Stat.present m date false) = .lost → r = .notRestorable) ∧
        ∀ d a, replay (history Stat.date Stat.present m date false) = .ok d a → r = .foundPresent ∧ arch = a ∧ d = [a]) := by
  obtain ⟨st, h1, h2⟩ := getEaLoop_spec date m [] {} ⟨rfl, rfl, rfl, rfl, rfl, rfl⟩ ho hk (fun p _ => ⟨by simp [DateT.instant], by simp [DateT.instant]⟩)
  rw [List.nil_append] at h2
  have hpos : ∀ n, lastSaved (history Stat.date Stat.present m date false) = some n → n ≠ 0 := by
    intro n hn
    unfold lastSaved at hn
    obtain ⟨q, hq, hqn⟩ := Option.map_eq_some_iff.mp hn
    have := List.mem_of_getLast? hq
    have := (List.mem_filter.mp this).1
    unfold history at this
    have := (List.mem_filter.mp this).1
    obtain ⟨p, hp, hpq⟩ := List.mem_map.mp this
    have := (hk p ((List.mem_filter.mp hp).1)).1
    rw [← hqn, ← hpq]; exact this
  generalize hh : history Stat.date Stat.present m date false = h at h2 hpos ⊢
  have hg : getEA m date ewr = getEaEnd ewr st := by unfold getEA; rw [h1]; rfl
  rw [hg]
  by_cases hc : ewr = true ∧ st.lastEwr > 0
  · unfold getEaEnd
    have hls : lastSaved h = some st.lastEwr := by
      cases hr : replay h with
      | unseen => rw [hr] at h2; have := h2.2.2.2.2.2; omega
      | gone =>
        rw [hr] at h2; have := h2.2.2.2.2.1
        cases hl : lastSaved h with
        | none => rw [hl] at this; simp at this; omega
        | some x => rw [hl] at this; simp at this; rw [this]
      | lost =>
        rw [hr] at h2; have := h2.2.2.2
        cases hl : lastSaved h with
        | none => rw [hl] at this; simp at this; omega
        | some x => rw [hl] at this; simp at this; rw [this]
      | ok d a => rw [hr] at h2; obtain ⟨a1, a2, a3, a4, a5, a6, a7, a8⟩ := h2; rw [a8, a7]
    have hseen : st.lastSeen ≠ 0 := by
      cases hr : replay h with
      | unseen => rw [hr] at h2; have := h2.2.2.2.2.2; omega
      | gone => rw [hr] at h2; exact h2.1
      | lost => rw [hr] at h2; exact h2.1
      | ok d a => rw [hr] at h2; exact h2.2.2.2.1
    simp only [hc, and_self, if_true]
    have hne : st.lastEwr ≠ 0 := by omega
    refine ⟨st.lastEwr, .foundPresent, by simp [hne, hseen], ?_, ?_⟩
    · intro _ n hn; rw [hls] at hn; injection hn with hn; exact ⟨hn, rfl⟩
    · rintro (h | h)
      · cases h
      · rw [hls] at h; cases h
  · unfold getEaEnd
    simp only [hc, if_false]
    have hno : ewr = true → ∀ n, lastSaved h = some n → False := by
      intro he n hn
      have hz : st.lastEwr = 0 := by
        by_contra hz; exact hc ⟨he, by omega⟩
      have hnz := hpos n hn
      cases hr : replay h with
      | unseen => rw [hr] at h2; have := h2.2.2.2.2.1; rw [hn] at this; cases this
      | gone => rw [hr] at h2; have := h2.2.2.2.2.1; rw [hn] at this; simp at this; omega
      | lost => rw [hr] at h2; have := h2.2.2.2; rw [hn] at this; simp at this; omega
      | ok d a => rw [hr] at h2; obtain ⟨a1, a2, a3, a4, a5, a6, a7, a8⟩ := h2; omega
    cases hr : replay h with
    | unseen =>
      rw [hr] at h2; obtain ⟨a1, a2, a3, a4, a5, a6⟩ := h2
      exact ⟨0, .notFound, by simp [a1, a2], fun he n hn => (hno he n hn).elim, fun _ => ⟨fun _ => rfl, by simp, by simp, by simp⟩⟩
    | gone =>
      rw [hr] at h2; obtain ⟨a1, a2, a3, a4, a5, a6⟩ := h2
      exact ⟨st.archive, .foundRemoved, by simp [a1, a2, a3, a4], fun he n hn => (hno he n hn).elim, fun _ => ⟨by simp, fun _ => ⟨rfl, a6⟩, by simp, by simp⟩⟩
    | lost =>
      rw [hr] at h2; obtain ⟨a1, a2, a3, a4⟩ := h2
      by_cases ha : st.archive = 0
      · exact ⟨0, .notRestorable, by simp [a1, ha], fun he n hn => (hno he n hn).elim, fun _ => ⟨by simp, by simp, fun _ => rfl, by simp⟩⟩
      · exact ⟨st.archive, .notRestorable, by simp [a1, a2, a3, ha], fun he n hn => (hno he n hn).elim, fun _ => ⟨by simp, by simp, fun _ => rfl, by simp⟩⟩
    | ok d a =>
      rw [hr] at h2; obtain ⟨a1, a2, a3, a4, a5, a6, a7, a8⟩ := h2
      refine ⟨a, .foundPresent, by simp [a2, a3, a4, a5, a6], fun he n hn => (hno he n hn).elim, fun _ => ⟨by simp, by simp, by simp, ?_⟩⟩
      intro d' a' he; injection he with h1 h2; subst h1; subst h2; exact ⟨rfl, rfl, a1⟩

/-! Instances: a full backup, a patch, an attribute change, a removal; lookup before and after the removal. -/
def exHist : SMap StatP := [(1, ⟨⟨10, .s⟩, .saved, none, none⟩), (2, ⟨⟨20, .s⟩, .patch, none, none⟩), (3, ⟨⟨30, .s⟩, .inode, none, none⟩),
  (4, ⟨⟨40, .s⟩, .present, none, none⟩), (5, ⟨⟨50, .s⟩, .removed, none, none⟩)]
example : DatesOrdered StatP.date exHist := by simp [DatesOrdered, exHist, DateT.instant, TimeUnit.nanos]
example : getData exHist ⟨45, .s⟩ false = .ok ([1, 2, 3], .foundPresent) ∧ getData exHist ⟨0, .s⟩ false = .ok ([5], .foundRemoved) ∧
    getData exHist ⟨0, .s⟩ true = .ok ([1, 2, 3], .foundPresent) ∧ getData exHist ⟨5, .s⟩ false = .ok ([], .notFound) := by decide
example : NoRevival (history StatP.date StatP.present exHist ⟨45, .s⟩ false) := by
  intro p n s h
  have hh : history StatP.date StatP.present exHist ⟨45, .s⟩ false = [(1, .saved), (2, .patch), (3, .inode), (4, .present)] := by decide
  rw [hh] at h
  have hl := congrArg List.length h
  simp at hl
  rcases p with _ | ⟨a, _ | ⟨b, _ | ⟨c, _ | ⟨d, p⟩⟩⟩⟩
  · simp at h
  · simp at h
  · simp at h
  · simp at h
    obtain ⟨rfl, rfl, rfl, _⟩ := h
    decide
  · simp at hl
    omega

end Dar
