import Verif.Spec.MountPoints
import Verif.Props.BackupExcluded
import Verif.Props.Chain
import Mathlib.Data.List.Induction
import Mathlib.Tactic.Tauto
/- C79: the filesystems considered by a backup are those the option -M asks for. -/
namespace Dar.Mp

/-! ### The text of the options -/

theorem splitLoop_plain (sep : UInt8) : ∀ (l cur : Bytes) (acc : List Bytes), sep ∉ l → splitLoop sep cur acc l = if cur ++ l = [] then acc else acc ++ [cur ++ l]
  | [], cur, acc, _ => by simp [splitLoop]
  | c :: l, cur, acc, h => by
    have hc : c ≠ sep := fun hh => h (by simp [hh])
    have hl : sep ∉ l := fun hh => h (List.mem_cons_of_mem _ hh)
    simp only [splitLoop, ne_eq, hc, not_false_eq_true, if_true]
    rw [splitLoop_plain sep l _ _ hl]
    simp

theorem split_arg (a : UInt8) (ha : a ≠ 58) (p : Bytes) (hp : p ≠ []) (h : (58 : UInt8) ∉ p) : split 58 (a :: 58 :: p) = [[a], p] := by
  unfold split
  simp only [splitLoop, ne_eq, ha, not_false_eq_true, if_true, not_true_eq_false, if_false]
  rw [splitLoop_plain 58 p _ _ h]
  simp [hp]

/-- the fields after options with good arguments -/
def after (p : Params) (l : List MOpt) : Params :=
  ⟨p.same || l.contains .legacy, p.incl ++ l.filterMap (fun o => match o with | .incl q => some q | _ => none),
    p.excl ++ l.filterMap (fun o => match o with | .excl q => some q | _ => none)⟩

theorem options_after (st : Bytes → Option Nat) : ∀ (l : List MOpt) (p : Params), (∀ o ∈ l, ∀ q, o.path? = some q → GoodArg st q) →
    Params.options p (l.map MOpt.text) = .ok (after p l)
  | [], p, _ => by simp [Params.options, after]
  | o :: l, p, h => by
    have hl : ∀ o ∈ l, ∀ q, o.path? = some q → GoodArg st q := fun o ho => h o (List.mem_cons_of_mem _ ho)
    cases o with
    | legacy =>
      simp only [List.map_cons, Params.options, MOpt.text, Params.option, bind, Except.bind]
      rw [options_after st l _ hl]
      simp [after]
    | incl q =>
      have hg := h (.incl q) (by simp) q rfl
      have hq : q ≠ [] := by rintro rfl; simpa using hg.absolute
      simp only [List.map_cons, Params.options, MOpt.text, Params.option, split_arg 73 (by decide) q hq hg.noColon, if_true, bind, Except.bind]
      rw [options_after st l _ hl]
      simp [after]
    | excl q =>
      have hg := h (.excl q) (by simp) q rfl
      have hq : q ≠ [] := by rintro rfl; simpa using hg.absolute
      simp only [List.map_cons, Params.options, MOpt.text, Params.option, split_arg 88 (by decide) q hq hg.noColon, bind, Except.bind]
      rw [if_neg (by decide), if_pos trivial]
      simp only []
      rw [options_after st l _ hl]
      simp [after]

theorem foldl_incl (l : List Bytes) (o : CreateFs) : l.foldl CreateFs.setInclude o = { o with incl := o.incl ++ l } := by
  induction l generalizing o with
  | nil => simp
  | cons p l ih => simp [ih, CreateFs.setInclude]
theorem foldl_excl (l : List Bytes) (o : CreateFs) : l.foldl CreateFs.setExclude o = { o with excl := o.excl ++ l } := by
  induction l generalizing o with
  | nil => simp
  | cons p l ih => simp [ih, CreateFs.setExclude]

/-! ### The sets -/

theorem fsAt_good {st : Bytes → Option Nat} {p : Bytes} (h : GoodArg st p) : ∃ d, st p = some d ∧ fsAt st p = .ok d := by
  obtain ⟨d, hd⟩ := Option.ne_none_iff_exists'.1 h.exists'
  refine ⟨d, hd, ?_⟩
  have hp : p ≠ [] := by rintro rfl; simpa using h.absolute
  have hr : decide (p.head? ≠ some 47) = false := by simp [h.absolute]
  have hs := h.straight
  unfold fsAt
  unfold pathOf at hs ⊢
  simp only [if_neg hp, hr, Bool.false_eq_true, if_false, and_false, false_and] at hs ⊢
  simp only [bind, Except.bind]
  simp only [Bool.false_eq_true, if_false]
  unfold path2id
  rw [hs _ rfl]
  simp [hd]

theorem includeAll_good {st : Bytes → Option Nat} : ∀ (l : List Bytes) (f : Fsids), (∀ p ∈ l, GoodArg st p) →
    ∃ f', f.includeAll st l = .ok f' ∧ f'.root = f.root ∧ f'.excl = f.excl ∧ ∀ d, d ∈ f'.incl ↔ d ∈ f.incl ∨ ∃ p ∈ l, st p = some d
  | [], f, _ => ⟨f, rfl, rfl, rfl, fun d => by simp⟩
  | p :: l, f, h => by
    obtain ⟨e, he, hf⟩ := fsAt_good (h p (by simp))
    obtain ⟨f', h1, h2, h3, h4⟩ := includeAll_good l { f with incl := e :: f.incl } (fun q hq => h q (List.mem_cons_of_mem _ hq))
    refine ⟨f', by simp only [Fsids.includeAll, hf, bind, Except.bind]; exact h1, h2, h3, fun d => ?_⟩
    rw [h4]
    simp only [List.mem_cons, exists_eq_or_imp, he, Option.some.injEq]
    constructor
    · rintro ((rfl | h) | h)
      · exact Or.inr (Or.inl rfl)
      · exact Or.inl h
      · exact Or.inr (Or.inr h)
    · rintro (h | rfl | h)
      · exact Or.inl (Or.inr h)
      · exact Or.inl (Or.inl rfl)
      · exact Or.inr h

theorem excludeAll_good {st : Bytes → Option Nat} : ∀ (l : List Bytes) (f : Fsids), (∀ p ∈ l, GoodArg st p) →
    ∃ f', f.excludeAll st l = .ok f' ∧ f'.root = f.root ∧ f'.incl = f.incl ∧ ∀ d, d ∈ f'.excl ↔ d ∈ f.excl ∨ ∃ p ∈ l, st p = some d
  | [], f, _ => ⟨f, rfl, rfl, rfl, fun d => by simp⟩
  | p :: l, f, h => by
    obtain ⟨e, he, hf⟩ := fsAt_good (h p (by simp))
    obtain ⟨f', h1, h2, h3, h4⟩ := excludeAll_good l { f with excl := e :: f.excl } (fun q hq => h q (List.mem_cons_of_mem _ hq))
    refine ⟨f', by simp only [Fsids.excludeAll, hf, bind, Except.bind]; exact h1, h2, h3, fun d => ?_⟩
    rw [h4]
    simp only [List.mem_cons, exists_eq_or_imp, he, Option.some.injEq]
    constructor
    · rintro ((rfl | h) | h)
      · exact Or.inr (Or.inl rfl)
      · exact Or.inl h
      · exact Or.inr (Or.inr h)
    · rintro (h | rfl | h)
      · exact Or.inl (Or.inr h)
      · exact Or.inl (Or.inl rfl)
      · exact Or.inr h

theorem covered_iff (f : Fsids) (d : Nat) : f.covered d = true ↔ d = f.root ∨ ((f.incl ≠ [] → d ∈ f.incl) ∧ d ∉ f.excl) := by
  unfold Fsids.covered
  by_cases h : d = f.root
  · simp [h]
  · simp only [h, if_false, false_or]
    by_cases hi : f.incl = []
    · by_cases he : f.excl = []
      · simp [hi, he]
      · simp [hi, he]
    · by_cases he : f.excl = []
      · simp [hi, he]
      · simp only [if_neg hi, if_neg he]
        by_cases hd : d ∈ f.incl
        · simp [hd]
        · simp [hd, hi]

/-! ### What remains of the options -/

/-- the legacy form is not given after the form with an argument -/
def LegacyFirst (l : List MOpt) : Prop := l.Pairwise (fun a b => b = .legacy → a = .legacy)

theorem remain_concat (l : List MOpt) (o : MOpt) : remain (l ++ [o]) = (remain l).filter (fun k => k.hasArg == o.hasArg) ++ [o] := by
  simp [remain, List.foldl_append]

theorem remain_mem : ∀ (l : List MOpt), LegacyFirst l → ∀ o, o ∈ remain l ↔ o ∈ l ∧ (o = .legacy → ∀ k ∈ l, k = .legacy) := by
  intro l
  induction l using List.reverseRecOn with
  | nil => intro _ o; simp [remain]
  | append_singleton l x ih =>
    intro hl o
    have hl1 : LegacyFirst l := (List.pairwise_append.1 hl).1
    have hl2 : ∀ a ∈ l, x = .legacy → a = .legacy := fun a ha => (List.pairwise_append.1 hl).2.2 a ha x (by simp)
    rw [remain_concat]
    simp only [List.mem_append, List.mem_filter, List.mem_singleton, ih hl1]
    cases x with
    | legacy =>
      have hall : ∀ a ∈ l, a = .legacy := fun a ha => hl2 a ha rfl
      constructor
      · rintro (⟨⟨h1, -⟩, -⟩ | rfl)
        · exact ⟨Or.inl h1, fun _ k hk => hk.elim (hall k) id⟩
        · exact ⟨Or.inr rfl, fun _ k hk => hk.elim (hall k) id⟩
      · rintro ⟨h1 | rfl, h2⟩
        · have := hall o h1
          exact Or.inr this
        · exact Or.inr rfl
    | incl q =>
      constructor
      · rintro (⟨⟨h1, -⟩, h3⟩ | rfl)
        · exact ⟨Or.inl h1, (fun h => by subst h; simp [MOpt.hasArg] at h3)⟩
        · exact ⟨Or.inr rfl, fun h => by cases h⟩
      · rintro ⟨h1 | rfl, h2⟩
        · cases o with
          | legacy => have := h2 rfl (.incl q) (Or.inr rfl); cases this
          | incl r => exact Or.inl ⟨⟨h1, (fun h => by cases h)⟩, (by simp [MOpt.hasArg])⟩
          | excl r => exact Or.inl ⟨⟨h1, (fun h => by cases h)⟩, (by simp [MOpt.hasArg])⟩
        · exact Or.inr rfl
    | excl q =>
      constructor
      · rintro (⟨⟨h1, -⟩, h3⟩ | rfl)
        · exact ⟨Or.inl h1, (fun h => by subst h; simp [MOpt.hasArg] at h3)⟩
        · exact ⟨Or.inr rfl, fun h => by cases h⟩
      · rintro ⟨h1 | rfl, h2⟩
        · cases o with
          | legacy => have := h2 rfl (.excl q) (Or.inr rfl); cases this
          | incl r => exact Or.inl ⟨⟨h1, (fun h => by cases h)⟩, (by simp [MOpt.hasArg])⟩
          | excl r => exact Or.inl ⟨⟨h1, (fun h => by cases h)⟩, (by simp [MOpt.hasArg])⟩
        · exact Or.inr rfl

theorem after_incl (l : List MOpt) (q : Bytes) : q ∈ (after {} l).incl ↔ MOpt.incl q ∈ l := by
  simp only [after, List.nil_append, List.mem_filterMap]
  constructor
  · rintro ⟨o, ho, h⟩
    cases o <;> simp at h
    subst h; exact ho
  · intro h; exact ⟨_, h, rfl⟩
theorem after_excl (l : List MOpt) (q : Bytes) : q ∈ (after {} l).excl ↔ MOpt.excl q ∈ l := by
  simp only [after, List.nil_append, List.mem_filterMap]
  constructor
  · rintro ⟨o, ho, h⟩
    cases o <;> simp at h
    subst h; exact ho
  · intro h; exact ⟨_, h, rfl⟩

/-- C79: the filter made by dar from the options -M of its command line considers exactly the filesystems the manual tells.
Missing: the legacy form given after the form with an argument, see the counterexample. -/
theorem C79_filesystems_partial (st : Bytes → Option Nat) (root : PathT) (r : Nat) (hr : st root.display = some r) (l : List MOpt) (hl : LegacyFirst l)
    (hg : ∀ o ∈ l, ∀ q, o.path? = some q → GoodArg st q) :
    ∃ f, darIds st root (l.map MOpt.text) = .ok f ∧ ∀ d, f.covered d = true ↔ Considered st r l d := by
  unfold darIds
  rw [options_after st l {} hg]
  simp only [bind, Except.bind]
  have hgi : ∀ q ∈ (after {} l).incl, GoodArg st q := fun q hq => hg _ ((after_incl l q).1 hq) q rfl
  have hge : ∀ q ∈ (after {} l).excl, GoodArg st q := fun q hq => hg _ ((after_excl l q).1 hq) q rfl
  by_cases hn : (after {} l).incl = [] ∧ (after {} l).excl = []
  · have hall : ∀ o ∈ l, o = .legacy := by
      intro o ho
      cases o with
      | legacy => rfl
      | incl q => have := (after_incl l q).2 ho; rw [hn.1] at this; cases this
      | excl q => have := (after_excl l q).2 ho; rw [hn.2] at this; cases this
    have hni : ∀ q, MOpt.incl q ∉ remain l := fun q hq => by cases hall _ ((remain_mem l hl _).1 hq).1
    have hne : ∀ q, MOpt.excl q ∉ remain l := fun q hq => by cases hall _ ((remain_mem l hl _).1 hq).1
    have hsame : (after {} l).same = l.contains .legacy := by simp [after]
    have hleg : MOpt.legacy ∈ remain l ↔ MOpt.legacy ∈ l := by
      rw [remain_mem l hl]; exact ⟨fun h => h.1, fun h => ⟨h, fun _ => hall⟩⟩
    unfold Params.toCreate
    rw [if_pos hn]
    unfold idsOf Fsids.make path2id CreateFs.setSameFs
    rw [hr, hsame]
    simp only [bind, Except.bind, Fsids.includeAll, Fsids.excludeAll]
    refine ⟨_, rfl, fun d => ?_⟩
    rw [covered_iff]
    by_cases hc : MOpt.legacy ∈ l
    · simp only [List.contains_eq_mem, hc, decide_true, if_true]
      constructor
      · intro h
        have : d = r := by simpa using h
        exact ⟨fun _ => this, fun ⟨q, hq⟩ => absurd hq (hni q), fun q hq => absurd hq (hne q)⟩
      · intro h; exact Or.inl (h.legacy (hleg.2 hc))
    · simp only [List.contains_eq_mem, hc, decide_false, Bool.false_eq_true, if_false]
      constructor
      · intro _
        exact ⟨fun h => absurd (hleg.1 h) hc, fun ⟨q, hq⟩ => absurd hq (hni q), fun q hq => absurd hq (hne q)⟩
      · intro _
        by_cases hd : d = r
        · exact Or.inl hd
        · exact Or.inr (by simp [hd])
  · unfold Params.toCreate
    rw [if_neg hn, foldl_excl, foldl_incl]
    simp only [List.nil_append]
    unfold idsOf Fsids.make path2id
    rw [hr]
    simp only [bind, Except.bind, Bool.false_eq_true, if_false]
    obtain ⟨f1, h1, h2, h3, h4⟩ := includeAll_good (after {} l).incl ⟨r, [], [r]⟩ hgi
    rw [h1]
    simp only []
    obtain ⟨f2, g1, g2, g3, g4⟩ := excludeAll_good (after {} l).excl f1 hge
    refine ⟨f2, g1, fun d => ?_⟩
    have hroot : f2.root = r := by rw [g2, h2]
    have harg : ∃ o ∈ l, o ≠ .legacy := by
      by_cases hi : (after {} l).incl = []
      · have he : (after {} l).excl ≠ [] := fun h => hn ⟨hi, h⟩
        obtain ⟨q, hq⟩ := List.exists_mem_of_ne_nil _ he
        exact ⟨_, (after_excl l q).1 hq, by simp⟩
      · obtain ⟨q, hq⟩ := List.exists_mem_of_ne_nil _ hi
        exact ⟨_, (after_incl l q).1 hq, by simp⟩
    have hrl : MOpt.legacy ∉ remain l := by
      intro h
      obtain ⟨o, ho, hne⟩ := harg
      exact hne (((remain_mem l hl _).1 h).2 rfl o ho)
    have hri : ∀ q, MOpt.incl q ∈ remain l ↔ MOpt.incl q ∈ l := fun q => by rw [remain_mem l hl]; simp
    have hre : ∀ q, MOpt.excl q ∈ remain l ↔ MOpt.excl q ∈ l := fun q => by rw [remain_mem l hl]; simp
    have hincl : ∀ e, e ∈ f2.incl ↔ ∃ q, MOpt.incl q ∈ l ∧ st q = some e := by
      intro e
      rw [g3, h4]
      simp only [List.not_mem_nil, false_or]
      exact ⟨fun ⟨q, hq, h⟩ => ⟨q, (after_incl l q).1 hq, h⟩, fun ⟨q, hq, h⟩ => ⟨q, (after_incl l q).2 hq, h⟩⟩
    have hexcl : ∀ e, e ∈ f2.excl ↔ e = r ∨ ∃ q, MOpt.excl q ∈ l ∧ st q = some e := by
      intro e
      rw [g4, h3]
      simp only [List.mem_singleton]
      exact ⟨fun h => h.imp id (fun ⟨q, hq, h⟩ => ⟨q, (after_excl l q).1 hq, h⟩), fun h => h.imp id (fun ⟨q, hq, h⟩ => ⟨q, (after_excl l q).2 hq, h⟩)⟩
    have hne : f2.incl ≠ [] ↔ ∃ q, MOpt.incl q ∈ l := by
      constructor
      · intro h
        obtain ⟨e, he⟩ := List.exists_mem_of_ne_nil _ h
        obtain ⟨q, hq, -⟩ := (hincl e).1 he
        exact ⟨q, hq⟩
      · rintro ⟨q, hq⟩ h
        obtain ⟨e, he⟩ := Option.ne_none_iff_exists'.1 (hg _ hq q rfl).exists'
        have := (hincl e).2 ⟨q, hq, he⟩
        rw [h] at this; cases this
    rw [covered_iff, hroot]
    constructor
    · intro h
      refine ⟨fun hh => absurd hh hrl, fun ⟨q, hq⟩ => ?_, fun q hq hd => ?_⟩
      · rcases h with h | ⟨h, -⟩
        · exact Or.inl h
        · obtain ⟨q', hq', hd⟩ := (hincl d).1 (h (hne.2 ⟨q, (hri q).1 hq⟩))
          exact Or.inr ⟨q', (hri q').2 hq', hd⟩
      · rcases h with h | ⟨-, h⟩
        · exact h
        · exact absurd ((hexcl d).2 (Or.inr ⟨q, (hre q).1 hq, hd⟩)) h
    · intro h
      by_cases hd : d = r
      · exact Or.inl hd
      · refine Or.inr ⟨fun hh => ?_, fun hh => ?_⟩
        · obtain ⟨q, hq⟩ := hne.1 hh
          rcases h.incl ⟨q, (hri q).2 hq⟩ with h | ⟨q', hq', h⟩
          · exact absurd h hd
          · exact (hincl d).2 ⟨q', (hri q').1 hq', h⟩
        · rcases (hexcl d).1 hh with h' | ⟨q, hq, h'⟩
          · exact hd h'
          · exact hd (h.excl q ((hre q).2 hq) h')

theorem includeAll_args {st : Bytes → Option Nat} : ∀ (l : List Bytes) (f f' : Fsids), f.includeAll st l = .ok f' → ∀ p ∈ l, ∃ d, fsAt st p = .ok d
  | [], _, _, _, p, hp => by cases hp
  | q :: l, f, f', h, p, hp => by
    simp only [Fsids.includeAll, bind, Except.bind] at h
    cases hq : fsAt st q with
    | error e => rw [hq] at h; cases h
    | ok d =>
      rw [hq] at h
      rcases List.mem_cons.1 hp with rfl | hp
      · exact ⟨d, hq⟩
      · exact includeAll_args l _ f' h p hp
theorem excludeAll_args {st : Bytes → Option Nat} : ∀ (l : List Bytes) (f f' : Fsids), f.excludeAll st l = .ok f' → ∀ p ∈ l, ∃ d, fsAt st p = .ok d
  | [], _, _, _, p, hp => by cases hp
  | q :: l, f, f', h, p, hp => by
    simp only [Fsids.excludeAll, bind, Except.bind] at h
    cases hq : fsAt st q with
    | error e => rw [hq] at h; cases h
    | ok d =>
      rw [hq] at h
      rcases List.mem_cons.1 hp with rfl | hp
      · exact ⟨d, hq⟩
      · exact excludeAll_args l _ f' h p hp

theorem relative_of {p : Bytes} {t : PathT} (h : pathOf p false = .ok t) : t.relative = decide (p.head? ≠ some 47) := by
  unfold pathOf at h
  by_cases hp : p = []
  · rw [if_pos hp] at h; cases h
  · rw [if_neg hp] at h
    by_cases hx : (decide (p.head? ≠ some 47)) = true
    · simp only [hx] at h ⊢
      simp at h
      split at h <;> simp at h
      rw [← h]
    · simp only [hx] at h ⊢
      simp at h
      simp [← h]

/-- C79: nothing is saved when a path given to the library is relative, or does not lead to a filesystem. -/
theorem C79_refused (st : Bytes → Option Nat) (root : PathT) (o : CreateFs) (p : Bytes) (hp : p ∈ o.incl ∨ p ∈ o.excl)
    (hb : p.head? ≠ some 47 ∨ ∀ q, st q = none) : ∀ f, idsOf st root o ≠ .ok f := by
  intro f h
  have hok : ∃ d, fsAt st p = .ok d := by
    simp only [idsOf, bind, Except.bind] at h
    cases h0 : Fsids.make st o.sameFs root with
    | error e => rw [h0] at h; cases h
    | ok f0 =>
      rw [h0] at h
      simp only [] at h
      cases h1 : f0.includeAll st o.incl with
      | error e => rw [h1] at h; cases h
      | ok f1 =>
        rw [h1] at h
        exact hp.elim (includeAll_args _ _ _ h1 p) (excludeAll_args _ _ _ h p)
  obtain ⟨d, hd⟩ := hok
  simp only [fsAt, bind, Except.bind] at hd
  cases ht : pathOf p false with
  | error e => rw [ht] at hd; cases hd
  | ok t =>
    rw [ht] at hd
    rcases hb with hb | hb
    · have hr : t.relative = true := by rw [relative_of ht]; simp [hb]
      simp [hr] at hd
    · simp only [path2id, hb] at hd
      split at hd <;> cases hd

/-! ### The backup -/

/-- what saving an entry alone does to the list of the inodes saved -/
theorem head_cases {o : BkOpts} {rstars : Nat → Obj} {refd : Option (List BEntry)} {path : List Bytes} {e : BEntry} {c : BkCore} {h : BkHead}
    (hh : bkHead o rstars refd path e c = .ok h) :
    (∀ x' c', h = .down x' c' → c'.wrote = markWrote c.wrote e) ∧
    (∀ e' c', h = .leaf e' c' → (c'.wrote = c.wrote ∧ ((∃ n, e' = .ignored n) ∨ ∃ x, e' = .ignoredDir x)) ∨ (c'.wrote = c.wrote ∧ e.known c.wrote = true ∧ e' = e) ∨
      (c'.wrote = markWrote c.wrote e ∧ o.cov (path.reverse ++ [e.name]) false = true ∧ e.isDir = false ∧ ∃ x, e' = e.withObj x)) := by
  unfold bkHead at hh
  rw [List.reverse_cons] at hh
  by_cases hc : o.cov (path.reverse ++ [e.name]) (e.known c.wrote) = true
  · rw [if_pos hc] at hh
    by_cases hk : e.known c.wrote = true
    · rw [if_pos hk] at hh
      cases hh
      exact ⟨(fun _ _ h => by cases h), (fun _ _ h => by cases h; exact Or.inr (Or.inl ⟨rfl, hk, rfl⟩))⟩
    · rw [if_neg hk] at hh
      have hk' : e.known c.wrote = false := by simpa using hk
      rw [hk'] at hc
      cases hx : e.obj c.stars with
      | none => rw [hx] at hh; cases hh
      | some x =>
        rw [hx] at hh
        simp only at hh
        unfold headOne at hh
        cases hd : decideEntry o x (refObj o c.stars rstars refd e) with
        | error err => rw [hd] at hh; cases hh
        | ok x' =>
          rw [hd] at hh
          simp only [bind, Except.bind, List.reverse_cons] at hh
          cases hfl : o.fails (path.reverse ++ [e.name]) with
          | none =>
            rw [hfl] at hh
            cases hh
            by_cases hi : e.isDir = true
            · simp only [if_pos hi]
              exact ⟨(fun _ _ h => by cases h; rfl), (fun _ _ h => by cases h)⟩
            · simp only [if_neg hi]
              exact ⟨(fun _ _ h => by cases h), (fun _ _ h => by cases h; exact Or.inr (Or.inr ⟨rfl, hc, by simpa using hi, _, rfl⟩))⟩
          | some w =>
            rw [hfl] at hh
            cases hh
            exact ⟨(fun _ _ h => by cases h), (fun _ _ h => by cases h; exact Or.inl ⟨rfl, Or.inl ⟨_, rfl⟩⟩)⟩
  · rw [if_neg hc] at hh
    unfold headSkip at hh
    cases e with
    | dir x ch =>
      simp only at hh
      by_cases he : o.emptyDir = true
      · rw [if_pos he] at hh
        cases hs : emptyDirStatus o x (refObj o c.stars rstars refd (.dir x ch)) with
        | error err => rw [hs] at hh; cases hh
        | ok st => rw [hs] at hh; cases hh; exact ⟨(fun _ _ h => by cases h), (fun _ _ h => by cases h; exact Or.inl ⟨rfl, Or.inr ⟨_, rfl⟩⟩)⟩
      · rw [if_neg he] at hh; cases hh
        exact ⟨(fun _ _ h => by cases h), (fun _ _ h => by cases h; exact Or.inl ⟨rfl, Or.inl ⟨_, rfl⟩⟩)⟩
    | _ => cases hh; exact ⟨(fun _ _ h => by cases h), (fun _ _ h => by cases h; exact Or.inl ⟨rfl, Or.inl ⟨_, rfl⟩⟩)⟩

theorem noStar_ignored {e' : BEntry} (h : (∃ n, e' = .ignored n) ∨ ∃ x, e' = .ignoredDir x) (p : List Bytes) (n : Bytes) (k : Nat) : ¬ OccursIn [e'] p (.mirage n k) := by
  intro ho
  rcases h with ⟨m, rfl⟩ | ⟨x, rfl⟩ <;> cases ho with
  | here hm => rw [List.mem_singleton] at hm; cases hm
  | inside hm _ => rw [List.mem_singleton] at hm; cases hm

theorem head_star {o : BkOpts} {Q : Nat → Prop} {rstars : Nat → Obj} {refd : Option (List BEntry)} {path : List Bytes} {e : BEntry} {c : BkCore} {e' : BEntry} {c' : BkCore}
    (hh : bkHead o rstars refd path e c = .ok (.leaf e' c')) (hs : ∀ n k, e = .mirage n k → o.cov (path.reverse ++ [e.name]) false = true → Q k)
    (hw : ∀ k ∈ c.wrote, Q k) (hnd : ∀ x l, e ≠ .dir x l) : (∀ k ∈ c'.wrote, Q k) ∧ ∀ p n k, OccursIn [e'] p (.mirage n k) → Q k := by
  have one : ∀ (e : BEntry), (∀ x l, e ≠ .dir x l) → ∀ p n k, OccursIn [e] p (.mirage n k) → e = .mirage n k := by
    intro e hnd p n k ho
    cases ho with
    | here hm => rw [List.mem_singleton] at hm; exact hm.symm
    | inside hm _ => rw [List.mem_singleton] at hm; exact absurd hm.symm (hnd _ _)
  rcases (head_cases hh).2 _ _ rfl with ⟨h1, h2⟩ | ⟨h1, h2, rfl⟩ | ⟨h1, h2, h3, x, rfl⟩
  · exact ⟨by rw [h1]; exact hw, fun p n k ho => absurd ho (noStar_ignored h2 p n k)⟩
  · refine ⟨by rw [h1]; exact hw, fun p n k ho => ?_⟩
    have := one _ hnd p n k ho
    subst this
    exact hw k (by simpa [BEntry.known] using h2)
  · cases e with
    | dir y l => exact absurd rfl (hnd y l)
    | mirage m j =>
      have hj : Q j := hs m j rfl h2
      refine ⟨?_, fun p n k ho => ?_⟩
      · rw [h1]
        intro k hk
        rcases List.mem_cons.1 hk with rfl | hk
        · exact hj
        · exact hw k hk
      · have := one _ (by intro a l h; cases h) p n k ho
        cases this
        exact hj
    | _ =>
      refine ⟨by rw [h1]; exact hw, fun p n k ho => ?_⟩
      have := one _ (by intro a l h; cases h) p n k ho
      cases this

theorem head_dir {o : BkOpts} {rstars : Nat → Obj} {refd : Option (List BEntry)} {path : List Bytes} {x : Obj} {ch : List BEntry} {c : BkCore} {h : BkHead}
    (hh : bkHead o rstars refd path (.dir x ch) c = .ok h) :
    (∀ x' c', h = .down x' c' → c'.wrote = c.wrote) ∧
    (∀ e' c', h = .leaf e' c' → c'.wrote = c.wrote ∧ (∀ n k, e' ≠ .mirage n k) ∧ ∀ x l, e' ≠ .dir x l) := by
  obtain ⟨h1, h2⟩ := head_cases hh
  refine ⟨fun x' c' h => h1 x' c' h, fun e' c' h => ?_⟩
  rcases h2 e' c' h with ⟨h1, h2⟩ | ⟨h1, h2, rfl⟩ | ⟨h1, h2, h3, y, rfl⟩
  · refine ⟨h1, ?_, ?_⟩ <;> rcases h2 with ⟨m, rfl⟩ | ⟨y, rfl⟩ <;> simp
  · simp [BEntry.known] at h2
  · simp [BEntry.isDir] at h3

mutual
/-- the hard links recorded as such have a name that was considered -/
theorem bkEntry_star (o : BkOpts) (Q : Nat → Prop) (rstars : Nat → Obj) (refd : Option (List BEntry)) (path : List Bytes) (e : BEntry) (c : BkCore) (e' : BEntry) (c' : BkCore)
    (h : bkEntry o rstars refd path e c = .ok (e', c')) (hs : BEntry.Each (fun q e => ∀ n k, e = .mirage n k → o.cov q false = true → Q k) path.reverse e)
    (hw : ∀ k ∈ c.wrote, Q k) : (∀ k ∈ c'.wrote, Q k) ∧ ∀ p n k, OccursIn [e'] p (.mirage n k) → Q k := by
  have key : ∀ e, (∀ n k, e = .mirage n k → o.cov (path.reverse ++ [e.name]) false = true → Q k) → (∀ x l, e ≠ .dir x l) → (do
      let h ← bkHead o rstars refd path e c
      match h with
      | .leaf e' c' => .ok (e', c')
      | .down _ _ => .error .bug) = .ok (e', c') → (∀ k ∈ c'.wrote, Q k) ∧ ∀ p n k, OccursIn [e'] p (.mirage n k) → Q k := by
    intro e hs hnd h
    cases hh : bkHead o rstars refd path e c with
    | error err => rw [hh] at h; cases h
    | ok r =>
      rw [hh] at h
      cases r with
      | leaf e1 c1 => cases h; exact head_star hh hs hw hnd
      | down x1 c1 => cases h
  match e, hs with
  | .dir x ch, hs =>
    unfold BEntry.Each at hs
    rw [bkEntry] at h
    cases hh : bkHead o rstars refd path (.dir x ch) c with
    | error err => rw [hh] at h; cases h
    | ok r =>
      rw [hh] at h
      cases r with
      | leaf e1 c1 =>
        cases h
        obtain ⟨h1, h2⟩ := head_dir hh
        obtain ⟨h2, h3⟩ := h2 _ _ rfl
        refine ⟨by rw [h2]; exact hw, fun p n k ho => ?_⟩
        cases ho with
        | here hm => rw [List.mem_singleton] at hm; exact absurd hm.symm (h3.1 n k)
        | inside hm _ => rw [List.mem_singleton] at hm; exact absurd hm.symm (h3.2 _ _)
      | down x1 c1 =>
        simp only [bind, Except.bind] at h
        cases hl : bkList o rstars (refSub refd x.name) (x.name :: path) ch c1 with
        | error err => rw [hl] at h; cases h
        | ok r2 =>
          obtain ⟨l2, c2⟩ := r2
          rw [hl] at h
          cases h
          obtain ⟨h1, -⟩ := head_dir hh
          obtain ⟨g1, g2⟩ := bkList_star o Q rstars _ _ ch c1 l2 _ hl (by rw [List.reverse_cons]; exact hs.2) (by rw [h1 _ _ rfl]; exact hw)
          refine ⟨g1, fun p n k ho => ?_⟩
          cases ho with
          | here hm => rw [List.mem_singleton] at hm; cases hm
          | inside hm ho => rw [List.mem_singleton] at hm; cases hm; exact g2 _ n k ho
  | .node x, hs => exact key _ (fun n k h => by cases h) (fun _ _ h => by cases h) h
  | .mirage n k, hs => exact key _ (by unfold BEntry.Each at hs; exact hs) (fun _ _ h => by cases h) h
  | .detruit n k d, hs => exact key _ (fun n k h => by cases h) (fun _ _ h => by cases h) h
  | .ignored n, hs => exact key _ (fun n k h => by cases h) (fun _ _ h => by cases h) h
  | .ignoredDir x, hs => exact key _ (fun n k h => by cases h) (fun _ _ h => by cases h) h
theorem bkList_star (o : BkOpts) (Q : Nat → Prop) (rstars : Nat → Obj) (refd : Option (List BEntry)) (path : List Bytes) (l : List BEntry) (c : BkCore) (l' : List BEntry) (c' : BkCore)
    (h : bkList o rstars refd path l c = .ok (l', c')) (hs : BEntry.EachL (fun q e => ∀ n k, e = .mirage n k → o.cov q false = true → Q k) path.reverse l)
    (hw : ∀ k ∈ c.wrote, Q k) : (∀ k ∈ c'.wrote, Q k) ∧ ∀ p n k, OccursIn l' p (.mirage n k) → Q k := by
  match l, hs with
  | [], hs =>
    rw [bkList] at h; cases h
    refine ⟨hw, fun p n k ho => ?_⟩
    cases ho with
    | here hm => cases hm
    | inside hm _ => cases hm
  | e :: l, hs =>
    unfold BEntry.EachL at hs
    rw [bkList] at h
    cases h1 : bkEntry o rstars refd path e c with
    | error err => rw [h1] at h; cases h
    | ok r =>
      obtain ⟨e1, c1⟩ := r
      rw [h1] at h
      simp only [bind, Except.bind] at h
      cases h2 : bkList o rstars refd path l c1 with
      | error err => rw [h2] at h; cases h
      | ok r2 =>
        obtain ⟨l2, c2⟩ := r2
        rw [h2] at h
        cases h
        obtain ⟨g1, g2⟩ := bkEntry_star o Q rstars refd path e c e1 c1 h1 hs.1 hw
        obtain ⟨g3, g4⟩ := bkList_star o Q rstars refd path l c1 l2 _ h2 hs.2 g1
        refine ⟨g3, fun p n k ho => ?_⟩
        rcases ho.split with ho | ho
        · exact g2 p n k ho
        · exact g4 p n k ho
end

theorem each_of_occurs {P : List Bytes → BEntry → Prop} : ∀ (l : List BEntry) (path : List Bytes), (∀ p e, OccursIn l p e → P (path ++ p) e) → BEntry.EachL P path l := by
  have aux : ∀ (n : Nat) (l : List BEntry) (path : List Bytes), sizeOf l ≤ n → (∀ p e, OccursIn l p e → P (path ++ p) e) → BEntry.EachL P path l := by
    intro n
    induction n with
    | zero => intro l path hl h; cases l <;> simp at hl
    | succ n ih =>
      intro l path hl h
      cases l with
      | nil => unfold BEntry.EachL; trivial
      | cons e l =>
        have hl' : sizeOf e + sizeOf l ≤ n := by simp at hl; omega
        unfold BEntry.EachL
        refine ⟨?_, ih l path (by omega) (fun p e' ho => ?_)⟩
        · have he := h [e.name] e (.here (by simp))
          cases e with
          | dir x ch =>
            unfold BEntry.Each
            refine ⟨he, ih ch _ (by simp at hl'; omega) (fun p e' ho => ?_)⟩
            have := h (x.name :: p) e' (.inside (List.mem_cons_self) ho)
            simpa using this
          | _ => unfold BEntry.Each; exact he
        · cases ho with
          | here hm => exact h _ _ (.here (List.mem_cons_of_mem _ hm))
          | inside hm ho => exact h _ _ (.inside (List.mem_cons_of_mem _ hm) ho)
  intro l path h
  exact aux _ l path (Nat.le_refl _) h

theorem kept_iff (o : BkOpts) (f : Fsids) (dev : List Bytes → Nat) (p : List Bytes) :
    Kept (withFs o f dev) p ↔ Kept o p ∧ ∀ q, q ≠ [] → q <+: p → f.covered (dev q) = true := by
  unfold Kept withFs
  constructor
  · intro h
    refine ⟨fun q h1 h2 => ⟨?_, (h q h1 h2).2⟩, fun q h1 h2 => ?_⟩ <;> (have := (h q h1 h2).1; simp at this; tauto)
  · rintro ⟨h1, h2⟩ q hq hp
    refine ⟨?_, (h1 q hq hp).2⟩
    simp [(h1 q hq hp).1, h2 q hq hp]

/-- C79, the archive: a file or directory is recorded as such only if it and all the directories above it are on filesystems the filter covers, and each one the
other filters keep that is so is recorded. -/
theorem C79_recorded (o : BkOpts) (f : Fsids) (dev : List Bytes → Nat) (src ref cat : BCat) (st : Stats) (h : backup (withFs o f dev) src ref = .ok (cat, st)) (p : List Bytes) :
    ((∃ x, treeAt cat.root p = some (.node x)) ↔ Kept o p ∧ (∀ q, q ≠ [] → q <+: p → f.covered (dev q) = true) ∧ ∃ x, treeAt src.root p = some (.node x)) ∧
    ((∃ x ch, treeAt cat.root p = some (.dir x ch)) ↔ Kept o p ∧ (∀ q, q ≠ [] → q <+: p → f.covered (dev q) = true) ∧ ∃ x ch, treeAt src.root p = some (.dir x ch)) := by
  refine ⟨⟨?_, ?_⟩, ⟨?_, ?_⟩⟩
  · rintro ⟨x, hx⟩
    obtain ⟨hk, y, hy, -⟩ := (C33_nothing_else _ src ref cat st h p x).1 hx
    obtain ⟨h1, h2⟩ := (kept_iff o f dev p).1 hk
    exact ⟨h1, h2, y, hy⟩
  · rintro ⟨h1, h2, y, hy⟩
    obtain ⟨x, hx, -⟩ := (C33_recorded _ src ref cat st h p y ((kept_iff o f dev p).2 ⟨h1, h2⟩)).1 hy
    exact ⟨x, hx⟩
  · rintro ⟨x, ch, hx⟩
    obtain ⟨hk, y, c, hy, -⟩ := (C33_nothing_else _ src ref cat st h p x).2 ch hx
    obtain ⟨h1, h2⟩ := (kept_iff o f dev p).1 hk
    exact ⟨h1, h2, y, c, hy⟩
  · rintro ⟨h1, h2, y, c, hy⟩
    obtain ⟨x, ch, hx, -⟩ := (C33_recorded _ src ref cat st h p y ((kept_iff o f dev p).2 ⟨h1, h2⟩)).2 c hy
    exact ⟨x, ch, hx⟩

/-- C79, hard links: no name of a hard linked inode that is on a filesystem the filter does not cover is recorded. -/
theorem C79_links (o : BkOpts) (f : Fsids) (dev : List Bytes → Nat) (src ref cat : BCat) (st : Stats) (h : backup (withFs o f dev) src ref = .ok (cat, st))
    (starDev : Nat → Nat) (hd : ∀ p n k, OccursIn src.root p (.mirage n k) → dev p = starDev k) (p : List Bytes) (n : Bytes) (k : Nat)
    (ht : treeAt cat.root p = some (.mirage n k)) : f.covered (starDev k) = true := by
  rw [backup_eq] at h
  cases hb : bkList (withFs o f dev) ref.stars (some ref.root) [] src.root ⟨src.stars, [], Stats.zero⟩ with
  | error e => rw [hb] at h; cases h
  | ok r =>
    obtain ⟨l', c'⟩ := r
    rw [hb] at h
    cases h
    refine (bkList_star (withFs o f dev) (fun k => f.covered (starDev k) = true) _ _ [] src.root _ l' c' hb ?_ (by simp)).2 p n k (tree_occurs ht)
    refine each_of_occurs _ _ (fun q e ho m j he hc => ?_)
    subst he
    rw [← hd q m j ho]
    have : o.cov q false = true ∧ f.covered (dev q) = true := by simpa [withFs] using hc
    exact this.2

/-- C79, mount points: a directory on a filesystem that is not covered, in a directory that is kept, is left out, or saved empty if this is asked. -/
theorem C79_mount_point (o : BkOpts) (f : Fsids) (dev : List Bytes → Nat) (src ref cat : BCat) (st : Stats) (h : backup (withFs o f dev) src ref = .ok (cat, st)) (p : List Bytes)
    (x : Obj) (ch : List BEntry) (ht : treeAt src.root p = some (.dir x ch)) (hk : ∀ q, q ≠ [] → q <+: p → q ≠ p → o.cov q false = true ∧ o.fails q = none ∧ f.covered (dev q) = true)
    (hf : f.covered (dev p) = false) :
    (o.emptyDir = false ∧ treeAt cat.root p = some (.ignored x.name)) ∨ (o.emptyDir = true ∧ ∃ y, treeAt cat.root p = some (.ignoredDir y) ∧ y.name = x.name) := by
  obtain ⟨e', h1, h2⟩ := C33_excluded (withFs o f dev) src ref cat st h p _ ht
    (fun q h1 h2 h3 => by obtain ⟨g1, g2, g3⟩ := hk q h1 h2 h3; exact ⟨by simp [withFs, g1, g3], g2⟩)
    (fun k hk => by
      cases k with
      | true => obtain ⟨n, i, hh⟩ := hk rfl; cases hh
      | false => simp [withFs, hf])
  rcases h2 with ⟨h2, rfl⟩ | ⟨h2, s, rfl, -⟩
  · exact Or.inl ⟨h2, h1⟩
  · exact Or.inr ⟨h2, _, h1, rfl⟩

/-! ### Examples and counterexamples -/

/-- "/" is on the filesystem 1, "/v" on 2, "/v/s" on 3, "/m" on 4 -/
private def exSt : Bytes → Option Nat := fun p => if p = [47] then some 1 else if p = [47, 118] then some 2 else if p = [47, 118, 47, 115] then some 3 else if p = [47, 109] then some 4 else none
private def exRoot : PathT := ⟨[], false, false⟩

/-- "-M I:/v -M X:/v/s -M I:/m": the root, /v and /m, not /v/s nor others -/
theorem C79_example : LegacyFirst [.incl [47, 118], .excl [47, 118, 47, 115], .incl [47, 109]] ∧
    (∀ o ∈ [MOpt.incl [47, 118], .excl [47, 118, 47, 115], .incl [47, 109]], ∀ q, o.path? = some q → GoodArg exSt q) ∧
    ∃ f, darIds exSt exRoot ([.incl [47, 118], .excl [47, 118, 47, 115], .incl [47, 109]].map MOpt.text) = .ok f ∧
      f.covered 1 = true ∧ f.covered 2 = true ∧ f.covered 3 = false ∧ f.covered 4 = true ∧ f.covered 5 = false := by
  refine ⟨by simp [LegacyFirst], ?_, _, rfl, rfl, rfl, rfl, rfl, rfl⟩
  intro o ho q hq
  simp only [List.mem_cons, List.not_mem_nil, or_false] at ho
  rcases ho with rfl | rfl | rfl <;> cases hq
  · exact ⟨rfl, by decide, by decide, fun t h => by cases h; rfl⟩
  · exact ⟨rfl, by decide, by decide, fun t h => by cases h; rfl⟩
  · exact ⟨rfl, by decide, by decide, fun t h => by cases h; rfl⟩

/-- "-M" alone: only the root -/
theorem C79_legacy_example : ∃ f, darIds exSt exRoot [none] = .ok f ∧ f.covered 1 = true ∧ f.covered 2 = false := ⟨_, rfl, rfl, rfl⟩

/-- "-M I:/v -M": according to the manual the first option is erased, but it is the second one that is ignored: /v is saved. -/
theorem C79_legacy_counterexample : ∃ f, darIds exSt exRoot ([.incl [47, 118], .legacy].map MOpt.text) = .ok f ∧ f.covered 2 = true ∧
    ¬ Considered exSt 1 [.incl [47, 118], .legacy] 2 :=
  ⟨_, rfl, rfl, fun h => by have := h.legacy (by decide); cases this⟩

/-- The interface tells that set_same_fs_exclude makes any previous call to set_same_fs ignored: it is not, only the root is covered while without this
call all but the given filesystem are. -/
theorem C79_api_counterexample : ∃ f g, idsOf exSt exRoot ((CreateFs.setSameFs {} true).setExclude [47, 118]) = .ok f ∧
    idsOf exSt exRoot (CreateFs.setExclude {} [47, 118]) = .ok g ∧ f.covered 4 = false ∧ g.covered 4 = true := ⟨_, _, rfl, rfl, rfl, rfl⟩

/-- "-M X:/v/s/..", where /v/s is a symbolic link to a directory in a directory of the filesystem 4: the filesystem of "/v" is excluded instead of 4. -/
theorem C79_dotdot_counterexample :
    let st := fun p => if p = [47, 118, 47, 115, 47, 46, 46] then some 4 else exSt p
    ∃ f, darIds st exRoot ([.excl [47, 118, 47, 115, 47, 46, 46]].map MOpt.text) = .ok f ∧ f.covered 2 = false ∧ f.covered 4 = true := ⟨_, rfl, rfl, rfl⟩

/-- A path with ':' cannot be given. -/
theorem C79_colon_counterexample : darIds (fun _ => some 1) exRoot ([.incl [47, 58]].map MOpt.text) = .ok ⟨1, [1], [1]⟩ ∧
    darIds (fun _ => some 1) exRoot ([.incl [47, 58, 97]].map MOpt.text) = .error .range := ⟨rfl, rfl⟩

private def mkO (name : Bytes) (kind : InoKind) : Obj := ⟨name, ⟨kind, 0, 0, 420, ⟨5, .s⟩, ⟨5, .s⟩, .saved, 3, false, false, false, 0, 0, [], .none, 0, 0⟩, .none, [], [], []⟩
private def exBk : BkOpts := ⟨.us, 0, .all, false, 0, false, .anyInodeChange, false, fun _ _ => true, fun _ => false, fun _ => none⟩
/-- a mounted filesystem at /v, of which everything is left out with the option "-M" -/
theorem C79_backup_example : ∃ f cat st, darIds exSt exRoot [none] = .ok f ∧
    backup (withFs exBk f (fun p => if p.head? = some [118] then 2 else 1))
      ⟨[.node (mkO [97] .file), .dir (mkO [118] .dir) [.node (mkO [98] .file)], .mirage [99] 0], fun _ => mkO [] .file⟩ ⟨[], fun _ => mkO [] .file⟩ = .ok (cat, st) ∧
    (∃ x, treeAt cat.root [[97]] = some (.node x)) ∧ treeAt cat.root [[118]] = some (.ignored [118]) ∧ treeAt cat.root [[118], [98]] = none ∧
    treeAt cat.root [[99]] = some (.mirage [99] 0) := ⟨_, _, _, rfl, rfl, ⟨_, rfl⟩, rfl, rfl, rfl⟩

end Dar.Mp
