import Verif.Lemmas.Merge13
import Verif.Props.Chain
/- C45: the decremental backup, made of two archives by the merging. -/
namespace Dar

/-! ### Specification -/

/-- Two dates are the same at the accuracy they share. -/
def SameDate (capa : TimeUnit) (a b : DateT) : Prop := a.instant / (looseUnit capa a b).nanos = b.instant / (looseUnit capa a b).nanos
/-- The inode has the same type, owner, permissions, modification date, size... in both archives. -/
def DataSame (x y : Option Obj) : Prop := ∃ a b, x = some a ∧ y = some b ∧ SameInode a.ino b.ino
/-- The inode has extended attributes in both with the same change date, or in none. -/
def AttrSame (capa : TimeUnit) (x y : Option Obj) : Prop :=
  (∃ a b, x = some a ∧ y = some b ∧ a.ino.hasEa ∧ b.ino.hasEa ∧ SameDate capa a.ino.ctime b.ino.ctime) ∨
  ((∀ a, x = some a → ¬ a.ino.hasEa) ∧ ∀ b, y = some b → ¬ b.ino.hasEa)
/-- Dates are in canonical form (as libdar makes them). -/
def CanonicalDates (l : List BEntry) : Prop :=
  ∀ p e x, treeAt l p = some e → (e = .node x ∨ (∃ c, e = .dir x c) ∨ e = .ignoredDir x) → x.ino.mtime.Canonical ∧ x.ino.ctime.Canonical

/-- A decremental backup: `l1` is the old archive, `l2` the new one, `r` tells what to do from the state of the new one to come back to the one of the old one.
`dt` is the date of the root of the new one. -/
structure Decremental (o : MgOpts) (t : Nat → Obj) (dt : DateT) (l1 l2 r : List BEntry) : Prop where
  distinct : BEntry.DistinctL r
  /-- what only the old archive has is kept whole -/
  old : ∀ p e, treeAt l1 p = some e → treeAt l2 p = none → treeAt r p = some e
  /-- what only the new one has is recorded as to be deleted -/
  gone : ∀ p n e d, treeAt l1 (p ++ [n]) = none → (p = [] ∨ ∃ x c, treeAt l1 p = some (.dir x c)) → treeAt l2 (p ++ [n]) = some e → e.isIgnoredDir = false →
    dirDate dt l2 p = some d → treeAt r (p ++ [n]) = some (.detruit n (e.sigKind t) d)
  /-- the others are those of the old archive, stored or not according to what changed -/
  both : ∀ p e1 e2, treeAt l1 p = some e1 → treeAt l2 p = some e2 → e1.isIgnoredDir = false → e2.isIgnoredDir = false →
    ∃ d a e, (d = .preserveMark ∧ DataSame (e1.obj t) (e2.obj t) ∨ d = .preserve ∧ ¬ DataSame (e1.obj t) (e2.obj t)) ∧
      (a = .preserveMark ∧ AttrSame o.capa (e1.obj t) (e2.obj t) ∨ a = .preserve ∧ ¬ AttrSame o.capa (e1.obj t) (e2.obj t)) ∧
      treeAt r p = some e ∧ HeadOf o t t d a e1 e2 e
  /-- nothing else -/
  only : ∀ p, treeAt r p ≠ none → treeAt l1 p ≠ none ∨ treeAt l2 p ≠ none

/-! ### Proofs -/

theorem crit_inode {t : Nat → Obj} {f : Bool} (e : BEntry) (h : e.isHardLink = false) : (e.crit t f).getInode = (e.obj t).map Obj.ino := by
  cases e <;> first | rfl | cases h
theorem crit_not_mirage {t : Nat → Obj} {f : Bool} (e : BEntry) (h : e.isHardLink = false) : ∀ i g, e.crit t f ≠ .mirage i g := by
  intro i g hc
  cases e <;> first | (cases h; done) | (cases hc; done)
theorem crit_wf {t : Nat → Obj} {f : Bool} {l : List BEntry} {p : List Bytes} {e : BEntry} (hc : CanonicalDates l) (hp : treeAt l p = some e)
    (h : e.isHardLink = false) : (e.crit t f).Wf := by
  refine ⟨fun i hi => ?_, fun i g hm => absurd hm (crit_not_mirage e h i g)⟩
  rw [crit_inode e h] at hi
  cases e with
  | node x => cases hi; exact hc p _ x hp (Or.inl rfl)
  | dir x c => cases hi; exact hc p _ x hp (Or.inr (Or.inl ⟨c, rfl⟩))
  | ignoredDir x => cases hi; exact hc p _ x hp (Or.inr (Or.inr rfl))
  | mirage => cases h
  | detruit => cases hi
  | ignored => cases hi

theorem decided_decr {o : MgOpts} {t : Nat → Obj} {l1 l2 : List BEntry} {p : List Bytes} {e1 e2 : BEntry} {d : OverData} {a : OverEa} (hp : o.policy = decrPolicy)
    (hw : o.warn = false) (c1 : CanonicalDates l1) (c2 : CanonicalDates l2) (p1 : treeAt l1 p = some e1) (p2 : treeAt l2 p = some e2) (n1 : e1.isHardLink = false)
    (n2 : e2.isHardLink = false) (h : Decided o t t p e1 e2 d a) :
    (d = .preserveMark ∧ DataSame (e1.obj t) (e2.obj t) ∨ d = .preserve ∧ ¬ DataSame (e1.obj t) (e2.obj t)) ∧
    (a = .preserveMark ∧ AttrSame o.capa (e1.obj t) (e2.obj t) ∨ a = .preserve ∧ ¬ AttrSame o.capa (e1.obj t) (e2.obj t)) := by
  obtain ⟨d0, a0, ⟨f1, f2, hg⟩, hd, ha, _, _⟩ := h
  have w1 := crit_wf (t := t) (f := f1) c1 p1 n1
  have w2 := crit_wf (t := t) (f := f2) c2 p2 n2
  have m1 := crit_not_mirage (t := t) (f := f1) e1 n1
  have m2 := crit_not_mirage (t := t) (f := f2) e2 n2
  have i1 := crit_inode (t := t) (f := f1) e1 n1
  have i2 := crit_inode (t := t) (f := f2) e2 n2
  obtain ⟨b, hb, hbs⟩ := decrData_spec (capa := o.capa) w1 w2 m1
  obtain ⟨c, hc, hcs⟩ := decrEa_spec (capa := o.capa) w1 w2 m1 m2
  rw [hp, decr_eval o.capa _ _ b c hb hc] at hg
  cases hg
  have hd' : d = if b = true then .preserveMark else .preserve := by
    rw [hd]
    unfold answered
    cases b <;> simp [hw]
  have ha' : a = if c = true then .preserveMark else .preserve := by
    refine ha ?_
    cases c <;> simp
  have kb : b = true ↔ DataSame (e1.obj t) (e2.obj t) := by
    rw [hbs, i1, i2]
    unfold DataSame
    constructor
    · rintro ⟨i, j, h1, h2, h3⟩
      obtain ⟨x, hx, rfl⟩ := Option.map_eq_some_iff.1 h1
      obtain ⟨y, hy, rfl⟩ := Option.map_eq_some_iff.1 h2
      exact ⟨x, y, hx, hy, h3⟩
    · rintro ⟨x, y, hx, hy, h3⟩
      exact ⟨_, _, by rw [hx]; rfl, by rw [hy]; rfl, h3⟩
  have kc : c = true ↔ AttrSame o.capa (e1.obj t) (e2.obj t) := by
    rw [hcs]
    unfold AttrSame CEntry.HasEa
    rw [i1, i2]
    refine or_congr ?_ (and_congr ?_ ?_)
    · constructor
      · rintro ⟨i, j, h1, h2, h3, h4, h5⟩
        obtain ⟨x, hx, rfl⟩ := Option.map_eq_some_iff.1 h1
        obtain ⟨y, hy, rfl⟩ := Option.map_eq_some_iff.1 h2
        exact ⟨x, y, hx, hy, h3, h4, (notOlder_both o.capa _ _).1 h5⟩
      · rintro ⟨x, y, hx, hy, h3, h4, h5⟩
        exact ⟨_, _, by rw [hx]; rfl, by rw [hy]; rfl, h3, h4, (notOlder_both o.capa _ _).2 h5⟩
    · constructor
      · intro h x hx hh
        exact h ⟨_, by rw [hx]; rfl, hh⟩
      · rintro h ⟨i, hi, hh⟩
        obtain ⟨x, hx, rfl⟩ := Option.map_eq_some_iff.1 hi
        exact h x hx hh
    · constructor
      · intro h x hx hh
        exact h ⟨_, by rw [hx]; rfl, hh⟩
      · rintro h ⟨i, hi, hh⟩
        obtain ⟨x, hx, rfl⟩ := Option.map_eq_some_iff.1 hi
        exact h x hx hh
  refine ⟨?_, ?_⟩
  · rw [hd']
    cases b with
    | true => exact Or.inl ⟨rfl, kb.1 rfl⟩
    | false => exact Or.inr ⟨rfl, fun h => by have := kb.2 h; cases this⟩
  · rw [ha']
    cases c with
    | true => exact Or.inl ⟨rfl, kc.1 rfl⟩
    | false => exact Or.inr ⟨rfl, fun h => by have := kc.2 h; cases this⟩

theorem decr_hdec {o : MgOpts} (hp : o.policy = decrPolicy) : o.decremental = true → ∀ x y d a, o.policy.get o.capa x y = .ok (d, a) → KeepsOld d := by
  intro _ x y d a h
  rw [hp] at h
  rcases (decr_keeps h).1 with h | h
  · exact Or.inl h
  · exact Or.inr (Or.inl h)
theorem decided_decr_keeps {o : MgOpts} {t1 t2 : Nat → Obj} {p : List Bytes} {e1 e2 : BEntry} {d : OverData} {a : OverEa} (hp : o.policy = decrPolicy)
    (h : Decided o t1 t2 p e1 e2 d a) : d = .preserve ∨ d = .preserveMark := by
  obtain ⟨d0, a0, ⟨f1, f2, hg⟩, hd, _⟩ := h
  rw [hp] at hg
  rw [hd]
  unfold answered
  dsimp only
  rcases (decr_keeps hg).1 with rfl | rfl
  · simp
  · rw [if_neg (show ¬ OverData.preserveMark = .ask by simp)]
    split
    · exact Or.inl rfl
    · exact Or.inr rfl

theorem merged_decremental {o : MgOpts} {t : Nat → Obj} {dt : DateT} {l1 l2 r : List BEntry} (hd : o.decremental = true) (hp : o.policy = decrPolicy) (hw : o.warn = false)
    (c1 : CanonicalDates l1) (c2 : CanonicalDates l2) (n1 : NoLinks l1) (n2 : NoLinks l2) (hdist : BEntry.DistinctL r) (hm : Merged o t t dt l1 l2 r) :
    Decremental o t dt l1 l2 r := by
  have hB : MergedB o t t [] dt l1 l2 r := fun p c1 c2 c d g1 g2 g3 g4 n => by rw [List.nil_append]; exact hm p c1 c2 c d g1 g2 g3 g4 n
  have hnr : ∀ {q : List Bytes} {e1 e2 : BEntry} {d : OverData} {a : OverEa}, Decided o t t q e1 e2 d a → d ≠ .remove := by
    intro q e1 e2 d a h hc
    rcases decided_decr_keeps hp h with h | h <;> rw [h] at hc <;> cases hc
  refine ⟨hdist, ?_, ?_, ?_, ?_⟩
  · intro p e p1 p2
    refine path_first p l1 l2 r dt [] e hB p1 p2 ?_
    intro q s _ _ _ e1 e2 _ _ d a hdd
    refine ⟨hnr hdd, fun ht => ?_⟩
    rcases decided_decr_keeps hp hdd with h | h <;> rw [h] at ht <;> rcases ht with h | h <;> cases h
  · intro p n e d p1 hpar p2 hig hdt
    have last : ∀ (c1 c2 c : List BEntry) (b : List Bytes), MergedB o t t b d c1 c2 c → findChild c1 n = none → findChild c2 n = some e →
        findChild c n = some (.detruit n (e.sigKind t) d) := by
      intro c1 c2 c b h q1 q2
      have := (h.here n).gone e q1 q2 hd hig
      rwa [findChild_name q2] at this
    rcases hpar with rfl | ⟨x, c, hx⟩
    · rw [dirDate_root] at hdt
      cases hdt
      exact last l1 l2 r [] hB p1 p2
    · have hx2 : ∃ x' c', treeAt l2 p = some (.dir x' c') := by
        rcases treeAt_parent p2 with rfl | h
        · cases hx
        · exact h
      obtain ⟨x', c', hx'⟩ := hx2
      obtain ⟨z, c0, h1, h2⟩ := path_dir p l1 l2 r dt [] x x' c c' hB hx hx' (fun q s _ _ e1 e2 _ _ d a hdd => hnr hdd)
      rw [treeAt_snoc _ _ _ _ _ hx] at p1
      rw [treeAt_snoc _ _ _ _ _ hx'] at p2
      rw [treeAt_snoc _ _ _ _ _ h1]
      have hne : p ≠ [] := by rintro rfl; cases hx
      unfold dirDate at hdt
      rw [if_neg hne, hx'] at hdt
      cases hdt
      exact last _ _ _ _ h2 p1 p2
  · intro p e1 e2 p1 p2 g1 g2
    obtain ⟨dt', h⟩ := path_both p l1 l2 r dt [] e1 e2 hB p1 p2 (fun q s _ _ _ e1 e2 _ _ d a hdd => hnr hdd)
    obtain ⟨d, a, k1, k2, k3, k4⟩ := h.conflict _ _ rfl rfl g1 g2
    rw [List.nil_append] at k1
    obtain ⟨e, he, hh⟩ := k2 (by
      rcases decided_decr_keeps hp k1 with h | h
      · exact Or.inl (Or.inl h)
      · exact Or.inl (Or.inr (Or.inl h)))
    obtain ⟨q1, q2⟩ := decided_decr hp hw c1 c2 p1 p2 (n1 p e1 p1) (n2 p e2 p2) k1
    exact ⟨d, a, e, q1, q2, he, hh⟩
  · intro p hne
    obtain ⟨e, he⟩ := Option.ne_none_iff_exists'.1 hne
    exact path_only p l1 l2 r dt [] e hB he

theorem selected_noLinks {o : MgOpts} {l : List BEntry} (h : FromArchive l) (hn : NoLinks l) : NoLinks (BEntry.selectL o [] l) :=
  fun _ _ hp => nolabel_tree (selected_nolabel h hn) hp

/-- C45, the decremental mode: it succeeds, and the result is a decremental backup.  There are no hard links, and the user is not asked for confirmations. -/
theorem C45_decremental_partial (o : MgOpts) (d1 d2 : DateT) (r1 r2 : BCat) (h1 : FromArchive r1.root) (h2 : FromArchive r2.root) (n1 : NoLinks r1.root)
    (n2 : NoLinks r2.root) (hw : o.warn = false) (ha : ∀ p, o.askData p ≠ .ask) (he : ∀ p, o.askEa p ≠ .ask) (c1 : CanonicalDates (BEntry.selectL o [] r1.root))
    (c2 : CanonicalDates (BEntry.selectL o [] r2.root)) :
    ∃ r, decremental o d1 d2 r1 r2 = .ok r ∧ ∀ t, Decremental o t d2 (BEntry.selectL o [] r1.root) (BEntry.selectL o [] r2.root) r.root := by
  unfold decremental
  have e1 : ∀ l, BEntry.selectL { o with decremental := true, policy := decrPolicy } [] l = BEntry.selectL o [] l := fun l =>
    selectL_congr (o := o) (o' := { o with decremental := true, policy := decrPolicy }) rfl rfl rfl [] l
  have l1 := selected_nolabel (o := { o with decremental := true, policy := decrPolicy }) h1 n1
  have l2 := selected_nolabel (o := { o with decremental := true, policy := decrPolicy }) h2 n2
  have hw' : ({ o with decremental := true, policy := decrPolicy } : MgOpts).warn = true → ∀ p, ({ o with decremental := true, policy := decrPolicy } : MgOpts).acceptEa p = true :=
    fun h => by rw [show ({ o with decremental := true, policy := decrPolicy } : MgOpts).warn = o.warn from rfl, hw] at h; cases h
  obtain ⟨r, hr⟩ := merge_total (o := { o with decremental := true, policy := decrPolicy }) (d1 := d1) (d2 := d2) h1 h2 hw' (decr_hdec rfl) (noLinks_whole l1 l2)
    ⟨Action.total o.capa false decr_good, ha, he, fun p e1 e2 d _ _ hdd ht => by
      rcases decided_decr_keeps rfl hdd with h | h <;> rw [h] at ht <;> rcases ht with h | h <;> cases h⟩
  refine ⟨r, hr, fun t => ?_⟩
  obtain ⟨hdist, hm⟩ := merge_nolinks h1 h2 n1 n2 hw' (decr_hdec rfl) hr t
  rw [e1, e1] at hm
  have := merged_decremental (o := { o with decremental := true, policy := decrPolicy }) rfl rfl hw c1 c2 (selected_noLinks h1 n1) (selected_noLinks h2 n2) hdist hm
  exact ⟨this.distinct, this.old, this.gone, this.both, this.only⟩

end Dar
