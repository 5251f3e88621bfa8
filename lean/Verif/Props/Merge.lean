import Verif.Lemmas.Merge12
/- Property theorems C45 (merging of archives). -/
namespace Dar

/-- `Merged`, path by path. -/
theorem merged_paths {o : MgOpts} {t1 t2 T : Nat → Obj} {f1 f2 : Nat → Nat} {dt : DateT} {l1 l2 : List BEntry} {r : BCat}
    (i1 : ∀ i j, f1 i = f1 j → i = j) (i2 : ∀ i j, f2 i = f2 j → i = j) (h1 : ∀ k ∈ BEntry.labelsL l1, T (f1 k) = t1 k ∧ ∀ j, f1 k ≠ f2 j)
    (h2 : ∀ k, T (f2 k) = t2 k) (h3 : ∀ k ∈ BEntry.labelsL r.root, r.stars k = T k) (hm : Merged o T T dt (BEntry.relabelL f1 l1) (BEntry.relabelL f2 l2) r.root) :
    MergedPaths o t1 t2 l1 l2 r := by
  have hB : MergedB o T T [] dt (BEntry.relabelL f1 l1) (BEntry.relabelL f2 l2) r.root := fun p c1 c2 c d g1 g2 g3 g4 n => by
    rw [List.nil_append]; exact hm p c1 c2 c d g1 g2 g3 g4 n
  have hdec : ∀ {q : List Bytes} {e1 e2 : BEntry} {d : OverData} {a : OverEa}, treeAt l1 q = some e1 →
      (Decided o T T q (e1.relabel f1) (e2.relabel f2) d a ↔ Decided o t1 t2 q e1 e2 d a) := by
    intro q e1 e2 d a q1
    exact decided_relabel (fun k hk => (h1 k (labelsL_treeAt q1 k (label_mem hk))).1) (fun k _ => h2 k)
  refine ⟨f1, f2, T, ⟨i1, fun k hk hr => (h3 _ hr).trans (h1 k hk).1⟩, ⟨i2, fun k _ hr => (h3 _ hr).trans (h2 k)⟩, h1, h2, ?_, ?_, ?_, ?_⟩
  · intro p e p1 p2 hr
    refine path_first p _ _ r.root dt [] _ hB (by rw [relabel_tree, p1]; rfl) (by rw [relabel_tree, p2]; rfl) ?_
    intro q s hq hq0 hs0 e1 e2 q1 q2 d a hd
    rw [relabel_tree] at q1 q2
    obtain ⟨a1, k1, rfl⟩ := Option.map_eq_some_iff.1 q1
    obtain ⟨a2, k2, rfl⟩ := Option.map_eq_some_iff.1 q2
    rw [List.nil_append, hdec k1] at hd
    rw [relabel_isDir]
    exact hr q ⟨s, hq.symm⟩ (by rintro rfl; exact hs0 (by simpa using hq)) a1 a2 k1 k2 d a hd
  · intro p e hdecr p1 p2 hr
    refine path_second hdecr p _ _ r.root dt [] _ hB (by rw [relabel_tree, p1]; rfl) (by rw [relabel_tree, p2]; rfl) ?_
    intro q s hq hq0 hs0 e1 e2 q1 q2 d a hd
    rw [relabel_tree] at q1 q2
    obtain ⟨a1, k1, rfl⟩ := Option.map_eq_some_iff.1 q1
    obtain ⟨a2, k2, rfl⟩ := Option.map_eq_some_iff.1 q2
    rw [List.nil_append, hdec k1] at hd
    rw [relabel_isDir]
    exact hr q ⟨s, hq.symm⟩ (by rintro rfl; exact hs0 (by simpa using hq)) a1 a2 k1 k2 d a hd
  · intro p e1 e2 p1 p2 g1 g2 hr
    obtain ⟨dt', h⟩ := path_both p _ _ r.root dt [] (e1.relabel f1) (e2.relabel f2) hB (by rw [relabel_tree, p1]; rfl) (by rw [relabel_tree, p2]; rfl) (by
      intro q s hq hq0 hs0 e1 e2 q1 q2 d a hd
      rw [relabel_tree] at q1 q2
      obtain ⟨a1, k1, rfl⟩ := Option.map_eq_some_iff.1 q1
      obtain ⟨a2, k2, rfl⟩ := Option.map_eq_some_iff.1 q2
      rw [List.nil_append, hdec k1] at hd
      exact hr q ⟨s, hq.symm⟩ (by rintro rfl; exact hs0 (by simpa using hq)) a1 a2 k1 k2 d a hd)
    obtain ⟨d, a, k1, k2, k3, k4⟩ := h.conflict _ _ rfl rfl (by rw [relabel_ign]; exact g1) (by rw [relabel_ign]; exact g2)
    rw [List.nil_append, hdec p1] at k1
    exact ⟨d, a, k1, k4, k2, k3⟩
  · intro p hp
    obtain ⟨e, he⟩ := Option.ne_none_iff_exists'.1 hp
    rcases path_only p _ _ r.root dt [] e hB he with h | h
    · left; intro hn; rw [relabel_tree, hn] at h; exact h rfl
    · right; intro hn; rw [relabel_tree, hn] at h; exact h rfl

/-- C45.  Merging two archives: an entry that only one of them has (once the filters are applied) is in the result as it was, for those that both have the
action decided by the policy is applied, and there is nothing else, provided that:
- the hard links, where there are some at the path of an entry of the other archive, are kept, replaced or removed with their attributes (`LinksWhole`; the
  inode they share with other entries would otherwise be changed for these ones too);
- no confirmation is refused for the attributes (the code then changes the action on the data, see the counterexample). -/
theorem C45_merge_partial (o : MgOpts) (d1 d2 : DateT) (r1 r2 r : BCat) (h1 : FromArchive r1.root) (h2 : FromArchive r2.root) (hd : o.decremental = false)
    (hw : o.warn = true → ∀ p, o.acceptEa p = true)
    (hl : LinksWhole o r1.stars r2.stars (BEntry.selectL o [] r1.root) (BEntry.selectL o [] r2.root)) (h : merge o d1 d2 r1 r2 = .ok r) :
    MergedPaths o r1.stars r2.stars (BEntry.selectL o [] r1.root) (BEntry.selectL o [] r2.root) r := by
  obtain ⟨f1, f2, T, a1, a2, a3, a4, a5, _, a6⟩ := merge_spec h1 h2 hw (fun h => by rw [hd] at h; cases h) hl h
  exact merged_paths a1 a2 a3 a4 a5 a6

/-- The same directory by directory, which also tells what the directories contain, and the deletions recorded by the decremental mode. -/
theorem C45_directories_partial (o : MgOpts) (d1 d2 : DateT) (r1 r2 r : BCat) (h1 : FromArchive r1.root) (h2 : FromArchive r2.root)
    (hw : o.warn = true → ∀ p, o.acceptEa p = true) (hdec : o.decremental = true → ∀ x y d a, o.policy.get o.capa x y = .ok (d, a) → KeepsOld d)
    (hl : LinksWhole o r1.stars r2.stars (BEntry.selectL o [] r1.root) (BEntry.selectL o [] r2.root)) (h : merge o d1 d2 r1 r2 = .ok r) :
    ∃ (f1 f2 : Nat → Nat) (T : Nat → Obj), Renamed f1 r1.stars (BEntry.selectL o [] r1.root) r ∧ Renamed f2 r2.stars (BEntry.selectL o [] r2.root) r ∧
      (∀ k ∈ BEntry.labelsL (BEntry.selectL o [] r1.root), T (f1 k) = r1.stars k ∧ ∀ j, f1 k ≠ f2 j) ∧ (∀ k, T (f2 k) = r2.stars k) ∧
      BEntry.DistinctL r.root ∧ Merged o T T d2 (BEntry.relabelL f1 (BEntry.selectL o [] r1.root)) (BEntry.relabelL f2 (BEntry.selectL o [] r2.root)) r.root := by
  obtain ⟨f1, f2, T, a1, a2, a3, a4, a5, a7, a6⟩ := merge_spec h1 h2 hw hdec hl h
  exact ⟨f1, f2, T, ⟨a1, fun k hk hr => (a5 _ hr).trans (a3 k hk).1⟩, ⟨a2, fun k _ hr => (a5 _ hr).trans (a4 k)⟩, a3, a4, a7, a6⟩

/-- Without hard links: every policy. -/
theorem C45_no_links_partial (o : MgOpts) (d1 d2 : DateT) (r1 r2 r : BCat) (h1 : FromArchive r1.root) (h2 : FromArchive r2.root) (hn1 : NoLinks r1.root)
    (hn2 : NoLinks r2.root) (hw : o.warn = true → ∀ p, o.acceptEa p = true)
    (hdec : o.decremental = true → ∀ x y d a, o.policy.get o.capa x y = .ok (d, a) → KeepsOld d) (h : merge o d1 d2 r1 r2 = .ok r) (t : Nat → Obj) :
    BEntry.DistinctL r.root ∧ Merged o t t d2 (BEntry.selectL o [] r1.root) (BEntry.selectL o [] r2.root) r.root :=
  merge_nolinks h1 h2 hn1 hn2 hw hdec h t

/-- The merging succeeds, whatever the archives, if the answers of the user are answers, and the removal of the attributes is not asked for where one of the
entries has none (see the counterexample). -/
theorem C45_completes_partial (o : MgOpts) (noE : Bool) (d1 d2 : DateT) (r1 r2 : BCat) (h1 : FromArchive r1.root) (h2 : FromArchive r2.root)
    (hw : o.warn = true → ∀ p, o.acceptEa p = true) (hdec : o.decremental = true → ∀ x y d a, o.policy.get o.capa x y = .ok (d, a) → KeepsOld d)
    (hl : LinksWhole o r1.stars r2.stars (BEntry.selectL o [] r1.root) (BEntry.selectL o [] r2.root))
    (hp : o.policy.Good noE) (ha : ∀ p, o.askData p ≠ .ask) (he : ∀ p, o.askEa p ≠ .ask)
    (hc : ∀ p e1 e2 d, treeAt (BEntry.selectL o [] r1.root) p = some e1 → treeAt (BEntry.selectL o [] r2.root) p = some e2 →
      Decided o r1.stars r2.stars p e1 e2 d .clear → TakesNew d → e1.obj r1.stars ≠ none ∧ e2.obj r2.stars ≠ none) :
    ∃ r, merge o d1 d2 r1 r2 = .ok r :=
  merge_total h1 h2 hw hdec hl ⟨Action.total o.capa noE hp, ha, he, hc⟩

end Dar
