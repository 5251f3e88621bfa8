import Verif.Props.DecrRestore
import Verif.Props.Merge
import Verif.Props.ChainEx
/- C45: examples meeting the hypotheses, and what happens outside of them. -/
namespace Dar

private def tm (n : Nat) : DateT := ⟨n, .s⟩
private def mk (name : Bytes) (kind : InoKind) (perm mt ct : Nat) (data : Bytes) (eas : Bytes) : Obj :=
  ⟨name, ⟨kind, 1000, 100, perm, tm mt, tm ct, .saved, data.length, false, false, false, 0, 0, [], if eas = [] then .none else .full, eas.length, eas.length⟩, .none, data, eas, []⟩
private def withFsa (x : Obj) (f : Bytes) : Obj := { x with fsa := .full, fsas := f }
private def st0 : Nat → Obj := fun _ => mk [] .dir 493 0 0 [] []
private def ro : RsOpts := ⟨.all, fun _ _ => .ok (.overwrite, .overwrite), fun a b => if b = [] then a else b, fun a b => if b = [] then a else b, fun a _ => .ok a,
  tm 1000, 0, 0, [], fun _ _ => true, false, false⟩
/-- a merging with a policy which is always the same -/
private def mo (d : OverData) (a : OverEa) : MgOpts :=
  ⟨.us, fun _ => true, fun _ => true, false, false, .const d a, false, fun _ => .preserve, fun _ => .preserve, fun _ => true, fun _ => true, fun a _ => a, fun a _ => a,
    fun _ _ => false, fun a _ => a⟩

private theorem decided_mo {d0 : OverData} {a0 : OverEa} (hd : d0 ≠ .ask) (ha : a0 ≠ .ask) {t1 t2 : Nat → Obj} {p : List Bytes} {e1 e2 : BEntry} {d : OverData} {a : OverEa}
    (h : Decided (mo d0 a0) t1 t2 p e1 e2 d a) : d = d0 ∧ a = a0 := by
  obtain ⟨d1, a1, ⟨f1, f2, hg⟩, h1, h2, -, -⟩ := h
  have hg' : Action.get .us (.const d0 a0) (e1.crit t1 f1) (e2.crit t2 f2) = .ok (d1, a1) := hg
  rw [Action.get] at hg'
  cases hg'
  refine ⟨?_, h2 ha⟩
  rw [h1]
  unfold answered
  simp [mo, hd]

private theorem fromArchive {l : List BEntry} (hd : BEntry.DistinctL l) (h : BEntry.EachL (fun _ e => match e with
    | .ignored _ => False
    | .ignoredDir _ => False
    | _ => True) [] l) : FromArchive l := ⟨hd, fun p e ht => each_tree h p e ht⟩

/-- "a" and "d/c" are hard links to the same inode, "b" is another file -/
private def l1 : BCat := ⟨[.mirage [97] 4, .node (mk [98] .file 420 10 10 [1, 2] []), .dir (mk [100] .dir 493 12 12 [] []) [.mirage [99] 4]], fun _ => mk [] .file 420 11 11 [5] [6]⟩
/-- "b" and "d/e" are hard links to the same inode, "a" another file, "d/f" recorded as deleted -/
private def l2 : BCat := ⟨[.node (mk [97] .file 420 20 20 [3] []), .mirage [98] 4, .dir (mk [100] .dir 493 22 22 [] []) [.mirage [101] 4, .detruit [102] .file (tm 21)]], fun _ => mk [] .file 420 21 21 [7] [8]⟩

private theorem l1_arch : FromArchive l1.root := by
  refine fromArchive ?_ ?_
  · simp [l1, BEntry.DistinctL, BEntry.Distinct, BEntry.name, mk]
  · simp [l1, BEntry.EachL, BEntry.Each]
private theorem l2_arch : FromArchive l2.root := by
  refine fromArchive ?_ ?_
  · simp [l2, BEntry.DistinctL, BEntry.Distinct, BEntry.name, mk]
  · simp [l2, BEntry.EachL, BEntry.Each]

private theorem l_whole : LinksWhole (mo .overwrite .overwrite) l1.stars l2.stars (BEntry.selectL (mo .overwrite .overwrite) [] l1.root) (BEntry.selectL (mo .overwrite .overwrite) [] l2.root) := by
  intro p e1 e2 _ h2 _
  rw [selectL_all (fun _ => rfl) (fun _ => rfl)] at h2
  refine ⟨fun d a h => ?_, fun h y hy => ?_⟩
  · obtain ⟨rfl, rfl⟩ := decided_mo (by decide) (by decide) h
    exact Or.inr (Or.inl ⟨rfl, rfl⟩)
  · cases e2 with
    | mirage n k => cases hy; exact fun h => by cases h
    | _ => cases h

/-- The merging of the two archives above with the policy "overwrite": it succeeds, "a" and "b" are those of the second archive, "d/c" is still there (with the inode
it shared with "a"), "d/e" is added; "b" and "d/e" are hard links to the same inode, which is not the one of "d/c". -/
theorem C45_merge_example : ∃ r, ∃ f1 f2 : Nat → Nat, merge (mo .overwrite .overwrite) (tm 13) (tm 23) l1 l2 = .ok r ∧ treeAt r.root [[100], [99]] = some (.mirage [99] (f1 4)) ∧
    treeAt r.root [[98]] = some (.mirage [98] (f2 4)) ∧ treeAt r.root [[100], [101]] = some (.mirage [101] (f2 4)) ∧ f1 4 ≠ f2 4 ∧
    r.stars (f1 4) = mk [] .file 420 11 11 [5] [6] ∧ r.stars (f2 4) = mk [] .file 420 21 21 [7] [8] ∧
    treeAt r.root [[100], [102]] = some (.detruit [102] .file (tm 21)) := by
  have hsel : ∀ l, BEntry.selectL (mo .overwrite .overwrite) [] l = l := fun l => selectL_all (fun _ => rfl) (fun _ => rfl) [] l
  obtain ⟨r, hr⟩ := C45_completes_partial (mo .overwrite .overwrite) true (tm 13) (tm 23) l1 l2 l1_arch l2_arch (fun h => by cases h) (fun h => by cases h) l_whole .const
    (fun _ => by simp [mo]) (fun _ => by simp [mo]) (fun p e1 e2 d _ _ h => absurd (decided_mo (by decide) (by decide) h).2 (by decide))
  have hm := C45_merge_partial _ _ _ _ _ _ l1_arch l2_arch rfl (fun h => by cases h) l_whole hr
  rw [hsel, hsel] at hm
  obtain ⟨f1, f2, T, h1, h2, h3, h4, k1, k2, k3, -⟩ := hm.paths
  have ht1 : treeAt l1.root [[100], [99]] = some (.mirage [99] 4) := rfl
  have hdir : ∀ e2, treeAt l2.root [[100]] = some e2 → e2.isDir = true := fun e2 h => by cases h; rfl
  have hdir1 : ∀ e1, treeAt l1.root [[100]] = some e1 → e1.isDir = true := fun e1 h => by cases h; rfl
  have hpre : ∀ (q : List Bytes) (n : Bytes), q <+: [[100], n] → q ≠ [[100], n] → q = [] ∨ q = [[100]] := by
    intro q n hq hne
    obtain ⟨s, hs⟩ := hq
    match q, hs with
    | [], _ => exact Or.inl rfl
    | [x], hs => cases hs; exact Or.inr rfl
    | [x, y], hs => simp only [List.cons_append, List.nil_append, List.cons.injEq] at hs; obtain ⟨rfl, rfl, _⟩ := hs; exact absurd rfl hne
    | x :: y :: z :: w, hs => cases hs
  have hfr : FirstReached (mo .overwrite .overwrite) l1.stars l2.stars l1.root l2.root [[100], [99]] := by
    intro q hq hne e1 e2 q1 q2 d a hd
    obtain ⟨rfl, rfl⟩ := decided_mo (by decide) (by decide) hd
    refine ⟨by decide, fun _ => ?_⟩
    rcases hpre q _ hq hne with rfl | rfl
    · cases q2
    · exact hdir e2 q2
  have hsr : ∀ n, SecondReached (mo .overwrite .overwrite) l1.stars l2.stars l1.root l2.root [[100], n] := by
    intro n q hq hne e1 e2 q1 q2 d a hd
    obtain ⟨rfl, rfl⟩ := decided_mo (by decide) (by decide) hd
    refine ⟨by decide, fun h => ?_⟩
    rcases h with h | h | h <;> cases h
  have g1 := k1 _ _ ht1 rfl hfr
  have g2 := k2 [[100], [101]] _ rfl rfl rfl (hsr _)
  have g4 := k2 [[100], [102]] _ rfl rfl rfl (hsr _)
  obtain ⟨d, a, hd, -, hh, -⟩ := k3 [[98]] _ _ rfl rfl rfl rfl (by
    intro q hq hne e1 e2 q1 q2 d a hd
    obtain ⟨rfl, rfl⟩ := decided_mo (by decide) (by decide) hd
    exact fun h => by cases h)
  obtain ⟨rfl, rfl⟩ := decided_mo (by decide) (by decide) hd
  obtain ⟨e, g3, he⟩ := hh (Or.inr (Or.inl rfl))
  have he : e = .mirage [98] (f2 4) := he
  have m1 : (4 : Nat) ∈ BEntry.labelsL l1.root := by decide
  have m2 : (4 : Nat) ∈ BEntry.labelsL l2.root := by decide
  refine ⟨r, f1, f2, hr, g1, by rw [g3, he], g2, (h3 4 m1).2 4, h1.inode 4 m1 (labelsL_treeAt g1 _ ?_), h2.inode 4 m2 (labelsL_treeAt g2 _ ?_), g4⟩
  · simp [BEntry.relabel, BEntry.labels]
  · simp [BEntry.relabel, BEntry.labels]

/-! ### decremental backup -/

/-- "a", the directory "d" with "b" and "c" -/
private def s1 : BCat := ⟨[.node (mk [97] .file 420 10 10 [1, 2] []), .dir (mk [100] .dir 493 12 12 [] []) [.node (mk [98] .file 420 11 11 [3] []), .node (mk [99] .file 420 12 12 [4] [7])]], st0⟩
/-- "a" modified, "d/b" deleted, "d/e" created, the extended attributes of "d/c" modified -/
private def s2 : BCat := ⟨[.node (mk [97] .file 420 20 20 [5, 6, 7] []), .dir (mk [100] .dir 493 22 22 [] []) [.node (mk [99] .file 420 12 21 [4] [8]), .node (mk [101] .file 420 22 22 [9] [])]], st0⟩
/-- the filesystem in that second state -/
private def idx (p : List Bytes) : Nat := if p = [[97]] then 0 else if p = [[100], [99]] then 1 else 2
private def fs2 : FS :=
  ⟨fun p => if p = [] then some (.dir (mk [] .dir 493 1 1 [] [])) else match treeAt s2.root p with
      | some (.node _) => some (.ino (idx p))
      | some (.dir x _) => some (.dir x)
      | _ => none,
   fun i => if i = 0 then mk [97] .file 420 20 20 [5, 6, 7] [] else if i = 1 then mk [99] .file 420 12 21 [4] [8] else mk [101] .file 420 22 22 [9] [], 3⟩

private theorem scannedObj_mk (name : Bytes) (kind : InoKind) (perm mt ct : Nat) (data : Bytes) (eas : Bytes) : ScannedObj (mk name kind perm mt ct data eas) := by
  refine ⟨rfl, ?_, Or.inr rfl⟩
  unfold mk
  by_cases h : eas = []
  · subst h; exact Or.inr ⟨rfl, rfl⟩
  · left; simp [h]
private theorem ex_scan {t : BCat} (hd : BEntry.DistinctL t.root) (h : BEntry.EachL (fun _ e => match e with
    | .node x => x.ino.kind ≠ .dir ∧ ScannedObj x
    | .dir x _ => x.ino.kind = .dir ∧ ScannedObj x
    | _ => False) [] t.root) : Scanned t := ⟨hd, fun p e ht => each_tree h p e ht⟩
private theorem s1_scan : Scanned s1 := by
  refine ex_scan ?_ ?_
  · simp [s1, BEntry.DistinctL, BEntry.Distinct, BEntry.name, mk]
  · simp [s1, BEntry.EachL, BEntry.Each, scannedObj_mk]
    simp [mk]
private theorem s2_scan : Scanned s2 := by
  refine ex_scan ?_ ?_
  · simp [s2, BEntry.DistinctL, BEntry.Distinct, BEntry.name, mk]
  · simp [s2, BEntry.EachL, BEntry.Each, scannedObj_mk]
    simp [mk]
private theorem canon {l : List BEntry} (h : BEntry.EachL (fun _ e => ∀ x, (e = .node x ∨ (∃ c, e = .dir x c) ∨ e = .ignoredDir x) → x.ino.mtime.uni = .s ∧ x.ino.ctime.uni = .s) [] l) : CanonicalDates l := by
  intro p e x ht he
  obtain ⟨h1, h2⟩ := each_tree h p e ht x he
  unfold DateT.Canonical
  rw [h1, h2]
  exact ⟨trivial, trivial⟩
private theorem s1_canon : CanonicalDates s1.root := by
  apply canon
  simp [s1, BEntry.EachL, BEntry.Each]
  simp [mk, tm]
private theorem s2_canon : CanonicalDates s2.root := by
  apply canon
  simp [s2, BEntry.EachL, BEntry.Each]
  simp [mk, tm]
private theorem same_match (x : Obj) : Match x x := ⟨rfl, rfl, rfl, fun _ => rfl, rfl, ⟨fun _ => ⟨rfl, rfl⟩, fun _ => rfl, fun _ => ⟨rfl, rfl⟩⟩, rfl, fun _ => rfl⟩

private theorem fs2_node : ∀ p x, treeAt s2.root p = some (.node x) → (p = [[97]] ∨ p = [[100], [99]] ∨ p = [[100], [101]]) ∧ fs2.ino (idx p) = x := by
  intro p x h
  have := each_tree (l := s2.root) (P := fun p e => ∀ x, e = .node x → (p = [[97]] ∨ p = [[100], [99]] ∨ p = [[100], [101]]) ∧ fs2.ino (idx p) = x) (by
    refine ⟨fun x h => ?_, ⟨fun x h => (by cases h), ⟨fun x h => ?_, fun x h => ?_, trivial⟩⟩, trivial⟩
    all_goals
      cases h
      exact ⟨by decide, rfl⟩) p _ h x rfl
  exact this
private theorem fs2_same : SameTree fs2 s2 := by
  refine ⟨fun p hp => ?_, fun p q i h1 h2 => Or.inl ?_, fun p q m n k h1 _ => ?_⟩
  · have he := s2_scan.entries p
    cases ht : treeAt s2.root p with
    | none => simp [FoundAt, fs2, hp, ht]
    | some e =>
      cases e with
      | node x => exact ⟨idx p, by simp [fs2, hp, ht], by rw [(fs2_node p x ht).2]; exact same_match x⟩
      | dir x c => exact ⟨x, by simp [fs2, hp, ht], same_match x⟩
      | _ => exact (he _ ht).elim
  · have hin : ∀ p, fs2.ent p = some (.ino i) → i = idx p ∧ (p = [[97]] ∨ p = [[100], [99]] ∨ p = [[100], [101]]) := by
      intro p h
      by_cases hp : p = []
      · subst hp; simp [fs2] at h
      · cases ht : treeAt s2.root p with
        | none => simp [fs2, hp, ht] at h
        | some e =>
          cases e with
          | node x => simp [fs2, hp, ht] at h; exact ⟨h.symm, (fs2_node p x ht).1⟩
          | dir x c => simp [fs2, hp, ht] at h
          | _ => exact (s2_scan.entries p _ ht).elim
    obtain ⟨e1, c1⟩ := hin p h1
    obtain ⟨e2, c2⟩ := hin q h2
    subst e1
    rcases c1 with rfl | rfl | rfl <;> rcases c2 with rfl | rfl | rfl <;> first | rfl | (revert e2; decide)
  · exact (s2_scan.entries p _ h1).elim

private theorem decr_vis : DecrVisible .us s1 s2 := by
  have hall : ∀ p x y, objAt s1 p = some x → objAt s2 p = some y → (∃ n k pe m c d ea n' pe' m' c' d' ea', x = mk n k pe m c d ea ∧ y = mk n' k pe' m' c' d' ea' ∧ (m = m' → d = d') ∧
      (c = c' → ea = ea') ∧ (ea = [] → ea' = [])) := by
    intro p x y h1 h2
    unfold objAt at h1
    cases ht : treeAt s1.root p with
    | none => rw [ht] at h1; cases h1
    | some e =>
      rw [ht] at h1
      refine each_tree (l := s1.root) (P := fun p e => ∀ x y, e.obj s1.stars = some x → objAt s2 p = some y → (∃ n k pe m c d ea n' pe' m' c' d' ea', x = mk n k pe m c d ea ∧ y = mk n' k pe' m' c' d' ea' ∧
        (m = m' → d = d') ∧ (c = c' → ea = ea') ∧ (ea = [] → ea' = []))) ?_ p e ht x y h1 h2
      refine ⟨fun x y h1 h2 => ?_, ⟨fun x y h1 h2 => ?_, ⟨fun x y h1 h2 => ?_, fun x y h1 h2 => ?_, trivial⟩⟩, trivial⟩
      all_goals first
        | (have e1 := Option.some.inj (h1.symm.trans rfl); have e2 := Option.some.inj (h2.symm.trans rfl); subst e1; subst e2
           exact ⟨_, _, _, _, _, _, _, _, _, _, _, _, _, rfl, rfl, by decide, by decide, by decide⟩)
        | (exact absurd h2 (by intro h; cases h))
  refine ⟨fun p x y h1 h2 h => ?_, fun p x y h1 h2 ex ey h => ?_, fun p x y h1 h2 _ _ hf => ?_, fun p x y h1 h2 he => ?_, fun p x y h1 h2 h => ?_⟩
  · obtain ⟨n, k, pe, m, c, d, ea, n', pe', m', c', d', ea', rfl, rfl, a1, a2, a3⟩ := hall p x y h1 h2
    have hm : m = m' := by have := h.2.2.2.2.1; simpa [mk, tm, DateT.instant, TimeUnit.nanos] using this
    have := a1 hm
    subst this
    exact ⟨rfl, fun _ => ⟨rfl, rfl⟩, fun _ => rfl, fun _ => ⟨rfl, rfl⟩⟩
  · obtain ⟨n, k, pe, m, c, d, ea, n', pe', m', c', d', ea', rfl, rfl, a1, a2, a3⟩ := hall p x y h1 h2
    refine ⟨?_, fun hf => absurd rfl hf⟩
    have hc : c = c' := by
      unfold SameDate at h
      rw [show looseUnit .us (mk n k pe m c d ea).ino.ctime (mk n' k pe' m' c' d' ea').ino.ctime = .s from rfl] at h
      simpa [mk, tm, DateT.instant, TimeUnit.nanos] using h
    exact (a2 hc).symm
  · obtain ⟨n, k, pe, m, c, d, ea, n', pe', m', c', d', ea', rfl, rfl, a1, a2, a3⟩ := hall p x y h1 h2
    exact absurd rfl hf
  · obtain ⟨n, k, pe, m, c, d, ea, n', pe', m', c', d', ea', rfl, rfl, a1, a2, a3⟩ := hall p x y h1 h2
    by_cases h : ea = []
    · rw [a3 h]; rfl
    · simp [mk, h] at he
  · obtain ⟨n, k, pe, m, c, d, ea, n', pe', m', c', d', ea', rfl, rfl, a1, a2, a3⟩ := hall p x y h1 h2
    exact h

/-- the decremental backup of the two states above, restored over the second one, gives the first -/
theorem C45_decremental_example : ∃ r fs' st, decremental (mo .preserve .preserve) (tm 13) (tm 23) s1 s2 = .ok r ∧ restore ro r fs2 = .ok (fs', st) ∧ st.errored = 0 ∧ SameTree fs' s1 := by
  refine C45_decremental_restores_partial (mo .preserve .preserve) ro (tm 13) (tm 23) s1 s2 fs2 ?_ s1_scan s2_scan s1_canon s2_canon (fun _ => rfl) (fun _ => rfl) rfl (fun _ => by simp [mo]) (fun _ => by simp [mo])
    decr_vis fs2_same ⟨_, rfl⟩ ?_
  · refine ⟨rfl, fun _ _ => rfl, fun w => ?_, fun w => ?_, fun a b h => if_neg h, fun a => rfl, fun _ _ => rfl, rfl, rfl⟩
    · show (if w = [] then [] else w) = w
      split
      · next h => exact h.symm
      · rfl
    · show (if w = [] then w else w) = w
      split <;> rfl
  · intro p i h
    by_cases hp : p = []
    · subst hp; simp [fs2] at h
    · cases ht : treeAt s2.root p with
      | none => simp [fs2, hp, ht] at h
      | some e =>
        cases e with
        | node x =>
          simp [fs2, hp, ht] at h
          subst h
          show idx p < 3
          unfold idx
          split <;> [skip; split] <;> omega
        | dir x c => simp [fs2, hp, ht] at h
        | _ => exact (s2_scan.entries p _ ht).elim

/-! ### counterexamples -/

/-- what the merging gives at a path -/
private def mergedObj (r : Res BCat) (p : List Bytes) : Option Obj :=
  match r with
  | .ok c => (treeAt c.root p).bind (BEntry.obj c.stars)
  | .error _ => none
private theorem merged_of {r : Res BCat} {p : List Bytes} {x : Obj} (h : mergedObj r p = some x) : ∃ c, r = .ok c ∧ objAt c p = some x := by
  cases r with
  | ok c => exact ⟨c, rfl, h⟩
  | error _ => cases h
private def one (x : Obj) : BCat := ⟨[.node x], st0⟩

/-- The data and the attributes have to be overwritten and the user refuses, when asked for a confirmation, that the attributes be overwritten: it is the action on the data
that is changed, the data of the first archive is kept and the attributes are overwritten (filtre.cpp:2113-2115). -/
theorem C45_refused_counterexample : ∃ c, merge { mo .overwrite .overwrite with warn := true, acceptEa := fun _ => false } (tm 13) (tm 23)
      (one (mk [97] .file 420 10 10 [1] [7])) (one (mk [97] .file 420 20 20 [2] [8])) = .ok c ∧ (objAt c [[97]]).map (fun x => (x.data, x.eas)) = some ([1], [8]) := by
  obtain ⟨c, h1, h2⟩ := merged_of (r := merge { mo .overwrite .overwrite with warn := true, acceptEa := fun _ => false } (tm 13) (tm 23)
      (one (mk [97] .file 420 10 10 [1] [7])) (one (mk [97] .file 420 20 20 [2] [8]))) (p := [[97]]) (x := { mk [97] .file 420 10 20 [1] [8] with ino := { (mk [97] .file 420 10 20 [1] [8]).ino with ctime := tm 20 } }) (by decide +kernel)
  exact ⟨c, h1, by rw [h2]; rfl⟩

/-- The data is overwritten and the attributes have to be cleared: those of the file of the second archive stay when the one in place has none, and the
filesystem specific ones always stay (filtre.cpp:2336-2343). -/
theorem C45_clear_counterexample : ∃ c, merge (mo .overwrite .clear) (tm 13) (tm 23) (one (mk [97] .file 420 10 10 [1] [])) (one (withFsa (mk [97] .file 420 20 20 [2] [8]) [9])) = .ok c ∧
    objAt c [[97]] = some (withFsa (mk [97] .file 420 20 20 [2] [8]) [9]) := merged_of (by decide +kernel)
/-- and the program crashes when the entry in place is the record of a deletion -/
theorem C45_clear_detruit_counterexample : merge (mo .overwrite .clear) (tm 13) (tm 23) ⟨[.detruit [97] .file (tm 12)], st0⟩ (one (mk [97] .file 420 20 20 [2] [])) = .error .ub := rfl
/-- The data is overwritten and the attributes have to be overwritten and recorded as already saved: the filesystem specific ones are not (filtre.cpp:2311-2316). -/
theorem C45_mark_counterexample : ∃ c, merge (mo .overwrite .overwriteMark) (tm 13) (tm 23) (one (mk [97] .file 420 10 10 [1] [])) (one (withFsa (mk [97] .file 420 20 20 [2] [8]) [9])) = .ok c ∧
    (objAt c [[97]]).map (fun x => (x.ino.eaStatus, x.fsa, x.fsas)) = some (.part, .full, [9]) := by
  obtain ⟨c, h1, h2⟩ := merged_of (r := merge (mo .overwrite .overwriteMark) (tm 13) (tm 23) (one (mk [97] .file 420 10 10 [1] [])) (one (withFsa (mk [97] .file 420 20 20 [2] [8]) [9])))
    (p := [[97]]) (x := (withFsa (mk [97] .file 420 20 20 [2] [8]) [9]).setEaSt .part) (by decide +kernel)
  exact ⟨c, h1, by rw [h2]; rfl⟩

/-- what is restored by the decremental backup of two states of a file "a", over the second one -/
private def backTo (x y : Obj) : Option Obj :=
  match decremental (mo .preserve .preserve) (tm 13) (tm 23) (one x) (one y) with
  | .error _ => none
  | .ok r => match restore ro r ⟨fun p => if p = [] then some (.dir (mk [] .dir 493 1 1 [] [])) else if p = [[97]] then some (.ino 0) else none, fun _ => y, 1⟩ with
    | .error _ => none
    | .ok (fs, st) => if st.errored = 0 then fs.obj [[97]] else none
/-- A file has no extended attributes, only its filesystem specific ones and its content are modified: a decremental backup restored over the new state gives back the content, not
the attributes (the policy of filtre.cpp:1829-1879 only considers the extended ones). -/
theorem C45_decremental_fsa_counterexample : (backTo (withFsa (mk [97] .file 420 10 10 [1] []) [7]) (withFsa (mk [97] .file 420 20 20 [2] []) [8])).map (fun x => (x.data, x.fsas)) = some ([1], [8]) := by
  decide +kernel
/-- A file is given extended attributes: a decremental backup restored over the new state does not remove them. -/
theorem C45_decremental_added_counterexample : (backTo (mk [97] .file 420 10 10 [1] []) (mk [97] .file 420 10 20 [1] [8])).map (fun x => (x.data, x.eas)) = some ([1], [8]) := by
  decide +kernel

/-- "a" and "b" are hard links to the same inode in the first archive, the second one only has "a", and the policy keeps the data of the first and takes the attributes of the second:
those of "b", which the second archive does not have, are changed as well, as they are those of the same inode. -/
theorem C45_shared_counterexample : ∃ c, merge (mo .preserve .overwrite) (tm 13) (tm 23) ⟨[.mirage [97] 4, .mirage [98] 4], fun _ => mk [] .file 420 10 10 [1] [7]⟩
      (one (mk [97] .file 420 20 20 [2] [8])) = .ok c ∧ (objAt c [[98]]).map (fun x => (x.data, x.eas)) = some ([1], [8]) := by
  obtain ⟨c, h1, h2⟩ := merged_of (r := merge (mo .preserve .overwrite) (tm 13) (tm 23) ⟨[.mirage [97] 4, .mirage [98] 4], fun _ => mk [] .file 420 10 10 [1] [7]⟩
      (one (mk [97] .file 420 20 20 [2] [8]))) (p := [[98]]) (x := mk [98] .file 420 10 20 [1] [8]) (by decide +kernel)
  exact ⟨c, h1, by rw [h2]; rfl⟩

end Dar
