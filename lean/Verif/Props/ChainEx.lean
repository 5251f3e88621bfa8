import Verif.Props.Chain
/- C35, C36: examples meeting the hypotheses, and what happens outside of them. -/
namespace Dar

mutual
theorem each_occurs {P : List Bytes → BEntry → Prop} (e : BEntry) (path : List Bytes) (h : BEntry.Each P path e) {p : List Bytes} {f : BEntry} (hp : OccursIn [e] p f) : P (path ++ p) f := by
  match e, h with
  | .dir x c, h =>
    unfold BEntry.Each at h
    cases hp with
    | here hm => rw [List.mem_singleton] at hm; subst hm; exact h.1
    | inside hm h2 =>
      rw [List.mem_singleton] at hm
      cases hm
      have := each_occursL c _ h.2 h2
      rw [List.append_assoc] at this
      exact this
  | .node x, h =>
    unfold BEntry.Each at h
    cases hp with
    | here hm => rw [List.mem_singleton] at hm; subst hm; exact h
    | inside hm h2 => rw [List.mem_singleton] at hm; cases hm
  | .mirage n k, h =>
    unfold BEntry.Each at h
    cases hp with
    | here hm => rw [List.mem_singleton] at hm; subst hm; exact h
    | inside hm h2 => rw [List.mem_singleton] at hm; cases hm
  | .detruit n k d, h =>
    unfold BEntry.Each at h
    cases hp with
    | here hm => rw [List.mem_singleton] at hm; subst hm; exact h
    | inside hm h2 => rw [List.mem_singleton] at hm; cases hm
  | .ignored n, h =>
    unfold BEntry.Each at h
    cases hp with
    | here hm => rw [List.mem_singleton] at hm; subst hm; exact h
    | inside hm h2 => rw [List.mem_singleton] at hm; cases hm
  | .ignoredDir n, h =>
    unfold BEntry.Each at h
    cases hp with
    | here hm => rw [List.mem_singleton] at hm; subst hm; exact h
    | inside hm h2 => rw [List.mem_singleton] at hm; cases hm
theorem each_occursL {P : List Bytes → BEntry → Prop} (l : List BEntry) (path : List Bytes) (h : BEntry.EachL P path l) {p : List Bytes} {f : BEntry} (hp : OccursIn l p f) : P (path ++ p) f := by
  match l, h with
  | [], h => cases hp with
    | here hm => cases hm
    | inside hm h2 => cases hm
  | e :: l, h =>
    unfold BEntry.EachL at h
    rcases hp.split with hp | hp
    · exact each_occurs e path h.1 hp
    · exact each_occursL l path h.2 hp
end
/-- a statement about all the paths of a given tree, checked entry by entry -/
theorem each_tree {P : List Bytes → BEntry → Prop} {l : List BEntry} (h : BEntry.EachL P [] l) (p : List Bytes) (e : BEntry) (ht : treeAt l p = some e) : P p e :=
  each_occursL l [] h (tree_occurs ht)

private def tm (n : Nat) : DateT := ⟨n, .s⟩
private def mk (name : Bytes) (kind : InoKind) (perm mt ct : Nat) (data : Bytes) (eas : Bytes) : Obj :=
  ⟨name, ⟨kind, 1000, 100, perm, tm mt, tm ct, .saved, data.length, false, false, false, 0, 0, [], if eas = [] then .none else .full, eas.length, eas.length⟩, .none, data, eas, []⟩
private def rdir (mt : Nat) : Obj := mk [] .dir 493 mt mt [] []
private def bo : BkOpts := ⟨.us, 0, .all, false, 0, false, .anyInodeChange, false, fun _ _ => true, fun _ => false, fun _ => none⟩
/-- a restoration with the policy "Oo"; the attributes added to others: those given replace what is there when there is something to give -/
private def ro : RsOpts := ⟨.all, fun _ _ => .ok (.overwrite, .overwrite), fun a b => if b = [] then a else b, fun a b => if b = [] then a else b, fun a _ => .ok a,
  tm 1000, 0, 0, [], fun _ _ => true, false, false⟩
private def fs0 : FS := ⟨fun p => if p = [] then some (.dir (rdir 1)) else none, fun _ => rdir 1, 0⟩
private def st0 : Nat → Obj := fun _ => rdir 0

/-- "a", the directory "d" with "b" and "c" -/
private def s1 : BCat := ⟨[.node (mk [97] .file 420 10 10 [1, 2] []), .dir (mk [100] .dir 493 12 12 [] []) [.node (mk [98] .file 420 11 11 [3] []), .node (mk [99] .file 420 12 12 [4] [7])]], st0⟩
/-- "a" modified, "d/b" deleted, "d/e" created, the extended attributes of "d/c" modified -/
private def s2 : BCat := ⟨[.node (mk [97] .file 420 20 20 [5, 6, 7] []), .dir (mk [100] .dir 493 22 22 [] []) [.node (mk [99] .file 420 12 21 [4] [8]), .node (mk [101] .file 420 22 22 [9] [])]], st0⟩
/-- the permissions of "a" changed, "d/e" replaced by a symbolic link, the directory "f" created -/
private def s3 : BCat := ⟨[.node (mk [97] .file 384 20 30 [5, 6, 7] []), .dir (mk [100] .dir 493 32 32 [] []) [.node (mk [99] .file 420 12 21 [4] [8]), .node (mk [101] .symlink 511 31 31 [] [])],
  .dir (mk [102] .dir 493 33 33 [] []) []], st0⟩

theorem ex_plain : Plain ro := by
  refine ⟨rfl, fun _ _ => rfl, fun w => ?_, fun w => ?_, fun a b h => if_neg h, fun a => rfl, fun _ _ => rfl, rfl, rfl⟩
  · show (if w = [] then [] else w) = w
    split
    · next h => exact h.symm
    · rfl
  · show (if w = [] then w else w) = w
    split <;> rfl
theorem ex_faithful : Faithful bo := ⟨rfl, rfl, rfl, fun _ _ => rfl, fun _ => rfl⟩
theorem ex_empty : EmptyFS fs0 := ⟨⟨_, rfl⟩, fun _ h => if_neg h⟩

private theorem scannedObj_mk (name : Bytes) (kind : InoKind) (perm mt ct : Nat) (data : Bytes) (eas : Bytes) : ScannedObj (mk name kind perm mt ct data eas) := by
  refine ⟨rfl, ?_, Or.inr rfl⟩
  unfold mk
  by_cases h : eas = []
  · subst h; exact Or.inr ⟨rfl, rfl⟩
  · left; simp [h]

private theorem sameRounded_tm (a b : Nat) (h : SameRounded (tm a) (tm b)) : a = b := by
  unfold SameRounded at h
  simp [tm, DateT.instant, unitMax, TimeUnit.nanos] at h
  exact h
private theorem sameHours_tm (a b : Nat) (h : SameHours .us 0 (tm a) (tm b)) : a = b := by
  unfold SameHours at h
  obtain ⟨k, hk, h⟩ := h
  have : k = 0 := by omega
  subst this
  have hu : looseUnit .us (tm a) (tm b) = .s := rfl
  rw [hu] at h
  simp [tm, DateT.instant, TimeUnit.nanos] at h
  omega

private theorem vis {t t' : BCat} (h : BEntry.EachL (fun p e => ∀ y x, objAt t p = some y → e.obj t'.stars = some x → ∃ n k pe m c d ea n' k' pe' m' c' d' ea',
    y = mk n k pe m c d ea ∧ x = mk n' k' pe' m' c' d' ea' ∧ (k = k' → m = m' → d = d') ∧ (k = k' → c' ≤ c → ea = ea') ∧ (k = .dir → k' = .dir) ∧ (k ≠ k' → ea' = [] → ea = [])) []
    t'.root) : Visible ro bo t t' := by
  have hall : ∀ p y x, objAt t p = some y → objAt t' p = some x → ∃ n k pe m c d ea n' k' pe' m' c' d' ea',
    y = mk n k pe m c d ea ∧ x = mk n' k' pe' m' c' d' ea' ∧ (k = k' → m = m' → d = d') ∧ (k = k' → c' ≤ c → ea = ea') ∧ (k = .dir → k' = .dir) ∧ (k ≠ k' → ea' = [] → ea = []) := by
    intro p y x h1 h2
    unfold objAt at h2
    cases ht : treeAt t'.root p with
    | none => rw [ht] at h2; cases h2
    | some e => rw [ht] at h2; exact each_tree h p e ht y x h1 h2
  refine ⟨fun p y x h1 h2 hd => ?_, fun p y x h1 h2 hk hm hs => ?_, fun p y x h1 h2 hk hc => ?_, fun p y x h1 h2 hk => ?_, fun p y x h1 h2 hk he => ?_, fun p y x h1 h2 hd => by cases hd⟩
  · obtain ⟨n, k, pe, m, c, d, ea, n', k', pe', m', c', d', ea', rfl, rfl, a1, a2, a3, a4⟩ := hall p y x h1 h2
    rcases hd with hd | hd | hd
    · have := sameRounded_tm _ _ hd; subst this; rfl
    · have := sameHours_tm _ _ hd; subst this; rfl
    · have := sameHours_tm _ _ hd; subst this; rfl
  · obtain ⟨n, k, pe, m, c, d, ea, n', k', pe', m', c', d', ea', rfl, rfl, a1, a2, a3, a4⟩ := hall p y x h1 h2
    have hm' : m = m' := congrArg DateT.val hm
    have := a1 hk hm'
    subst this
    exact ⟨fun _ => ⟨rfl, rfl⟩, fun _ => rfl, fun _ => ⟨rfl, rfl⟩⟩
  · obtain ⟨n, k, pe, m, c, d, ea, n', k', pe', m', c', d', ea', rfl, rfl, a1, a2, a3, a4⟩ := hall p y x h1 h2
    refine ⟨a2 hk ?_, rfl⟩
    rcases hc with hc | hc
    · simp [mk, tm, DateT.instant, TimeUnit.nanos] at hc; exact hc
    · exact (sameRounded_tm _ _ hc).le
  · obtain ⟨n, k, pe, m, c, d, ea, n', k', pe', m', c', d', ea', rfl, rfl, a1, a2, a3, a4⟩ := hall p y x h1 h2
    exact a3 hk
  · obtain ⟨n, k, pe, m, c, d, ea, n', k', pe', m', c', d', ea', rfl, rfl, a1, a2, a3, a4⟩ := hall p y x h1 h2
    refine a4 hk ?_
    by_cases he' : ea' = []
    · exact he'
    · simp [mk, he'] at he

private theorem ex_scan {t : BCat} (hd : BEntry.DistinctL t.root) (h : BEntry.EachL (fun _ e => match e with
    | .node x => x.ino.kind ≠ .dir ∧ ScannedObj x
    | .dir x _ => x.ino.kind = .dir ∧ ScannedObj x
    | _ => False) [] t.root) : Scanned t := ⟨hd, fun p e ht => each_tree h p e ht⟩

theorem ex_successive : Successive ro bo (emptyCat st0) [(tm 13, s1), (tm 22, s2), (tm 33, s3)] := by
  refine ⟨ex_scan ?_ ?_, vis ?_, ex_scan ?_ ?_, vis ?_, ex_scan ?_ ?_, vis ?_, trivial⟩
  · simp [s1, BEntry.DistinctL, BEntry.Distinct, BEntry.name, mk]
  · simp [s1, BEntry.EachL, BEntry.Each, scannedObj_mk]
    simp [mk]
  · refine each_of_occursL _ _ fun p e _ y x h => ?_
    unfold objAt at h
    rw [show (emptyCat st0).root = [] from rfl, treeAt_nil_none] at h
    cases h
  · simp [s2, BEntry.DistinctL, BEntry.Distinct, BEntry.name, mk]
  · simp [s2, BEntry.EachL, BEntry.Each, scannedObj_mk]
    simp [mk]
  · refine ⟨fun y x h1 h2 => ?_, ⟨fun y x h1 h2 => ?_, ⟨fun y x h1 h2 => ?_, fun y x h1 h2 => ?_, trivial⟩⟩, trivial⟩
    all_goals first
      | (have e1 := Option.some.inj (h1.symm.trans rfl); have e2 := Option.some.inj (h2.symm.trans rfl); subst e1; subst e2
         exact ⟨_, _, _, _, _, _, _, _, _, _, _, _, _, _, rfl, rfl, by decide, by decide, by decide, by decide⟩)
      | (exact absurd h1 (by intro h; cases h))
  · simp [s3, BEntry.DistinctL, BEntry.Distinct, BEntry.name, mk]
  · simp [s3, BEntry.EachL, BEntry.Each, scannedObj_mk]
    simp [mk]
  · refine ⟨fun y x h1 h2 => ?_, ⟨fun y x h1 h2 => ?_, ⟨fun y x h1 h2 => ?_, fun y x h1 h2 => ?_, trivial⟩⟩, ⟨fun y x h1 h2 => ?_, trivial⟩, trivial⟩
    all_goals first
      | (have e1 := Option.some.inj (h1.symm.trans rfl); have e2 := Option.some.inj (h2.symm.trans rfl); subst e1; subst e2
         exact ⟨_, _, _, _, _, _, _, _, _, _, _, _, _, _, rfl, rfl, by decide, by decide, by decide, by decide⟩)
      | (exact absurd h1 (by intro h; cases h))

/-- the three states above, saved and restored -/
theorem C35_example : ∃ archives fs', backups bo (emptyCat st0) [(tm 13, s1), (tm 22, s2), (tm 33, s3)] = .ok archives ∧ restores ro fs0 archives = .ok (fs', 0) ∧
    SameTree fs' s3 := C35_chain_partial ro bo st0 fs0 _ ex_plain ex_faithful ex_empty ex_successive

/-- "a" and "d/c" are hard links to the same inode, "b" is another file -/
private def lk : BCat := ⟨[.mirage [97] 4, .node (mk [98] .file 420 10 10 [1, 2] []), .dir (mk [100] .dir 493 12 12 [] []) [.mirage [99] 4]], fun _ => mk [] .file 420 11 11 [5] [6]⟩
theorem C36_example : ∃ a st fs' rst, backupAll bo (tm 13) lk (emptyCat st0) = .ok (a, st) ∧ restore ro a fs0 = .ok (fs', rst) ∧ rst.errored = 0 ∧ SameTree fs' lk ∧
    fs'.ent [[97]] = fs'.ent [[100], [99]] ∧ fs'.ent [[97]] ≠ fs'.ent [[98]] := by
  have hs : ScannedLinks lk := by
    refine ⟨by simp [lk, BEntry.DistinctL, BEntry.Distinct, BEntry.name, mk], fun p e ht => each_tree (P := fun _ e => match e with
      | .node x => x.ino.kind ≠ .dir ∧ ScannedObj x
      | .dir x _ => x.ino.kind = .dir ∧ ScannedObj x
      | .mirage _ k => (lk.stars k).ino.kind ≠ .dir ∧ ScannedObj (lk.stars k)
      | _ => False) ?_ p e ht⟩
    simp [lk, BEntry.EachL, BEntry.Each, scannedObj_mk]
    simp [mk]
  obtain ⟨a, st, fs', rst, h1, h2, h3, h4⟩ := C36_round_trip ro bo st0 fs0 (tm 13) lk ex_plain ex_faithful ex_empty hs
  refine ⟨a, st, fs', rst, h1, h2, h3, h4, h4.linked _ _ _ _ 4 rfl rfl, fun h => ?_⟩
  obtain ⟨i, hi, -⟩ := h4.names [[98]] (by simp)
  rw [hi] at h
  rcases h4.notLinked _ _ _ h hi with h | ⟨m, n, k, -, h⟩
  · cases h
  · cases h

/-! ### counterexamples -/

/-- a filesystem having some names, and inodes -/
private def mkFs (l : List (List Bytes × FEnt)) (inos : List Obj) : FS :=
  ⟨fun p => if p = [] then some (.dir (rdir 1)) else (l.find? (fun e => e.1 = p)).map (·.2), fun i => inos.getD i (rdir 1), inos.length⟩
private def unsaved (x : Obj) : Obj := { x with ino := { x.ino with status := .notSaved } }
private def metaOnly (x : Obj) : Obj := { x with ino := { x.ino with status := .inodeOnly } }
private def withFsa (x : Obj) (f : Bytes) : Obj := { x with fsa := .full, fsas := f }

private def okChain (l : List (DateT × BCat)) (P : FS → Bool) : Bool :=
  match backups bo (emptyCat st0) l with
  | .error _ => false
  | .ok archives => match restores ro fs0 archives with
    | .error _ => false
    | .ok (fs, n) => decide (n = 0) && P fs
private theorem chain_of {l : List (DateT × BCat)} {P : FS → Bool} (h : okChain l P = true) :
    ∃ archives fs, backups bo (emptyCat st0) l = .ok archives ∧ restores ro fs0 archives = .ok (fs, 0) ∧ P fs = true := by
  unfold okChain at h
  split at h
  · cases h
  · next archives he =>
    split at h
    · cases h
    · next fs n hr =>
      rw [Bool.and_eq_true] at h
      have hn := of_decide_eq_true h.1
      subst hn
      exact ⟨archives, fs, he, hr, h.2⟩
private def okRestore (o : RsOpts) (a : BCat) (fs : FS) (P : FS → Stats → Bool) : Bool :=
  match restore o a fs with
  | .error _ => false
  | .ok (fs, st) => P fs st
private theorem restore_of {o : RsOpts} {a : BCat} {f : FS} {P : FS → Stats → Bool} (h : okRestore o a f P = true) : ∃ fs st, restore o a f = .ok (fs, st) ∧ P fs st = true := by
  unfold okRestore at h
  split at h
  · cases h
  · next fs st he => exact ⟨fs, st, he, h⟩

/-- The directory "d" has not changed since the archive of reference, so it is recorded as unsaved, and one of its files "b" is saved; "d" was replaced by a file in the
directory of restoration.  The file "b" is then restored beside "d" instead of inside it (filesystem_restore.cpp:602-606: the directory is not entered but its contents
are still written), then leaving a directory that was not entered is an internal error (filesystem_restore.cpp:209): the restoration stops. -/
theorem C35_unsaved_dir_counterexample :
    restore ro ⟨[.dir (unsaved (mk [100] .dir 493 12 12 [] [])) [.node (mk [98] .file 420 20 20 [1] [])]], st0⟩
      (mkFs [([[100]], .ino 0)] [mk [100] .file 420 5 5 [2] []]) = .error .bug ∧
    ∃ s, rsLoop ro st0 ⟨mkFs [([[100]], .ino 0)] [mk [100] .file 420 5 5 [2] []], [], [], [], Stats.zero, 0⟩
      [.entry (.dir (unsaved (mk [100] .dir 493 12 12 [] [])) [.node (mk [98] .file 420 20 20 [1] [])]), .entry (.node (mk [98] .file 420 20 20 [1] []))] = .ok s ∧
      (s.fs.obj [[98]]).map (·.data) = some [1] ∧ s.fs.ent [[100], [98]] = none ∧ s.st.errored = 0 := ⟨rfl, _, rfl, rfl, rfl, rfl⟩

/-- A directory is replaced by a plain file, and all is saved: the restoration over the directory gives the data but neither the owner nor the permissions nor the
date of the file, and no error (filesystem_restore.cpp:543: the test is made on what was there, not on what is restored). -/
theorem C35_over_dir_counterexample : ∃ fs st, restore ro ⟨[.node (mk [100] .file 420 12 12 [1] [])], st0⟩ (mkFs [([[100]], .dir (mk [100] .dir 493 5 5 [] []))] []) = .ok (fs, st) ∧
    st.errored = 0 ∧ st.treated = 1 ∧ (fs.obj [[100]]).map (fun y => (y.ino.kind, y.data, y.ino.uid, y.ino.perm, y.ino.mtime)) = some (.file, [1], 0, 448, tm 1000) := by
  obtain ⟨fs, st, h1, h2⟩ := restore_of (o := ro) (a := ⟨[.node (mk [100] .file 420 12 12 [1] [])], st0⟩) (f := mkFs [([[100]], .dir (mk [100] .dir 493 5 5 [] []))] [])
    (P := fun fs st => decide (st.errored = 0 ∧ st.treated = 1 ∧ (fs.obj [[100]]).map (fun y => (y.ino.kind, y.data, y.ino.uid, y.ino.perm, y.ino.mtime)) = some (.file, [1], 0, 448, tm 1000)))
    (by decide +kernel)
  exact ⟨fs, st, h1, of_decide_eq_true h2⟩

/-- The file "a" with an extended attribute is replaced by a named pipe without any: a full then a differential backup, restored in order, give a
pipe that has the extended attribute of the former file (filesystem_restore.cpp:754-850: those in place are given to what replaces it). -/
theorem C35_kind_counterexample : ∃ archives fs, backups bo (emptyCat st0) [(tm 13, ⟨[.node (mk [97] .file 420 10 10 [1] [7])], st0⟩), (tm 23, ⟨[.node (mk [97] .pipe 420 20 20 [] [])], st0⟩)] = .ok archives ∧
    restores ro fs0 archives = .ok (fs, 0) ∧ (fs.obj [[97]]).map (fun y => (y.ino.kind, y.eas)) = some (.pipe, [7]) := by
  obtain ⟨a, fs, h1, h2, h3⟩ := chain_of (l := [(tm 13, ⟨[.node (mk [97] .file 420 10 10 [1] [7])], st0⟩), (tm 23, ⟨[.node (mk [97] .pipe 420 20 20 [] [])], st0⟩)])
    (P := fun fs => decide ((fs.obj [[97]]).map (fun y => (y.ino.kind, y.eas)) = some (.pipe, [7]))) (by decide +kernel)
  exact ⟨a, fs, h1, h2, of_decide_eq_true h3⟩

private def two (x : Obj) : BCat := ⟨[.mirage [97] 4, .mirage [98] 4], fun _ => x⟩
/-- "a" and "b" are hard links to an inode whose data and extended attributes have changed: a full then a differential backup, restored in order, give back the
data but the former extended attributes: those restored with the first name are overwritten, through the second name, by the ones that were there. -/
theorem C36_ea_counterexample : ∃ archives fs, backups bo (emptyCat st0) [(tm 13, two (mk [] .file 420 10 10 [1] [7])), (tm 23, two (mk [] .file 420 20 20 [2] [8]))] = .ok archives ∧
    restores ro fs0 archives = .ok (fs, 0) ∧ (fs.obj [[97]]).map (fun y => (y.data, y.eas)) = some ([2], [7]) ∧ fs.obj [[98]] = fs.obj [[97]] := by
  obtain ⟨a, fs, h1, h2, h3⟩ := chain_of (l := [(tm 13, two (mk [] .file 420 10 10 [1] [7])), (tm 23, two (mk [] .file 420 20 20 [2] [8]))])
    (P := fun fs => decide ((fs.obj [[97]]).map (fun y => (y.data, y.eas)) = some ([2], [7]) ∧ fs.obj [[98]] = fs.obj [[97]])) (by decide +kernel)
  exact ⟨a, fs, h1, h2, of_decide_eq_true h3⟩

/-- the same with the filesystem specific attributes -/
theorem C36_fsa_counterexample : ∃ archives fs, backups bo (emptyCat st0) [(tm 13, two (withFsa (mk [] .file 420 10 10 [1] []) [7])), (tm 23, two (withFsa (mk [] .file 420 20 20 [2] []) [8]))] = .ok archives ∧
    restores ro fs0 archives = .ok (fs, 0) ∧ (fs.obj [[97]]).map (fun y => (y.data, y.fsas)) = some ([2], [7]) := by
  obtain ⟨a, fs, h1, h2, h3⟩ := chain_of (l := [(tm 13, two (withFsa (mk [] .file 420 10 10 [1] []) [7])), (tm 23, two (withFsa (mk [] .file 420 20 20 [2] []) [8]))])
    (P := fun fs => decide ((fs.obj [[97]]).map (fun y => (y.data, y.fsas)) = some ([2], [7]))) (by decide +kernel)
  exact ⟨a, fs, h1, h2, of_decide_eq_true h3⟩

/-- Only the permissions of a hard linked inode have changed, and the backup uses the detection of modified data on date and size: they are restored, through both names. -/
theorem C36_metadata_example :
    ∃ fs st, restore ro (two (metaOnly (mk [] .file 384 10 20 [1] []))) (mkFs [([[97]], .ino 0), ([[98]], .ino 0)] [mk [97] .file 420 10 10 [1] []]) = .ok (fs, st) ∧
      st.errored = 0 ∧ (fs.obj [[97]]).map (·.ino.perm) = some 384 ∧ (fs.obj [[98]]).map (·.ino.perm) = some 384 := by
  obtain ⟨fs, st, h1, h2⟩ := restore_of (o := ro) (a := two (metaOnly (mk [] .file 384 10 20 [1] []))) (f := mkFs [([[97]], .ino 0), ([[98]], .ino 0)] [mk [97] .file 420 10 10 [1] []])
    (P := fun fs st => decide (st.errored = 0 ∧ (fs.obj [[97]]).map (·.ino.perm) = some 384 ∧ (fs.obj [[98]]).map (·.ino.perm) = some 384)) (by decide +kernel)
  exact ⟨fs, st, h1, of_decide_eq_true h2⟩

private def three (e : BEntry) : BCat := ⟨[.mirage [97] 4, e, .mirage [99] 4], fun _ => mk [] .file 420 10 10 [1] []⟩
/-- "a" and "c" are hard links, "b" is another file; then "b" is replaced by a hard link to the inode of "a", which has not changed.  After the full and the differential backups
are restored, "b" is still the former file. -/
theorem C36_new_link_counterexample : ∃ archives fs, backups bo (emptyCat st0) [(tm 13, three (.node (mk [98] .file 420 9 9 [5] []))), (tm 23, three (.mirage [98] 4))] = .ok archives ∧
    restores ro fs0 archives = .ok (fs, 0) ∧ (fs.obj [[98]]).map (·.data) = some [5] ∧ (fs.obj [[97]]).map (·.data) = some [1] := by
  obtain ⟨a, fs, h1, h2, h3⟩ := chain_of (l := [(tm 13, three (.node (mk [98] .file 420 9 9 [5] []))), (tm 23, three (.mirage [98] 4))])
    (P := fun fs => decide ((fs.obj [[98]]).map (·.data) = some [5] ∧ (fs.obj [[97]]).map (·.data) = some [1])) (by decide +kernel)
  exact ⟨a, fs, h1, h2, of_decide_eq_true h3⟩

/-- With the overwriting policy "remove", the existing file is removed as asked, but the operation is counted as an error because the date of the file
that has just been removed cannot be set (filesystem_restore.cpp:567). -/
theorem C35_remove_counterexample : ∃ fs st, restore { ro with over := fun _ _ => .ok (.remove, .overwrite) } ⟨[.node (mk [97] .file 420 20 20 [1] [])], st0⟩
      (mkFs [([[97]], .ino 0)] [mk [97] .file 420 10 10 [2] []]) = .ok (fs, st) ∧ fs.obj [[97]] = none ∧ st.errored = 1 ∧ st.deleted = 0 := by
  obtain ⟨fs, st, h1, h2⟩ := restore_of (o := { ro with over := fun _ _ => .ok (.remove, .overwrite) }) (a := ⟨[.node (mk [97] .file 420 20 20 [1] [])], st0⟩)
    (f := mkFs [([[97]], .ino 0)] [mk [97] .file 420 10 10 [2] []]) (P := fun fs st => decide (fs.obj [[97]] = none ∧ st.errored = 1 ∧ st.deleted = 0)) (by decide +kernel)
  exact ⟨fs, st, h1, of_decide_eq_true h2⟩

end Dar
