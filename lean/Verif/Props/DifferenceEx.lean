import Verif.Props.Difference
import Verif.Props.ChainEx
/- C56: examples meeting the hypotheses, and what happens outside of them. -/
namespace Dar

private def dm (n : Nat) : DateT := ⟨n, .s⟩
private def dk (name : Bytes) (kind : InoKind) (mt : Nat) (data eas fsas : Bytes) : Obj :=
  ⟨name, ⟨kind, 1000, 100, 420, dm mt, dm mt, .saved, data.length, false, false, false, 0, 0, if kind = .symlink then [47] else [], if eas = [] then .none else .full, eas.length, eas.length⟩,
    if fsas = [] then .none else .full, data, eas, fsas⟩
/-- one extended attribute "u" at most and one attribute of the filesystem at most; checksums of four bytes -/
private def dOpts : DfOpts where
  capa := .us
  hourshift := 0
  what := .all
  symlinkDate := true
  isolated := false
  addr := 0
  subtree := fun p => decide (p ≠ [[120]])
  names := fun n => decide (n ≠ [111])
  eaMask := fun _ => true
  eaOf := fun b => if b = [] then [] else [([117], b)]
  scope := fun f => decide (f = .extX)
  fsaOf := fun b => if b = [] then [] else [⟨.extX, .noDump, .bool (decide (b = [1]))⟩]
  crcOf := fun x => some ⟨.n, ⟨crcSpec 4 x.data, 0⟩⟩
  patchCrc := fun _ => none
  sigOf := fun x => x.data
  sign := fun _ d => d
  fails := fun _ => none

private theorem spec4 (d : Bytes) : (crcSpec 4 d).length = 4 := by unfold crcSpec; simp
private theorem dComparable (o : DfOpts) (h1 : o.eaOf = dOpts.eaOf) (h2 : o.fsaOf = dOpts.fsaOf) (h3 : o.crcOf = dOpts.crcOf) (h4 : o.patchCrc = dOpts.patchCrc) (x y : Obj) (hx : x.ino.status ≠ .delta) :
    Comparable o x y := by
  have ha : ∀ b a, a ∈ dOpts.fsaOf b → ∃ v, a = ⟨.extX, .noDump, .bool v⟩ := by
    intro b a h
    simp only [dOpts] at h
    split at h
    · cases h
    · rw [List.mem_singleton] at h; exact ⟨_, h⟩
  have hset : ∀ b, FsaSet (dOpts.fsaOf b) ∧ ∀ a ∈ dOpts.fsaOf b, a.Typed := by
    intro b
    constructor
    · simp only [dOpts]; split <;> simp [FsaSet]
    · intro a h
      obtain ⟨v, rfl⟩ := ha b a h
      simp [Fsa.Typed]
  refine ⟨fun c hc => ?_, fun h => absurd h hx, ?_, by rw [h2]; exact hset _, fun _ => by rw [h2]; exact hset _, fun _ hh a h _ => ?_⟩
  · rw [h3, h4] at hc
    rcases hc with hc | hc
    · cases hc; rw [show (crcSpec 4 x.data).length = 4 from spec4 _]; exact ⟨by decide, rfl⟩
    · cases hc
  · rw [h1]; simp only [dOpts]; split <;> simp
  · obtain ⟨b, hb, hs⟩ := hh
    refine ⟨b, hb, hs, ?_⟩
    rw [h2] at h hb
    obtain ⟨v, rfl⟩ := ha _ _ h
    obtain ⟨w, rfl⟩ := ha _ _ hb
    rfl
private theorem dReadable (o : DfOpts) (h1 : o.eaOf = dOpts.eaOf) (h2 : o.fsaOf = dOpts.fsaOf) (h3 : o.crcOf = dOpts.crcOf) (h4 : o.patchCrc = dOpts.patchCrc) (h5 : o.fails = fun _ => none) (cat : BCat) (fs : FS)
    (h : BEntry.EachL (fun _ e => ∀ x, e.obj cat.stars = some x → x.ino.status ≠ .delta) [] cat.root) : Readable o cat fs :=
  ⟨fun p => by rw [h5], fun p e x y g1 g2 _ => dComparable o h1 h2 h3 h4 x y (each_occursL (P := fun _ e => ∀ x, e.obj cat.stars = some x → x.ino.status ≠ .delta) cat.root [] h g1 x g2)⟩

/-- the directory "d" with: "a" (data, extended attribute and attribute of the filesystem), "b" (unchanged since the archive of reference), "l" (symbolic link), "o" (not selected), "s" (a link to the same inode as "e"),
and the record of the deletion of "r"; the directory "e" with "f"; the directory "g" with "h"; the directory "x" with "y" (not selected) -/
private def dCat : BCat := ⟨[
  .dir (dk [100] .dir 50 [] [] []) [.node (dk [97] .file 30 [9, 9] [7] [1]), .node { dk [98] .file 31 [8] [] [] with ino := { (dk [98] .file 31 [8] [] []).ino with status := .notSaved } },
    .node (dk [108] .symlink 32 [] [] []), .node (dk [111] .file 33 [1] [] []), .mirage [115] 3, .detruit [114] .file (dm 40)],
  .dir (dk [101] .dir 51 [] [] []) [.node (dk [102] .file 30 [3] [] [])],
  .dir (dk [103] .dir 52 [] [] []) [.node (dk [104] .file 30 [3] [] [])],
  .dir (dk [120] .dir 53 [] [] []) [.node (dk [121] .file 30 [3] [] [])]], fun k => dk [] .file k [4, 4, 4] [] []⟩
/-- The filesystem: "d" is the same, "d/a" has other data of the same length when `chg` is true; "d/b", "d/l", "d/s" are the same; "d/r" exists; "e" is missing; "g" is a file. -/
private def dFs (chg : Bool) : FS :=
  ⟨fun p => if p = [] then some (.dir (dk [] .dir 1 [] [] [])) else if p = [[100]] then some (.dir (dk [100] .dir 50 [] [] [])) else if p = [[100], [97]] then some (.ino 0) else if p = [[100], [98]] then some (.ino 1)
    else if p = [[100], [108]] then some (.ino 2) else if p = [[100], [111]] then some (.ino 3) else if p = [[100], [115]] then some (.ino 4) else if p = [[100], [114]] then some (.ino 5)
    else if p = [[103]] then some (.ino 5) else none,
   fun i => if i = 0 then dk [97] .file 30 (if chg then [9, 8] else [9, 9]) [7] [1] else if i = 1 then dk [98] .file 31 [8] [] [] else if i = 2 then dk [108] .symlink 32 [] [] [] else
    if i = 3 then dk [111] .file 99 [2] [] [] else if i = 4 then dk [115] .file 3 [4, 4, 4] [] [] else dk [103] .file 5 [] [] [], 6⟩

/-- what the comparison gives -/
private def dView (o : DfOpts) (cat : BCat) (fs : FS) (l : List (DfWord × List Bytes)) (w : Stats) : Bool :=
  match difference o cat fs with
  | .ok (st, told) => decide (told = l ∧ st = w)
  | .error _ => false
private theorem dView_out {o : DfOpts} {cat : BCat} {fs : FS} {l : List (DfWord × List Bytes)} {w : Stats} (h : dView o cat fs l w = true) : difference o cat fs = .ok (w, l) := by
  unfold dView at h
  cases hr : difference o cat fs with
  | error e => rw [hr] at h; cases h
  | ok r =>
    obtain ⟨st, told⟩ := r
    rw [hr] at h
    obtain ⟨h1, h2⟩ := of_decide_eq_true h
    rw [h1, h2]

private theorem dCat_plain : BEntry.EachL (fun _ e => ∀ x, e.obj dCat.stars = some x → x.ino.status ≠ .delta) [] dCat.root := by
  simp [dCat, BEntry.EachL, BEntry.Each, BEntry.obj, dk]

/-- a case meeting the hypotheses of `C56_told` and `C56_clean`, where each of the words is told: nothing is said below "e" and "g", not found as directories, nor below "x", not selected -/
theorem C56_example : Readable dOpts dCat (dFs true) ∧ BEntry.DistinctL dCat.root ∧
    difference dOpts dCat (dFs true) = .ok (⟨5, 0, 0, 0, 2, 0, 3, 0, 0, 0⟩,
      [(.ok, [[100]]), (.diff, [[100], [97]]), (.ok, [[100], [98]]), (.ok, [[100], [108]]), (.skipped, [[100], [111]]), (.ok, [[100], [115]]), (.silent, [[100], [114]]),
       (.diff, [[101]]), (.diff, [[103]]), (.skipped, [[120]])]) :=
  ⟨dReadable dOpts rfl rfl rfl rfl rfl _ _ dCat_plain, by simp [dCat, BEntry.DistinctL, BEntry.Distinct, BEntry.name, dk], dView_out (by decide +kernel)⟩

/-- a restoration with the policy "Oo" -/
private def dRo : RsOpts := ⟨.all, fun _ _ => .ok (.overwrite, .overwrite), fun a b => if b = [] then a else b, fun a b => if b = [] then a else b, fun a _ => .ok a,
  dm 1000, 0, 0, [], fun _ _ => true, false, false⟩
private def dEmpty : FS := ⟨fun p => if p = [] then some (.dir (dk [] .dir 1 [] [] [])) else none, fun _ => dk [] .dir 1 [] [] [], 0⟩
/-- "d" with "a", and the hard links "d/s" and "t" -/
private def dFull : BCat := ⟨[.dir (dk [100] .dir 50 [] [] []) [.node (dk [97] .file 30 [9, 9] [7] [1]), .mirage [115] 3], .mirage [116] 3], fun k => dk [] .file k [4, 4, 4] [] []⟩

/-- a case meeting the hypotheses of `C56_restored` and `C56_restore_then_compare` -/
theorem C56_example_restored : Plain dRo ∧ EmptyFS dEmpty ∧ FullArchive dFull ∧ (∀ p e x, treeAt dFull.root p = some e → e.obj dFull.stars = some x → SoundFor dOpts x ∧ x.ino.kind ≠ .symlink) ∧
    ∃ fs st0 st told, restore dRo dFull dEmpty = .ok (fs, st0) ∧ st0.errored = 0 ∧ difference dOpts dFull fs = .ok (st, told) ∧ st.errored = 0 := by
  have h1 : Plain dRo := ⟨rfl, fun _ _ => rfl, fun w => by simp [dRo], fun w => by simp [dRo], fun a b h => by simp [dRo, h], fun a => by simp [dRo], fun _ _ => rfl, rfl, rfl⟩
  have h2 : EmptyFS dEmpty := ⟨⟨_, rfl⟩, fun p h => by simp [dEmpty, h]⟩
  have h3 : FullArchive dFull := by
    refine ⟨by simp [dFull, BEntry.DistinctL, BEntry.Distinct, BEntry.name, dk], fun p e ht => each_tree (P := fun _ e => match e with
      | .node x => x.ino.kind ≠ .dir ∧ Complete x
      | .dir x _ => x.ino.kind = .dir ∧ Complete x
      | .mirage _ k => (dFull.stars k).ino.kind ≠ .dir ∧ Complete (dFull.stars k)
      | _ => False) ?_ p e ht⟩
    simp [dFull, BEntry.EachL, BEntry.Each, Complete, dk]
  have h4 : ∀ p e x, treeAt dFull.root p = some e → e.obj dFull.stars = some x → ∃ n k m d ea fa, x = dk n k m d ea fa ∧ k ≠ .symlink := by
    intro p e x ht hx
    refine each_tree (P := fun _ e => ∀ x, e.obj dFull.stars = some x → ∃ n k m d ea fa, x = dk n k m d ea fa ∧ k ≠ .symlink) ?_ p e ht x hx
    simp only [dFull, BEntry.EachL, BEntry.Each]
    refine ⟨⟨?_, ?_, ?_, trivial⟩, ?_, trivial⟩ <;> (intro x hx; cases hx)
    · exact ⟨_, _, _, _, _, _, rfl, by decide⟩
    · exact ⟨_, _, _, _, _, _, rfl, by decide⟩
    · exact ⟨[115], .file, 3, [4, 4, 4], [], [], rfl, by decide⟩
    · exact ⟨[116], .file, 3, [4, 4, 4], [], [], rfl, by decide⟩
  have h5 : ∀ p e x, treeAt dFull.root p = some e → e.obj dFull.stars = some x → SoundFor dOpts x ∧ x.ino.kind ≠ .symlink := by
    intro p e x ht hx
    obtain ⟨n, k, m, d, ea, fa, rfl, hk⟩ := h4 p e x ht hx
    have hc := dComparable dOpts rfl rfl rfl rfl (dk n k m d ea fa) (dk n k m d ea fa) (by simp [dk])
    refine ⟨⟨hc.crc, fun c h => ?_, fun h => (by simp [dk] at h), hc.eaMe, hc.fsaMe, fun h => ?_, ?_, fun h => Or.inl ?_⟩, by simpa [dk] using hk⟩
    · cases h; exact (congrArg (fun n => crcSpec n d) (spec4 d)).symm
    · by_cases he : ea = []
      · rw [he] at h; simp [dk] at h
      · exact ⟨[117], ea, rfl, by simp [dk, dOpts, he, eaFind]⟩
    · simp only [dk]; split <;> simp
    · by_cases he : fa = []
      · rw [he] at h; simp [dk] at h
      · exact ⟨_, by simp only [dk, dOpts, if_neg he]; exact List.mem_singleton_self _, rfl⟩
  exact ⟨h1, h2, h3, h5, C56_restore_then_compare dRo dOpts dFull dEmpty h1 h2 h3 (fun _ => rfl) (fun p e x a b => (h5 p e x a b).1) (Or.inr fun p e x a b => (h5 p e x a b).2)⟩

/-! ### findings -/

private def dOne (x : Obj) : BCat := ⟨[.node x], fun k => dk [] .file k [] [] []⟩
private def dHas (y : Obj) : FS := ⟨fun p => if p = [] then some (.dir (dk [] .dir 1 [] [] [])) else if p = [[97]] then some (.ino 0) else none, fun _ => y, 1⟩

/-- Finding: the shift of hours (the option -H) is of no use for plain files (cat_file.cpp:1490 asks for an equality without it): dates that differ by one hour are accepted for a pipe, not for a file; nor is it of use to ask
for a comparison of the type of inodes only. -/
theorem C56_hourshift_counterexample :
    difference { dOpts with hourshift := 1 } (dOne (dk [97] .pipe 7200 [] [] [])) (dHas (dk [97] .pipe 3600 [] [] [])) = .ok (⟨1, 0, 0, 0, 0, 0, 0, 0, 0, 0⟩, [(.ok, [[97]])]) ∧
    difference { dOpts with hourshift := 1 } (dOne (dk [97] .file 7200 [1] [] [])) (dHas (dk [97] .file 3600 [1] [] [])) = .ok (⟨0, 0, 0, 0, 0, 0, 1, 0, 0, 0⟩, [(.diff, [[97]])]) ∧
    difference { dOpts with what := .inodeType } (dOne (dk [97] .file 7200 [1] [] [])) (dHas (dk [97] .file 3600 [1] [] [])) = .ok (⟨0, 0, 0, 0, 0, 0, 1, 0, 0, 0⟩, [(.diff, [[97]])]) :=
  ⟨dView_out (by decide +kernel), dView_out (by decide +kernel), dView_out (by decide +kernel)⟩

/-- Finding: the filter excludes all the extended attributes, and a difference is reported about them (cat_inode.cpp:440), even when they are the same. -/
theorem C56_ea_counterexample :
    difference { dOpts with eaMask := fun _ => false } (dOne (dk [97] .file 30 [1] [7] [])) (dHas (dk [97] .file 30 [1] [7] [])) = .ok (⟨0, 0, 0, 0, 0, 0, 1, 0, 0, 0⟩, [(.diff, [[97]])]) :=
  dView_out (by decide +kernel)

/-- Finding: a file recorded as deleted that exists is not reported, nor what exists and is not in the archive. -/
theorem C56_deleted_counterexample : difference dOpts ⟨[.detruit [97] .file (dm 40)], fun k => dk [] .file k [] [] []⟩ (dHas (dk [97] .file 30 [1] [] [])) = .ok (⟨1, 0, 0, 0, 0, 0, 0, 0, 0, 0⟩, [(.silent, [[97]])]) ∧
    difference dOpts ⟨[], fun k => dk [] .file k [] [] []⟩ (dHas (dk [97] .file 30 [1] [] [])) = .ok (⟨0, 0, 0, 0, 0, 0, 0, 0, 0, 0⟩, []) := ⟨dView_out (by decide +kernel), dView_out (by decide +kernel)⟩

/-- Finding: when lstat fails on a directory (for another reason than its absence), an error is told, but the archive is read in the directory while the filesystem is not: "d/a" of the archive is compared with "a" of the
filesystem (and found the same here, although "d" cannot be read), and at the end of the directory one leaves the directory above, here the root, which ends in an internal error. -/
theorem C56_unreadable_counterexample : difference { dOpts with fails := fun p => if p = [[100]] then some .range else none }
      ⟨[.dir (dk [100] .dir 50 [] [] []) [.node (dk [97] .file 30 [1] [] [])]], fun k => dk [] .file k [] [] []⟩ (dHas (dk [97] .file 30 [1] [] [])) = .error .bug ∧
    (dfLoop { dOpts with fails := fun p => if p = [[100]] then some .range else none } (fun k => dk [] .file k [] [] []) (dHas (dk [97] .file 30 [1] [] [])) ⟨[], [], Stats.zero, [], 0⟩
      [.entry (.dir (dk [100] .dir 50 [] [] []) []), .entry (.node (dk [97] .file 30 [1] [] []))]).map (fun s => s.told) = .ok [(.ok, [[100], [97]]), (.diff, [[100]])] :=
  ⟨by decide +kernel, by decide +kernel⟩

end Dar
