import Verif.Lemmas.Hook
import Mathlib.Data.List.Induction
/- C66: the command is run before and after the saving of what it is asked for. -/
namespace Dar

/-- C66: what happens is what is documented, the end of the backup being met with no command pending (if no directory is left out or fails inside a covered directory) -/
theorem C66_hooks_partial (cov : List Bytes → Bool) (root : List Bytes) (l : List HkTree) (h : ∀ e ∈ l, HkClean cov root false e) :
    ∃ s, hookWalks cov root semInit l = .ok (s, hooksDueAll cov root false l) ∧ s.count = 0 := walks_outside l root semInit rfl h

theorem HooksAround.trans {cov : List Bytes → Bool} {o o' o'' : Option HookFor} {a b : List HkEv} (h : HooksAround cov o a o') (h' : HooksAround cov o' b o'') : HooksAround cov o (a ++ b) o'' := by
  induction h with
  | nil => exact h'
  | save hp hc _ ih => exact .save hp hc (ih h')
  | start hc _ ih => exact .start hc (ih h')
  | stop _ ih => exact .stop (ih h')
theorem around_savedFile {cov : List Bytes → Bool} (h : HookFor) (n : Nat) : HooksAround cov none (savedFile (cov h.path) h n) none := by
  have h1 : HooksAround cov none (savedOnce (cov h.path) h) none := by
    cases hc : cov h.path with
    | true => exact .start hc (.save (by intro f hf; cases hf; exact List.prefix_refl _) (by simp) (.stop .nil))
    | false => exact .save (by intro f hf; cases hf) (by rw [hc]; intro hh; cases hh) .nil
  induction n with
  | zero => exact h1
  | succ n ih => exact h1.trans ih
theorem around_inside_file {cov : List Bytes → Bool} {f : HookFor} (h : HookFor) (hp : f.path <+: h.path) (n : Nat) : HooksAround cov (some f) (savedFile false h n) (some f) := by
  have h1 : HooksAround cov (some f) (savedOnce false h) (some f) := .save (by intro g hg; cases hg; exact hp) (by simp) .nil
  induction n with
  | zero => exact h1
  | succ n ih => exact h1.trans ih
mutual
theorem due_inside {cov : List Bytes → Bool} {f : HookFor} (t : HkTree) (p : List Bytes) (hp : f.path <+: p) : HooksAround cov (some f) (hooksDue cov p true t) (some f) := by
  cases t with
  | file n u g c act =>
    cases act with
    | data k => rw [hooksDue]; exact around_inside_file _ (hp.trans (List.prefix_append _ _)) k
    | noData => rw [hooksDue]; exact .nil
    | _ => rw [hooksDue] <;> first | exact .nil | simp
  | dir n u g act ch =>
    cases act with
    | saved => rw [hooksDue]; exact dueAll_inside ch _ (hp.trans (List.prefix_append _ _))
    | unchanged => rw [hooksDue]; exact dueAll_inside ch _ (hp.trans (List.prefix_append _ _))
    | _ => rw [hooksDue] <;> first | exact .nil | simp
theorem dueAll_inside {cov : List Bytes → Bool} {f : HookFor} (l : List HkTree) (p : List Bytes) (hp : f.path <+: p) : HooksAround cov (some f) (hooksDueAll cov p true l) (some f) := by
  cases l with
  | nil => rw [hooksDueAll]; exact .nil
  | cons e l => rw [hooksDueAll]; exact (due_inside e p hp).trans (dueAll_inside l p hp)
end
mutual
theorem due_outside {cov : List Bytes → Bool} (t : HkTree) (p : List Bytes) : HooksAround cov none (hooksDue cov p false t) none := by
  cases t with
  | file n u g c act =>
    cases act with
    | data k => rw [hooksDue]; exact around_savedFile ⟨p ++ [n], n, u, g, c⟩ k
    | noData =>
      rw [hooksDue]
      by_cases hc : cov (p ++ [n]) = true
      · rw [if_pos (by simpa using hc)]; exact .start hc (.stop .nil)
      · rw [if_neg (by simpa using hc)]; exact .nil
    | _ => rw [hooksDue] <;> first | exact .nil | simp
  | dir n u g act ch =>
    cases act with
    | saved =>
      rw [hooksDue]
      by_cases hc : cov (p ++ [n]) = true
      · rw [if_pos (by simpa using hc)]
        exact HooksAround.trans (.start hc (dueAll_inside ch _ (List.prefix_refl _))) (.stop .nil)
      · rw [if_neg (by simpa using hc)]; exact dueAll_outside ch _
    | unchanged => rw [hooksDue]; exact dueAll_outside ch _
    | _ => rw [hooksDue] <;> first | exact .nil | simp
theorem dueAll_outside {cov : List Bytes → Bool} (l : List HkTree) (p : List Bytes) : HooksAround cov none (hooksDueAll cov p false l) none := by
  cases l with
  | nil => rw [hooksDueAll]; exact .nil
  | cons e l => rw [hooksDueAll]; exact (due_outside e p).trans (dueAll_outside l p)
end
/-- C66: so each covered file is saved between a "start" and an "end" that are for it or for a directory above it, commands come in pairs and those of two files are never mixed -/
theorem C66_around_partial (cov : List Bytes → Bool) (root : List Bytes) (l : List HkTree) (h : ∀ e ∈ l, HkClean cov root false e) :
    ∃ s evs, hookWalks cov root semInit l = .ok (s, evs) ∧ HooksAround cov none evs none := by
  obtain ⟨s, h1, -⟩ := C66_hooks_partial cov root l h
  exact ⟨s, _, h1, dueAll_outside l root⟩

/-! ### whatever is left out or fails -/

theorem HooksPaired.trans {o o' o'' : Option HookFor} {a b : List HkEv} (h : HooksPaired o a o') (h' : HooksPaired o' b o'') : HooksPaired o (a ++ b) o'' := by
  induction h with
  | nil => exact h'
  | save _ ih => exact .save (ih h')
  | start _ ih => exact .start (ih h')
  | stop _ ih => exact .stop (ih h')
/-- the command pending -/
def SemSt.pending (s : SemSt) : Option HookFor := if s.count = 0 then none else some s.hook
theorem raise_pairs {cov : List Bytes → Bool} {s : SemSt} (hs : s.count ≠ 1) (k : HkKind) (h : HookFor) (b : Bool) (hb : k = .eod → b = true) :
    ∃ s' evs, semRaise cov s k h b = .ok (s', evs) ∧ HooksPaired s.pending evs s'.pending := by
  unfold semRaise
  rw [if_neg hs]
  by_cases h1 : s.count > 1
  · rw [if_pos h1]
    cases k with
    | eod =>
      rw [hb rfl]
      refine ⟨_, _, rfl, ?_⟩
      have : SemSt.pending { s with count := s.count - 1 } = s.pending := by
        unfold SemSt.pending
        rw [if_neg (show ¬ s.count - 1 = 0 by omega), if_neg (by omega)]
      rw [this]; exact .nil
    | dir =>
      refine ⟨_, _, rfl, ?_⟩
      have : SemSt.pending { s with count := s.count + 1 } = s.pending := by
        unfold SemSt.pending
        rw [if_neg (show ¬ s.count + 1 = 0 by omega), if_neg (by omega)]
      rw [this]; exact .nil
    | other => exact ⟨_, _, rfl, .nil⟩
  · rw [if_neg h1]
    have h0 : s.pending = none := by unfold SemSt.pending; rw [if_pos (by omega)]
    cases k with
    | eod => exact ⟨_, _, rfl, .nil⟩
    | dir =>
      dsimp only
      split
      · exact ⟨_, _, rfl, (by rw [h0]; exact .start .nil)⟩
      · exact ⟨_, _, rfl, .nil⟩
    | other =>
      dsimp only
      split
      · exact ⟨_, _, rfl, (by rw [h0]; exact .start .nil)⟩
      · exact ⟨_, _, rfl, .nil⟩
theorem lower_pairs (s : SemSt) : HooksPaired s.pending (semLower s).2 (semLower s).1.pending ∧ (semLower s).1.count ≠ 1 := by
  unfold semLower
  by_cases h : s.count = 1
  · rw [if_pos h]
    have h0 : s.pending = some s.hook := by unfold SemSt.pending; rw [if_neg (by omega)]
    rw [h0]
    exact ⟨.stop .nil, (by simp)⟩
  · rw [if_neg h]; exact ⟨.nil, h⟩
/-- one step of the loop, with no command of a file pending -/
def StepPairs (s : SemSt) (r : Res (SemSt × List HkEv)) : Prop := ∃ s' evs, r = .ok (s', evs) ∧ HooksPaired s.pending evs s'.pending ∧ s'.count ≠ 1
theorem around_pairs {cov : List Bytes → Bool} {s : SemSt} (hs : s.count ≠ 1) (k : HkKind) (h : HookFor) (mid : List HkEv) (hm : ∀ e ∈ mid, ∃ p, e = .save p) : StepPairs s (semAround cov s k h mid) := by
  obtain ⟨s', evs, h1, h2⟩ := raise_pairs (cov := cov) hs k h true (fun _ => rfl)
  obtain ⟨h3, h4⟩ := lower_pairs s'
  refine ⟨_, _, (by rw [semAround_eq, h1]; rfl), ?_, h4⟩
  have hmid : ∀ o, HooksPaired o mid o := by
    intro o
    induction mid with
    | nil => exact .nil
    | cons e mid ih =>
      obtain ⟨p, rfl⟩ := hm e (by simp)
      exact .save (ih (fun x hx => hm x (by simp [hx])))
  exact (h2.trans (hmid _)).trans h3
theorem raise_false_pairs {cov : List Bytes → Bool} {s : SemSt} (hs : s.count ≠ 1) (k : HkKind) (h : HookFor) (hk : k ≠ .eod) : StepPairs s (semRaise cov s k h false) := by
  obtain ⟨s', evs, h1, h2⟩ := raise_pairs (cov := cov) hs k h false (fun he => absurd he hk)
  refine ⟨s', evs, h1, h2, ?_⟩
  unfold semRaise at h1
  rw [if_neg hs] at h1
  by_cases h3 : s.count > 1
  · rw [if_pos h3] at h1
    cases k with
    | eod => exact absurd rfl hk
    | dir => cases h1; dsimp only; omega
    | other => cases h1; exact hs
  · rw [if_neg h3] at h1
    cases k with
    | eod => exact absurd rfl hk
    | dir => simp at h1; rw [← h1.1]; exact hs
    | other => simp at h1; rw [← h1.1]; exact hs
theorem passes_pairs {cov : List Bytes → Bool} (h : HookFor) (n : Nat) : ∀ {s : SemSt}, s.count ≠ 1 → StepPairs s (filePasses cov h n s) := by
  induction n with
  | zero => intro s hs; rw [filePasses]; exact around_pairs hs _ _ _ (by simp)
  | succ n ih =>
    intro s hs
    obtain ⟨s1, e1, h1, h2, h3⟩ := around_pairs (cov := cov) hs .other h [.save h.path] (by simp)
    obtain ⟨s2, e2, h4, h5, h6⟩ := ih h3
    refine ⟨s2, e1 ++ e2, ?_, h2.trans h5, h6⟩
    rw [filePasses, h1]
    show (filePasses cov h n s1).bind _ = _
    rw [h4]; rfl
theorem dir_pairs {cov : List Bytes → Bool} {s : SemSt} (hs : s.count ≠ 1) (h : HookFor) (act : DirAct) :
    ∃ s' evs b, hookDir cov h s act = .ok (s', evs, b) ∧ HooksPaired s.pending evs s'.pending ∧ s'.count ≠ 1 := by
  cases act with
  | excluded =>
    obtain ⟨s', evs, h1, h2, h3⟩ := raise_false_pairs (cov := cov) hs .dir h (by simp)
    exact ⟨s', evs, false, (by rw [hookDir, h1]; rfl), h2, h3⟩
  | unchanged =>
    obtain ⟨s', evs, h1, h2, h3⟩ := raise_false_pairs (cov := cov) hs .dir h (by simp)
    exact ⟨s', evs, true, (by rw [hookDir, h1]; rfl), h2, h3⟩
  | saved =>
    obtain ⟨s', evs, h1, h2, h3⟩ := around_pairs (cov := cov) hs .dir h [] (by simp)
    exact ⟨s', evs, true, (by rw [hookDir, h1]; rfl), h2, h3⟩
  | failedBefore => exact ⟨s, [], false, rfl, .nil, hs⟩
  | failedAfter =>
    obtain ⟨s', evs, h1, h2, h3⟩ := around_pairs (cov := cov) hs .dir h [] (by simp)
    exact ⟨s', evs, false, (by rw [hookDir, h1]; rfl), h2, h3⟩
mutual
theorem walk_pairs {cov : List Bytes → Bool} (t : HkTree) (p : List Bytes) (s : SemSt) (hs : s.count ≠ 1) : StepPairs s (hookWalk cov p s t) := by
  cases t with
  | file n u g c act =>
    rw [hookWalk]
    cases act with
    | excluded => exact raise_false_pairs hs .other _ (by simp)
    | known => exact ⟨s, [], rfl, .nil, hs⟩
    | unchanged => exact raise_false_pairs hs .other _ (by simp)
    | data k => exact passes_pairs _ k hs
    | noData => exact around_pairs hs _ _ _ (by simp)
    | failed => exact ⟨s, [], rfl, .nil, hs⟩
  | dir n u g act ch =>
    obtain ⟨s1, e1, b, h1, h2, h3⟩ := dir_pairs (cov := cov) hs ⟨p ++ [n], n, u, g, 100⟩ act
    rw [walk_dir_eq, h1, ok_bind]
    cases b with
    | false => exact ⟨s1, e1, rfl, h2, h3⟩
    | true =>
      obtain ⟨s2, e2, h4, h5, h6⟩ := walks_pairs ch (p ++ [n]) s1 h3
      obtain ⟨s3, e3, h7, h8, h9⟩ := around_pairs (cov := cov) h6 .eod ⟨p ++ [n], n, u, g, 122⟩ [] (by simp)
      refine ⟨s3, e1 ++ e2 ++ e3, ?_, (h2.trans h5).trans h8, h9⟩
      dsimp only
      rw [if_pos rfl, h4, ok_bind]
      unfold hookEod
      dsimp only
      rw [h7]
      rfl
theorem walks_pairs {cov : List Bytes → Bool} (l : List HkTree) (p : List Bytes) (s : SemSt) (hs : s.count ≠ 1) : StepPairs s (hookWalks cov p s l) := by
  cases l with
  | nil => exact ⟨s, [], (by rw [hookWalks]), .nil, hs⟩
  | cons e l =>
    obtain ⟨s1, e1, h1, h2, h3⟩ := walk_pairs e p s hs
    obtain ⟨s2, e2, h4, h5, h6⟩ := walks_pairs l p s1 h3
    refine ⟨s2, e1 ++ e2, ?_, h2.trans h5, h6⟩
    rw [walks_cons, h1, ok_bind]
    dsimp only
    rw [h4]
    rfl
end
/-- C66: in any case an "end" follows the "start" of the same file, and no other command is run in between; no internal error is met.  At most one "start" has no "end" -/
theorem C66_pairs (cov : List Bytes → Bool) (root : List Bytes) (l : List HkTree) : ∃ s evs o, hookWalks cov root semInit l = .ok (s, evs) ∧ HooksPaired none evs o := by
  obtain ⟨s, evs, h1, h2, -⟩ := walks_pairs (cov := cov) l root semInit (by simp [semInit])
  exact ⟨s, evs, _, h1, h2⟩

/-! ### concrete cases -/

/-- a, which is covered; d, which is covered, with b and e, where c is; f -/
def hkCov (p : List Bytes) : Bool := p == [[97]] || p == [[100]] || p == [[100], [98]] || p == [[102]]
def hkTree : List HkTree := [.file [97] 1 2 102 (.data 1), .dir [100] 3 4 .saved [.file [98] 0 0 102 (.data 0), .dir [101] 0 0 .unchanged [.file [99] 0 0 102 (.data 0)]], .file [102] 0 0 108 .noData,
  .dir [103] 0 0 .excluded []]
example : (∀ e ∈ hkTree, HkClean hkCov [] false e) ∧ (hookWalks hkCov [] semInit hkTree).map (·.2) =
    .ok [.start ⟨[[97]], [97], 1, 2, 102⟩, .save [[97]], .stop ⟨[[97]], [97], 1, 2, 102⟩, .start ⟨[[97]], [97], 1, 2, 102⟩, .save [[97]], .stop ⟨[[97]], [97], 1, 2, 102⟩,
      .start ⟨[[100]], [100], 3, 4, 100⟩, .save [[100], [98]], .save [[100], [101], [99]], .stop ⟨[[100]], [100], 3, 4, 100⟩,
      .start ⟨[[102]], [102], 0, 0, 108⟩, .stop ⟨[[102]], [102], 0, 0, 108⟩] := by
  refine ⟨?_, by decide +kernel⟩
  intro e he
  simp [hkTree] at he
  rcases he with rfl | rfl | rfl | rfl <;> simp [HkClean]

/-! ### what is not so -/

/-- C66 fails: a directory that the masks leave out, inside a covered directory, is counted when met but its end never is (src/libdar/filtre.cpp:1023 and 1084: only juillet knows that it is left): the
command is not run at the end of the covered directory, nor for any of the covered files that follow -/
theorem C66_excluded_directory_counterexample : ∃ l : List HkTree, ∃ s h, hookWalks hkCov [] semInit l = .ok (s, [.start h, .save [[97]]]) ∧
    hooksDueAll hkCov [] false l = [.start h, .stop h, .start ⟨[[97]], [97], 0, 0, 102⟩, .save [[97]], .stop ⟨[[97]], [97], 0, 0, 102⟩] :=
  ⟨[.dir [100] 0 0 .saved [.dir [101] 0 0 .excluded []], .file [97] 0 0 102 (.data 0)], ⟨2, ⟨[[100]], [100], 0, 0, 100⟩⟩, ⟨[[100]], [100], 0, 0, 100⟩, by decide +kernel, by decide +kernel⟩
/-- C66 fails: so it is when the extended attributes of a covered directory cannot be read -/
theorem C66_failed_directory_counterexample : ∃ l : List HkTree, ∃ s h, hookWalks hkCov [] semInit l = .ok (s, [.start h, .save [[97]]]) ∧
    (.start ⟨[[97]], [97], 0, 0, 102⟩ : HkEv) ∈ hooksDueAll hkCov [] false l :=
  ⟨[.dir [100] 0 0 .failedAfter [], .file [97] 0 0 102 (.data 0)], ⟨2, ⟨[[100]], [100], 0, 0, 100⟩⟩, ⟨[[100]], [100], 0, 0, 100⟩, by decide +kernel, by decide +kernel⟩
/-- C66 fails: in a differential backup the command is not run for a covered directory whose own attributes have not changed, though a file in it has and is saved (a file modified in place does not change
the date of its directory) -/
theorem C66_unchanged_directory_counterexample : ∃ l : List HkTree, ∃ s, hookWalks hkCov [] semInit l = .ok (s, [.save [[100], [99]]]) ∧ hkCov [[100]] = true :=
  ⟨[.dir [100] 0 0 .unchanged [.file [99] 0 0 102 (.data 0)]], semInit, by decide +kernel, by decide⟩

end Dar
