import Verif.Lemmas.RemoteReadLive
/- C78: what is read from a remote file (libcurl). -/
namespace Dar.Lc
open Dar

/-- C78: whatever the order in which the two threads run, however libcurl cuts what it gives, and even when transfers fail, each read that ends gave bytes of the file, the ones at its position,
and the next call starts after them -/
theorem C78_bytes (c : Cfg) (hk : c.known = true) (hc : 3 ≤ c.cap) (s : St) (h : Reach c (Asks c) s) :
    Faithful c.file s.log ∧ (s.pc = .idle → s.off = posAfter s.log) := by
  obtain ⟨hF, hP⟩ := reach_inv hk hc h
  refine ⟨hF, fun hi => ?_⟩
  unfold PcOk at hP
  rw [hi] at hP
  exact hP.1.symm

/-- C78: when no transfer fails and the caller does not run between the end of a transfer and the empty block that tells it, a read that ends gave all that was asked, or the end of the file
has been met (see C78_short_counterexample and C78_failure_counterexample for the other executions) -/
theorem C78_complete_partial (c : Cfg) (hk : c.known = true) (hc : 3 ≤ c.cap) (s : St) (h : CalmReach c (Asks c) s) : Full c.file s.log :=
  (calm_inv hk hc h).1

/-- C78: no call waits for ever: as long as it has not ended (or thrown), one of the two threads can go on, without failure -/
theorem C78_no_deadlock (c : Cfg) (P : Call → Prop) (hc : 0 < c.cap) (s : St) (h : Reach c P s) (hi : s.pc ≠ .idle) (ht : ∀ e, s.pc ≠ .threw e) :
    (∃ s', mainStep c s = some s') ∨ ∃ k s', subStep c k false s = some s' :=
  progress hc h hi ht

/- schedules; what cannot run is skipped -/
private inductive Act
  | c (k : Call)
  | m
  | s (k : Nat)
  | f
private def act (c : Cfg) (s : St) : Act → St
  | .c k => if s.pc = .idle then callStep c k s else s
  | .m => (mainStep c s).getD s
  | .s k => (subStep c k false s).getD s
  | .f => (subStep c 0 true s).getD s
private def run (c : Cfg) (l : List Act) : St := l.foldl (act c) .init
private def ms (n : Nat) : List Act := List.replicate n .m
private def ss (n k : Nat) : List Act := List.replicate n (.s k)
private def calls (l : List Act) (P : Call → Prop) : Prop := ∀ k, Act.c k ∈ l → P k

private theorem foldl_reach {c : Cfg} {P : Call → Prop} (l : List Act) : ∀ s, calls l P → Reach c P s → Reach c P (l.foldl (act c) s) := by
  induction l with
  | nil => intro s _ h; exact h
  | cons a l ih =>
    intro s hP h
    refine ih _ (fun k hk => hP k (List.mem_cons_of_mem _ hk)) ?_
    cases a with
    | c k =>
      show Reach c P (if s.pc = .idle then callStep c k s else s)
      split
      · rename_i hi; exact .step h (.call k (hP k List.mem_cons_self) hi)
      · exact h
    | m =>
      show Reach c P ((mainStep c s).getD s)
      cases hm : mainStep c s with
      | none => exact h
      | some s' => exact .step h (.main hm)
    | s k =>
      show Reach c P ((subStep c k false s).getD s)
      cases hm : subStep c k false s with
      | none => exact h
      | some s' => exact .step h (.sub k false hm)
    | f =>
      show Reach c P ((subStep c 0 true s).getD s)
      cases hm : subStep c 0 true s with
      | none => exact h
      | some s' => exact .step h (.sub 0 true hm)
private theorem run_reach {c : Cfg} {P : Call → Prop} (l : List Act) (hP : calls l P) : Reach c P (run c l) := foldl_reach l _ hP .init

/-- the caller does not run at these moments -/
private def away : Sub → Bool
  | .fin1 => true
  | .fin2 => true
  | _ => false
private theorem away_ne {x : Sub} (h : away x = false) : x ≠ .fin1 ∧ x ≠ .fin2 := by
  refine ⟨?_, ?_⟩ <;> (intro h'; subst h'; cases h)
private def actC (c : Cfg) (s : St) : Act → St
  | .c k => if s.pc = .idle ∧ away s.sub = false then callStep c k s else s
  | .m => if away s.sub = false then (mainStep c s).getD s else s
  | .s k => (subStep c k false s).getD s
  | .f => s
private def runC (c : Cfg) (l : List Act) : St := l.foldl (actC c) .init
private theorem foldl_calm {c : Cfg} {P : Call → Prop} (l : List Act) : ∀ s, calls l P → CalmReach c P s → CalmReach c P (l.foldl (actC c) s) := by
  induction l with
  | nil => intro s _ h; exact h
  | cons a l ih =>
    intro s hP h
    refine ih _ (fun k hk => hP k (List.mem_cons_of_mem _ hk)) ?_
    cases a with
    | c k =>
      show CalmReach c P (if s.pc = .idle ∧ away s.sub = false then callStep c k s else s)
      split
      · rename_i hi; exact .step h (.call k (hP k List.mem_cons_self) hi.1 (away_ne hi.2))
      · exact h
    | m =>
      show CalmReach c P (if away s.sub = false then (mainStep c s).getD s else s)
      split
      · rename_i ha
        cases hm : mainStep c s with
        | none => exact h
        | some s' => exact .step h (.main hm (away_ne ha))
      · exact h
    | s k =>
      show CalmReach c P ((subStep c k false s).getD s)
      cases hm : subStep c k false s with
      | none => exact h
      | some s' => exact .step h (.sub k hm)
    | f => exact h
private theorem runC_calm {c : Cfg} {P : Call → Prop} (l : List Act) (hP : calls l P) : CalmReach c P (runC c l) := foldl_calm l _ hP .init

/-- a file of six bytes, of known size, read by http -/
private def web : Cfg := ⟨[1, 2, 3, 4, 5, 6], 4, 8, false, true⟩
private def small : Cfg := ⟨[1, 2, 3, 4, 5, 6], 3, 1, false, true⟩
private def ftpU : Cfg := ⟨[1, 2, 3, 4, 5, 6], 4, 8, true, false⟩

private theorem calls_of {l : List Act} {P : Call → Prop} [DecidablePred P] (h : (l.all fun | .c k => decide (P k) | _ => true) = true) : calls l P := by
  intro k hk
  have := List.all_eq_true.mp h _ hk
  exact of_decide_eq_true this
private instance (c : Cfg) : DecidablePred (Asks c) := fun k => by cases k <;> unfold Asks <;> infer_instance

private def lEx : List Act := [.c (.read 2)] ++ ms 2 ++ ss 10 2 ++ ms 9 ++ [.c (.skip 3)] ++ ms 9 ++ [.c (.ahead 1)] ++ ss 12 1 ++ [.c (.read 2)] ++ ms 20 ++ ss 12 1 ++ ms 20
/-- the hypotheses can be met: a read, a skip, and a read for which two transfers are needed -/
theorem C78_example : ∃ (c : Cfg) (s : St), c.known = true ∧ 3 ≤ c.cap ∧ CalmReach c (Asks c) s ∧ Reach c (Asks c) s ∧ s.pc = .idle ∧
    s.log = [.read 2 [4, 5], .ahead 1, .skip 3, .read 2 [1, 2]] :=
  ⟨web, runC web lEx, rfl, by decide, runC_calm _ (calls_of (by decide +kernel)), calm_reach (runC_calm _ (calls_of (by decide +kernel))), by decide +kernel, by decide +kernel⟩

private def lEnd : List Act := [.c (.read 6)] ++ ms 9 ++ ss 10 6 ++ ms 9 ++ [.c (.read 1)] ++ ms 1
/-- Counterexample: reading again once at the end of the file, when the empty block put by the thread is still in the pipe, is reported as a bug instead of giving nothing
(src/libdar/fichier_libcurl.cpp:418-422) -/
theorem C78_end_counterexample : ∃ (c : Cfg) (s : St), c.known = true ∧ 3 ≤ c.cap ∧ CalmReach c (Asks c) s ∧ s.log = [.read 6 c.file] ∧ s.pc = .threw .bug :=
  ⟨web, runC web lEnd, rfl, by decide, runC_calm _ (calls_of (by decide +kernel)), by decide +kernel, by decide +kernel⟩

private def lSlow : List Act := [.c (.ahead 4), .c (.read 2)] ++ ms 2 ++ ss 10 4 ++ ms 9
/-- Counterexample: a read that finds the pipe empty while the thread is running, and where the thread then brings its last bytes and ends before sub_is_dying is tested, is reported as a bug
(src/libdar/fichier_libcurl.cpp:899-936, 677-700) -/
theorem C78_slow_counterexample : ∃ (c : Cfg) (s : St), c.known = true ∧ 3 ≤ c.cap ∧ CalmReach c (Asks c) s ∧ s.log = [.ahead 4] ∧ s.pc = .threw .bug :=
  ⟨web, runC web lSlow, rfl, by decide, runC_calm _ (calls_of (by decide +kernel)), by decide +kernel, by decide +kernel⟩

private def lSkip : List Act := [.c (.ahead 5)] ++ ss 9 5 ++ [.c (.skip 1)] ++ ms 2 ++ ss 6 1 ++ ms 1
/-- Counterexample: a skip while a transfer by block is running with the pipe full is reported as a bug (src/libdar/fichier_libcurl.cpp:810-819) -/
theorem C78_skip_counterexample : ∃ (c : Cfg) (s : St), c.known = true ∧ 3 ≤ c.cap ∧ CalmReach c (Asks c) s ∧ s.log = [.ahead 5] ∧ s.pc = .threw .bug :=
  ⟨small, runC small lSkip, rfl, by decide, runC_calm _ (calls_of (by decide +kernel)), by decide +kernel, by decide +kernel⟩

private def lShort : List Act := [.c (.ahead 2)] ++ ss 6 2 ++ [.c (.read 2)] ++ ms 9 ++ [.c (.read 2)] ++ ms 3 ++ ss 1 1 ++ ms 3 ++ ss 3 1 ++ ms 20
/-- Counterexample: without any failure, a read gives nothing although bytes remain, when the caller runs between the moment the thread tells that it ends and the moment it puts the empty
block: the caller of fichier_global takes that for the end of the file -/
theorem C78_short_counterexample : ∃ (c : Cfg) (s : St), c.known = true ∧ 3 ≤ c.cap ∧ Reach c (Asks c) s ∧ s.exc = none ∧ s.pc = .idle ∧
    s.log = [.read 2 [], .read 2 [1, 2], .ahead 2] ∧ ¬ Full c.file s.log := by
  refine ⟨web, run web lShort, rfl, by decide, run_reach _ (calls_of (by decide +kernel)), by decide +kernel, by decide +kernel, by decide +kernel, ?_⟩
  have : (run web lShort).log = [.read 2 [], .read 2 [1, 2], .ahead 2] := by decide +kernel
  rw [this]
  rintro ⟨h, _⟩
  revert h; decide +kernel

private def lFail : List Act := [.c (.read 2)] ++ ms 2 ++ ss 10 2 ++ ms 9 ++ [.c (.read 2)] ++ ms 20 ++ [.s 1, .f] ++ ss 4 1 ++ ms 20
/-- Counterexample: when the second block asked fails, the read ends as at the end of the file, without an exception: the exception of the thread is kept for the next time it is joined -/
theorem C78_failure_counterexample : ∃ (c : Cfg) (s : St), c.known = true ∧ 3 ≤ c.cap ∧ Reach c (Asks c) s ∧ s.pc = .idle ∧ s.exc = some .range ∧
    s.log = [.read 2 [], .read 2 [1, 2]] :=
  ⟨web, run web lFail, rfl, by decide, run_reach _ (calls_of (by decide +kernel)), by decide +kernel, by decide +kernel, by decide +kernel⟩

private def lFtp : List Act := [.c (.read 6)] ++ ms 2 ++ ss 10 6 ++ ms 9 ++ [.c (.read 3)] ++ ms 20 ++ ss 10 6 ++ ms 9
/-- Counterexample: by ftp, when the size has not been asked, reading at the end of the file gives the beginning of the file again: stop_thread resets the offset and relaunch_thread does not set
it (src/libdar/fichier_libcurl.cpp:738, 752-768) -/
theorem C78_unknown_size_counterexample : ∃ (c : Cfg) (s : St), c.ftp = true ∧ c.known = false ∧ 3 ≤ c.cap ∧ CalmReach c (Asks c) s ∧ s.pc = .idle ∧
    s.log = [.read 3 [1, 2, 3], .read 6 c.file] :=
  ⟨ftpU, runC ftpU lFtp, rfl, rfl, by decide, runC_calm _ (calls_of (by decide +kernel)), by decide +kernel, by decide +kernel⟩

private def lZero : List Act := [.c (.read 2)] ++ ms 2 ++ ss 10 2 ++ ms 9 ++ [.c (.ahead 0)] ++ ms 9 ++ ss 10 6 ++ [.c (.read 2)] ++ ms 9
/-- Counterexample: read_ahead(0) ("as much as possible", used when merging, src/libdar/filtre.cpp:3356) once a block has been read makes the next read give the beginning of the file -/
theorem C78_ahead_zero_counterexample : ∃ (c : Cfg) (s : St), c.known = true ∧ 3 ≤ c.cap ∧ CalmReach c (fun _ => True) s ∧ s.pc = .idle ∧
    s.log = [.read 2 [1, 2], .ahead 0, .read 2 [1, 2]] ∧ ¬ Faithful c.file s.log := by
  refine ⟨web, runC web lZero, rfl, by decide, runC_calm _ (fun _ _ => trivial), by decide +kernel, by decide +kernel, ?_⟩
  have : (runC web lZero).log = [.read 2 [1, 2], .ahead 0, .read 2 [1, 2]] := by decide +kernel
  rw [this]
  rintro ⟨h, _⟩
  revert h; decide +kernel

end Dar.Lc
