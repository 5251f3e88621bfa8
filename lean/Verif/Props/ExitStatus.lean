import Verif.Spec.ExitStatus
import Verif.Props.Difference
import Verif.Props.Restore
import Verif.Props.Statistics
import Verif.Props.TestOp
import Verif.Props.DifferenceEx
/- C77: the exit status of dar. -/
namespace Dar.Ex
open Dar

/-- C77, exceptions.  Each exception gives the code of the manual, and only it: in particular never 0, 9 or 11. -/
theorem C77_exceptions (e : Exc) (n : Nat) : exitOf e = n ↔ Documented e n := by
  constructor
  · rintro rfl
    cases e <;> constructor
  · intro h
    cases h <;> rfl

theorem exitOf_data : exitOf .data = 5 := rfl
theorem exitOf_ne (e : Exc) : exitOf e ≠ 0 ∧ exitOf e ≠ 11 := by cases e <;> decide

theorem dar_run (op : Op) (r : Run) : dar true (.run op) r = match littleMain (.run op) r with
    | .ok n => n
    | .error e => exitOf e := rfl

theorem leaves_some {op : Op} {e x : Exc} (h : leaves op e = some x) : (e ≠ .range ∧ x = e) ∨ (e = .range ∧ x = .data ∧ op ≠ .test ∧ op ≠ .repairing ∧ op ≠ .isolate) ∨ (e = .range ∧ x = .range ∧ op = .isolate) := by
  by_cases he : e = .range
  · subst he
    cases op <;> simp [leaves] at h <;> subst h <;> simp
  · cases op <;> simp [leaves, he] at h <;> exact Or.inl ⟨he, h.symm⟩
theorem leaves_none {op : Op} {e : Exc} (h : leaves op e = none) : e = .range ∧ (op = .test ∨ op = .repairing) := by
  by_cases he : e = .range
  · subst he
    cases op <;> simp [leaves] at h <;> simp
  · cases op <;> simp [leaves, he] at h

/-- C77, an execution that ends by an exception gives the code of that exception. -/
theorem C77_ended (op : Op) (r : Run) (e : Exc) (h : Ends op r e) : Documented e (dar true (.run op) r) := by
  rw [← C77_exceptions]
  rw [dar_run]
  cases h with
  | before h => simp [littleMain, getArgs, operation, h, Bind.bind, Except.bind]
  | walk h hw hr => cases op <;> simp [littleMain, getArgs, operation, h, hw, leaves, hr, Bind.bind, Except.bind]
  | walkRange h hw ho => cases op <;> simp [littleMain, getArgs, operation, h, hw, leaves, Bind.bind, Except.bind] at ho ⊢
  | walkIsolate h hw ho => subst ho; simp [littleMain, getArgs, operation, h, hw, leaves, Bind.bind, Except.bind]
  | isolation h hw ho hi => subst ho; simp [littleMain, getArgs, operation, h, hw, hi, Bind.bind, Except.bind]

/-- C77, an execution that does not end by an exception gives 11 when files changed while they were saved, else 5 when something failed, else 0. -/
theorem C77_completed (op : Op) (r : Run) (h : ∀ e, ¬ Ends op r e) :
    (CountsDirty op r.st → dar true (.run op) r = 11) ∧
    (¬ CountsDirty op r.st → CountsFailure op r.st → dar true (.run op) r = 5) ∧
    (¬ CountsDirty op r.st → ¬ CountsFailure op r.st → dar true (.run op) r = 0) := by
  have hb : r.before = none := by
    cases hb : r.before with
    | none => rfl
    | some e => exact absurd (.before hb) (h e)
  have hw : r.walk.bind (leaves op) = none := by
    cases hw : r.walk with
    | none => rfl
    | some e =>
      show leaves op e = none
      cases hl : leaves op e with
      | none => rfl
      | some x =>
        rcases leaves_some hl with ⟨h1, h2⟩ | ⟨h1, h2, h3⟩ | ⟨h1, h2, h3⟩
        · exact absurd (.walk hb hw h1) (h e)
        · subst h1; exact absurd (.walkRange hb hw h3) (h _)
        · subst h1; exact absurd (.walkIsolate hb hw h3) (h _)
  have hi : op = .create → r.isolation = none := by
    intro ho
    cases hi : r.isolation with
    | none => rfl
    | some e =>
      cases hw' : r.walk with
      | none => exact absurd (.isolation hb hw' ho hi) (h e)
      | some e' =>
        rw [hw'] at hw
        have := leaves_none hw
        rw [ho] at this
        simp at this
  rw [dar_run]
  have hop : operation op r = .ok (given op r.st) := by
    unfold operation
    rw [hb]
    simp only
    rw [hw]
  cases op <;> simp only [littleMain, getArgs, hop, hi, given, Bind.bind, Except.bind, CountsDirty, CountsFailure, afterSave, exitOk, exitDataError, exitSavedModified, Stats.zero] <;>
    (refine ⟨fun h1 => ?_, fun h1 h2 => ?_, fun h1 h2 => ?_⟩) <;> (try simp at h1) <;> (try simp at h2) <;> (try simp [*, exitOf_data]) <;>
    (try (rw [if_pos (by omega)]; rfl))

/-- C77, the status is 0 exactly when the execution came to its end and the counters tell neither a failure nor a file that changed. -/
theorem C77_success (op : Op) (r : Run) : dar true (.run op) r = 0 ↔ (∀ e, ¬ Ends op r e) ∧ ¬ CountsFailure op r.st ∧ ¬ CountsDirty op r.st := by
  constructor
  · intro h
    have hE : ∀ e, ¬ Ends op r e := by
      intro e he
      have := (C77_exceptions _ _).2 (C77_ended op r e he)
      exact (exitOf_ne e).1 (this.trans h)
    obtain ⟨h1, h2, h3⟩ := C77_completed op r hE
    have hd : ¬ CountsDirty op r.st := fun hd => by have := h1 hd; omega
    exact ⟨hE, fun hf => (by have := h2 hd hf; omega), hd⟩
  · rintro ⟨h1, h2, h3⟩
    exact (C77_completed op r h1).2.2 h3 h2

/-- C77, the status is 11 exactly when an archive was made to its end and files changed meanwhile. -/
theorem C77_dirty (op : Op) (r : Run) : dar true (.run op) r = 11 ↔ (∀ e, ¬ Ends op r e) ∧ CountsDirty op r.st := by
  constructor
  · intro h
    have hE : ∀ e, ¬ Ends op r e := by
      intro e he
      have := (C77_exceptions _ _).2 (C77_ended op r e he)
      exact (exitOf_ne e).2 (this.trans h)
    obtain ⟨h1, h2, h3⟩ := C77_completed op r hE
    refine ⟨hE, ?_⟩
    by_cases hd : CountsDirty op r.st
    · exact hd
    · by_cases hf : CountsFailure op r.st
      · have := h2 hd hf; omega
      · have := h3 hd hf; omega
  · rintro ⟨h1, h2⟩
    exact (C77_completed op r h1).1 h2

/-- C77, the command line: 1 when it is refused, 0 when help was asked for; when the wrong libdar is linked, 2. -/
theorem C77_command_line (r : Run) : dar true .refused r = 1 ∧ dar true .help r = 0 ∧ dar true (.threw .range) r = 1 ∧ (∀ e, e ≠ .range → Documented e (dar true (.threw e) r)) ∧ ∀ a, dar false a r = 2 := by
  refine ⟨rfl, rfl, rfl, fun e he => ?_, fun a => rfl⟩
  rw [← C77_exceptions]
  cases e <;> first | rfl | exact absurd rfl he

/-- the comparison never counts deleted files -/
theorem dfStep_deleted {o : DfOpts} {stars : Nat → Obj} {fs : FS} {s s' : DfSt} {ev : BEv} (h : dfStep o stars fs s ev = .ok s') : s'.st.deleted = s.st.deleted := by
  unfold dfStep at h
  split at h
  · cases ev with
    | eod => cases h; rfl
    | entry e =>
      injection h with h; subst h
      split <;> rfl
  · cases ev with
    | eod =>
      simp only at h
      split at h
      · cases h
      · cases h; rfl
    | entry e =>
      simp only at h
      split at h
      · cases hx : e.obj stars with
        | none => rw [hx] at h; cases h; rfl
        | some x =>
          rw [hx] at h
          simp only [DfSt.inode] at h
          split at h
          · split at h
            · cases h
            · injection h with h; subst h
              split <;> rfl
          · split at h
            · injection h with h; subst h
              split <;> rfl
            · simp only [DfSt.against] at h
              split at h
              · injection h with h; subst h
                split
                · split <;> rfl
                · rfl
              · split at h
                · cases h
                · injection h with h; subst h
                  split
                  · split <;> rfl
                  · rfl
      · injection h with h; subst h
        split <;> rfl
theorem dfLoop_deleted {o : DfOpts} {stars : Nat → Obj} {fs : FS} (l : List BEv) : ∀ {s s' : DfSt}, dfLoop o stars fs s l = .ok s' → s'.st.deleted = s.st.deleted := by
  induction l with
  | nil => intro s s' h; cases h; rfl
  | cons ev l ih =>
    intro s s' h
    rw [dfLoop] at h
    cases hs : dfStep o stars fs s ev with
    | error e => rw [hs] at h; cases h
    | ok s1 =>
      rw [hs] at h
      rw [ih h, dfStep_deleted hs]
theorem difference_deleted {o : DfOpts} {cat : BCat} {fs : FS} {st : Stats} {told : List (DfWord × List Bytes)} (h : difference o cat fs = .ok (st, told)) : st.deleted = 0 := by
  unfold difference at h
  cases hl : dfLoop o cat.stars fs ⟨[], [], Stats.zero, [], 0⟩ (BEntry.eventsList cat.root) with
  | error e => rw [hl] at h; cases h
  | ok s =>
    rw [hl] at h
    injection h with h; injection h with h _; subst h
    exact dfLoop_deleted _ hl

/-- without exception nothing ends the execution -/
theorem not_ends (op : Op) (st : Stats) (e : Exc) : ¬ Ends op (runOf st none) e := by
  intro he
  cases he with
  | before h => cases h
  | walk h hw => cases hw
  | walkRange h hw => cases hw
  | walkIsolate h hw => cases hw
  | isolation h hw ho hi => cases hi

/-- an exception thrown by the walk gives another status than 0, but an Erange for a test or a repair -/
theorem thrown_status (op : Op) (st : Stats) (x : Exc) (h : (op ≠ .test ∧ op ≠ .repairing) ∨ x ≠ .range) : dar true (.run op) (runOf st (some x)) ≠ 0 := by
  intro h0
  obtain ⟨h1, -, -⟩ := (C77_success op _).1 h0
  by_cases hx : x = .range
  · subst hx
    rcases h with h | h
    · by_cases ho : op = .isolate
      · exact h1 _ (.walkIsolate rfl rfl ho)
      · exact h1 _ (.walkRange rfl rfl ⟨h.1, h.2, ho⟩)
    · exact h rfl
  · exact h1 _ (.walk rfl rfl hx)

/-! ### together with the operations -/

/-- C77, "dar -d": when all can be read, the status is 0 if all the selected entries agree with the filesystem, and 5 if not. -/
theorem C77_diff (o : DfOpts) (cat : BCat) (fs : FS) (hr : Readable o cat fs) :
    ((∀ p e x, OccursIn cat.root p e → OpenTo o fs p → Selected o p e → e.obj cat.stars = some x → ∃ y, fs.obj p = some y ∧ Agrees o x y) → darDiff o cat fs = some 0) ∧
    (¬ (∀ p e x, OccursIn cat.root p e → OpenTo o fs p → Selected o p e → e.obj cat.stars = some x → ∃ y, fs.obj p = some y ∧ Agrees o x y) → darDiff o cat fs = some 5) := by
  obtain ⟨st, told, h1, h2⟩ := C56_clean o cat fs hr
  have hd : st.deleted = 0 := difference_deleted h1
  rw [← h2]
  unfold darDiff
  rw [h1]
  obtain ⟨-, g1, g2⟩ := C77_completed .diff (runOf st none) (not_ends _ _)
  have hnd : ¬ CountsDirty .diff (runOf st none).st := by rintro ⟨h | h, -⟩ <;> cases h
  constructor
  · intro h
    show some _ = _
    rw [g2 hnd (by rintro (h' | h'); exact h' h; exact h' hd)]
  · intro h
    show some _ = _
    rw [g1 hnd (Or.inl h)]

/-- C77, "dar -x": the restoration of a full archive in an empty directory, everything being overwritten, gives 0, and the tree restored is the one of the archive. -/
theorem C77_extract_full (o : RsOpts) (cat : BCat) (fs0 : FS) (hp : Plain o) (ho : o.onlyDeleted = false) (he : EmptyFS fs0) (hf : FullArchive cat) :
    ∃ fs, darExtract o cat fs0 = some (0, some fs) ∧ SameTree fs cat := by
  obtain ⟨fs, st, h1, h2, h3⟩ := C36_full o cat fs0 hp he hf
  have heff : o.effective = o := by
    unfold RsOpts.effective
    rw [if_neg (by rw [ho]; exact fun h => by cases h)]
  refine ⟨fs, ?_, h3⟩
  unfold darExtract restoreUser
  rw [heff, h1]
  show some (_, _) = _
  rw [(C77_success .extract (runOf st none)).2 ⟨not_ends _ _, fun h => h h2, by rintro ⟨h | h, -⟩ <;> cases h⟩]

/-- C77, "dar -x" gives 0 exactly when the restoration came to its end without counting an error. -/
theorem C77_extract (o : RsOpts) (cat : BCat) (fs0 : FS) (r : Option FS) : darExtract o cat fs0 = some (0, r) ↔ ∃ fs st, restoreUser o cat fs0 = .ok (fs, st) ∧ st.errored = 0 ∧ r = some fs := by
  unfold darExtract
  cases h : restoreUser o cat fs0 with
  | error e =>
    constructor
    · intro h'
      exfalso
      simp only at h'
      cases hx : excOf e with
      | none => rw [hx] at h'; cases h'
      | some x =>
        rw [hx] at h'
        exact thrown_status .extract _ x (Or.inl ⟨(fun h => by cases h), (fun h => by cases h)⟩) (congrArg Prod.fst (Option.some.inj h'))
    · rintro ⟨fs, st, h', -⟩; cases h'
  | ok p =>
    obtain ⟨fs, st⟩ := p
    simp only [Option.some.injEq, Prod.mk.injEq]
    rw [C77_success]
    constructor
    · rintro ⟨⟨-, h2, -⟩, h3⟩
      exact ⟨fs, st, rfl, by simpa [CountsFailure, runOf] using h2, h3.symm⟩
    · rintro ⟨fs', st', h1, h2, h3⟩
      cases h1
      exact ⟨⟨not_ends _ _, fun h => h h2, by rintro ⟨h | h, -⟩ <;> cases h⟩, h3.symm⟩

/-- C77, "dar -c": when the status is 0, each entry of the archive was counted as saved, unchanged, or excluded by the user: none failed. -/
theorem C77_create (o : BkOpts) (src ref cat : BCat) (h : darCreate o src ref = some (0, some cat)) :
    ∃ st, backup o src ref = .ok (cat, st) ∧ st.errored = 0 ∧ st.tooold = 0 ∧ st.treated + st.skipped + st.inodeOnly + st.ignored = BEntry.tallyL (fun _ => true) cat.root := by
  unfold darCreate at h
  cases hb : backup o src ref with
  | error e =>
    rw [hb] at h
    cases e <;> simp [excOf] at h
  | ok p =>
    obtain ⟨c, st⟩ := p
    rw [hb] at h
    simp only [Option.some.injEq, Prod.mk.injEq] at h
    obtain ⟨h1, rfl⟩ := h
    rw [C77_success] at h1
    obtain ⟨-, h2, h3⟩ := h1
    have e1 : st.errored = 0 := by simpa [CountsFailure, runOf] using h2
    have e2 : st.tooold = 0 := by
      rcases Nat.eq_zero_or_pos st.tooold with h | h
      · exact h
      · exact absurd ⟨Or.inl rfl, by show st.tooold ≠ 0; omega⟩ h3
    have := C46_failures o src ref c st hb
    exact ⟨st, rfl, e1, e2, by simp only at this; omega⟩

/-- C77, "dar -c" of files that can be read: 0 when no file changed while it was saved, else 11. -/
theorem C77_create_status (o : BkOpts) (src ref cat : BCat) (st : Stats) (hno : ∀ p, o.fails p = none) (hc : ∀ p e, OccursIn src.root p e → CleanEntry src.stars e)
    (h : backup o src ref = .ok (cat, st)) :
    ∃ labels, Labels cat labels ∧ (inodes cat labels (fun x => x.ino.dirty) = 0 → darCreate o src ref = some (0, some cat)) ∧
      (inodes cat labels (fun x => x.ino.dirty) ≠ 0 → darCreate o src ref = some (11, some cat)) := by
  obtain ⟨labels, h1, -, -, -, -, -, h2, -, -, h3, -⟩ := C46_backup o src ref cat st hno hc h
  refine ⟨labels, h1, fun hz => ?_, fun hz => ?_⟩ <;> unfold darCreate <;> rw [h] <;> show some (_, _) = _
  · rw [(C77_success .create (runOf st none)).2 ⟨not_ends _ _, fun h => h h3, by rintro ⟨-, h'⟩; exact h' (h2.trans hz)⟩]
  · rw [(C77_dirty .create (runOf st none)).2 ⟨not_ends _ _, Or.inl rfl, by show st.tooold ≠ 0; omega⟩]

/-- C77, "dar -t" in direct access: 0 exactly when all that is selected is intact. -/
theorem C77_test (o : TOpts) (h : o.dryRun = false) (hr : o.repairing = false) (hs : o.seq = false) (l : List TEntry) (hl : ListReadable l) :
    darTests o l = some 0 ↔ ∀ p e, Seen o.subtree [] l p e → TestSelected o p e → e.Intact o.seq o.inos := by
  rw [← C70_dar_test o h hr hs l hl]
  unfold darTests darTest opTest
  rw [if_neg (by simp)]
  cases hf : filtreTest o l with
  | mk st r =>
    cases r with
    | none =>
      simp only [Option.some.injEq]
      rw [C77_success]
      show _ ↔ (if st.errored > 0 then (.error .data : Res Unit) else .ok ()) = .ok ()
      constructor
      · rintro ⟨-, h2, -⟩
        rw [if_neg (fun h' => h2 (by show st.errored ≠ 0; omega))]
      · intro h'
        refine ⟨not_ends _ _, fun h2 => ?_, by rintro ⟨h' | h', -⟩ <;> cases h'⟩
        have h2 : st.errored ≠ 0 := h2
        rw [if_pos (by omega)] at h'
        cases h'
    | some e =>
      simp only
      by_cases he : e = .range
      · subst he
        rw [if_pos rfl]
        show some _ = some 0 ↔ (if st.errored > 0 then (.error .data : Res Unit) else .ok ()) = .ok ()
        rw [Option.some.injEq, C77_success]
        constructor
        · rintro ⟨-, h2, -⟩
          rw [if_neg (fun h' => h2 (by show st.errored ≠ 0; omega))]
        · intro h'
          refine ⟨fun e he => ?_, fun h2 => ?_, by rintro ⟨h' | h', -⟩ <;> cases h'⟩
          · cases he with
            | before h => cases h
            | walk h hw hr => cases hw; exact hr rfl
            | walkRange h hw ho => exact ho.1 rfl
            | walkIsolate h hw ho => cases ho
            | isolation h hw ho hi => cases hi
          · have h2 : st.errored ≠ 0 := h2
            rw [if_pos (by omega)] at h'
            cases h'
      · rw [if_neg he]
        constructor
        · intro h'
          exfalso
          cases hx : excOf e with
          | none => rw [hx] at h'; cases h'
          | some x =>
            rw [hx] at h'
            exact thrown_status .test _ x (Or.inr (fun hr => he (by subst hr; cases e <;> first | rfl | cases hx))) (Option.some.inj h')
        · intro h'; cases h'

/-! ### cases -/

-- the hypotheses of C77_ended, C77_completed are met
example : Ends .extract (runOf Stats.zero (some .range)) .data := .walkRange rfl rfl ⟨by decide, by decide, by decide⟩
example : dar true (.run .extract) (runOf Stats.zero (some .range)) = 5 := rfl
example : Ends .create ⟨none, none, Stats.zero, some .script⟩ .script := .isolation rfl rfl rfl rfl
example : dar true (.run .create) ⟨none, none, Stats.zero, some .script⟩ = 6 := rfl
example : ∀ e, ¬ Ends .create (runOf { Stats.zero with tooold := 2 } none) e := not_ends _ _
example : dar true (.run .create) (runOf { Stats.zero with tooold := 2 } none) = 11 := rfl
example : dar true (.run .create) (runOf { Stats.zero with errored := 2 } none) = 5 := rfl
example : dar true (.run .create) (runOf { Stats.zero with treated := 2 } none) = 0 := rfl

/-- cases that meet the hypotheses of `C77_create` and `C77_create_status`: a backup of several files, and one of a file that changed meanwhile; `C77_extract_full` and `C77_diff` -/
theorem C77_example : (∃ o src ref cat st, (∀ p, o.fails p = none) ∧ (∀ p e, OccursIn src.root p e → CleanEntry src.stars e) ∧ backup o src ref = .ok (cat, st) ∧ st.treated = 3 ∧ darCreate o src ref = some (0, some cat)) ∧
    (∃ o src ref cat, darCreate o src ref = some (11, some cat)) ∧
    (∃ o cat fs0 fs, Plain o ∧ o.onlyDeleted = false ∧ EmptyFS fs0 ∧ FullArchive cat ∧ cat.root ≠ [] ∧ darExtract o cat fs0 = some (0, some fs)) ∧
    (∃ o cat fs, Readable o cat fs ∧ darDiff o cat fs = some 5) := by
  refine ⟨?_, ?_, ?_, ?_⟩
  · obtain ⟨h1, h2, cat, h3, -⟩ := C46_example
    exact ⟨_, _, _, cat, _, h1, h2, h3, rfl, by unfold darCreate; rw [h3]; rfl⟩
  · obtain ⟨cat, h, -⟩ := C46_dirty_counterexample
    exact ⟨_, _, _, cat, by unfold darCreate; rw [h]; rfl⟩
  · obtain ⟨h1, h2, h3, -⟩ := C56_example_restored
    obtain ⟨fs, h4, -⟩ := C77_extract_full _ _ _ h1 rfl h2 h3
    exact ⟨_, _, _, fs, h1, rfl, h2, h3, (fun h => by cases h), h4⟩
  · obtain ⟨h1, -, h2⟩ := C56_example
    exact ⟨_, _, _, h1, by unfold darDiff; rw [h2]; rfl⟩

/-- Finding: the licence and the warranty (options -L and -W) are shown, and the status is 1, that of an error on the command line, command_line.cpp:1275-1280. -/
theorem C77_licence_counterexample (r : Run) : dar true .refused r = exitSyntax := rfl

/-- Finding: when some files could not be saved and another changed while it was saved, the status is 11, not 5: it does not tell that files are missing from the archive, dar.cpp:641-644. -/
theorem C77_masked_counterexample : dar true (.run .create) (runOf { Stats.zero with errored := 3, tooold := 1 } none) = 11 ∧
    dar true (.run .create) (runOf { Stats.zero with errored := 0, tooold := 1 } none) = 11 := ⟨rfl, rfl⟩

/-- Finding: when files are restored from a database, the status is 0 whatever the number of files that could not be restored: the counters of each restoration are thrown away, i_database.cpp:960. -/
theorem C77_database_counterexample (n : Nat) : dar true (.run .extractDb) (runOf { Stats.zero with errored := n } none) = 0 := rfl

/-- Finding: when the walk of a test is stopped by an Erange (a damaged catalogue read sequentially, for example), the status is 0, if nothing was counted before, i_archive.cpp:1623-1626; and so is that of a repair. -/
theorem C77_test_stopped_counterexample : dar true (.run .test) (runOf Stats.zero (some .range)) = 0 ∧ dar true (.run .repairing) (runOf { Stats.zero with errored := 1 } (some .range)) = 0 := ⟨rfl, rfl⟩

end Dar.Ex
