import Verif.Lemmas.SeqCut
import Verif.Props.CatalogueFile
/- C59: an archive can be read from its first to its last byte, without its catalogue, with the same result. -/
namespace Dar

/-! ### auxiliary -/

section
variable [EscByte]
set_option linter.unusedSectionVars false

theorem memCalls_step (m m' : MemRd) (c : SeqCall) (cs : List SeqCall) (as : List (Option Item)) (h : memCalls m (c :: cs) = .ok (as, m')) :
    ∃ m1 as1, (if c.skip then memSkip (memRead m).2 else .ok (memRead m).2 : Res MemRd) = .ok m1 ∧ memCalls m1 cs = .ok (as1, m') ∧ as = (memRead m).1 :: as1 := by
  unfold memCalls at h
  generalize memRead m = x at h ⊢
  obtain ⟨a, m0⟩ := x
  dsimp only at h ⊢
  generalize (if c.skip then memSkip m0 else .ok m0 : Res MemRd) = r at h ⊢
  cases r with
  | error e => exact absurd h (by rintro ⟨⟩)
  | ok m1 =>
    have h : (memCalls m1 cs).bind (fun x => .ok (a :: x.1, x.2)) = .ok (as, m') := h
    cases hr : memCalls m1 cs with
    | error e => rw [hr] at h; exact absurd h (by rintro ⟨⟩)
    | ok x =>
      rw [hr] at h
      injection h with h
      injection h with h1 h2
      obtain ⟨as1, m2⟩ := x
      dsimp at h2
      subst h2
      exact ⟨m1, as1, rfl, hr, h1.symm⟩

theorem memCalls_length (m m' : MemRd) (cs : List SeqCall) (as : List (Option Item)) (h : memCalls m cs = .ok (as, m')) : as.length = cs.length := by
  induction cs generalizing m as with
  | nil => unfold memCalls at h; injection h with h; injection h with h1 h2; rw [← h1]; rfl
  | cons c cs ih =>
    obtain ⟨m1, as1, _, h2, rfl⟩ := memCalls_step m m' c cs as h
    rw [List.length_cons, List.length_cons, ih m1 as1 h2]

theorem seqRun_step (env : SeqEnv) (st st1 st2 st3 : EC) (c : SeqCall) (cs : List SeqCall) (a : Option Item) (as : List (Option Item))
    (h1 : EC.read env (c.move.apply st) = .ok (a, st1)) (h2 : (if c.skip then st1.skip else .ok st1 : Res EC) = .ok st2)
    (h3 : seqRun env st2 cs = .ok (as, st3)) : seqRun env st (c :: cs) = .ok (a :: as, st3) := by
  unfold seqRun
  rw [h1]
  show (if c.skip then st1.skip else .ok st1 : Res EC).bind _ = _
  rw [h2]
  show (seqRun env st2 cs).bind _ = _
  rw [h3]
  rfl

theorem none_last (a : Option Item) (as : List (Option Item)) (h : none ∉ (a :: as).dropLast) (ha : a = none) : as = [] := by
  subst ha
  cases as with
  | nil => rfl
  | cons b as => exact absurd (by simp) h
theorem none_later (a : Option Item) (as : List (Option Item)) (h : none ∉ (a :: as).dropLast) : none ∉ as.dropLast := by
  cases as with
  | nil => simp
  | cons b as => intro hh; exact h (by simp only [List.dropLast_cons_cons]; exact List.mem_cons_of_mem _ hh)

theorem run_tells {stars fstars : Nat → Star} {env : SeqEnv} (hv : env.Fit) {tree : List Entry} {d : Bytes} {rest : List (SeqT × Bytes)}
    (hc : env.Complete stars fstars tree d rest) (hd : DistinctNames tree) : ∀ (calls : List SeqCall) (st : EC) (m m' : MemRd) (as : List (Option Item)),
    Tells stars env tree ((.catalogue, d) :: rest) st m → memCalls m calls = .ok (as, m') → none ∉ as.dropLast →
    ∃ as' st', seqRun env st calls = .ok (as', st') ∧ bareAnswers as' = bareAnswers as ∧ (none ∈ as → EndsWith stars env tree st') := by
  intro calls
  induction calls with
  | nil =>
    intro st m m' as ht hr hn
    unfold memCalls at hr
    injection hr with hr
    injection hr with h1 h2
    subst h1
    exact ⟨[], st, rfl, rfl, fun h => by cases h⟩
  | cons c calls ih =>
    intro st m m' as ht hr hn
    obtain ⟨m1, as1, h1, h2, rfl⟩ := memCalls_step m m' c calls as hr
    obtain ⟨a, st1, g1, g2, g3, g4⟩ := tells_read hv hc hd ht c.move
    cases a with
    | none =>
      have ha : (memRead m).1 = none := by
        cases hh : (memRead m).1 with
        | none => rfl
        | some x => rw [hh] at g2; cases g2
      have has := none_last _ _ hn ha
      subst has
      have hcalls : calls = [] := by
        have := memCalls_length m1 m' calls [] h2
        exact List.length_eq_zero_iff.1 this.symm
      subst hcalls
      have hskip : c.skip = false := by
        cases hs : c.skip with
        | false => rfl
        | true =>
          rw [hs, if_pos rfl] at h1
          have : memRead m = (none, (memRead m).2) := by rw [← ha]
          rcases memRead_none _ _ this with rfl | rfl <;> cases h1
      refine ⟨[none], st1, ?_, ?_, fun _ => g4 rfl⟩
      · exact seqRun_step env st st1 st1 st1 c [] none [] g1 (by rw [hskip]; rfl) rfl
      · unfold bareAnswers; simp [ha]
    | some it =>
      obtain ⟨t1, t2⟩ := g3 (by simp)
      have hn' := none_later _ _ hn
      have hnext : ∃ st2, (if c.skip then st1.skip else .ok st1 : Res EC) = .ok st2 ∧ Tells stars env tree ((.catalogue, d) :: rest) st2 m1 := by
        cases hs : c.skip with
        | false =>
          rw [hs, if_neg (by simp)] at h1
          injection h1 with h1
          rw [← h1, if_neg (by simp)]
          exact ⟨st1, rfl, t1⟩
        | true =>
          rw [hs, if_pos rfl] at h1
          rw [if_pos rfl]
          exact tells_skip t1 t2 h1
      obtain ⟨st2, k1, k2⟩ := hnext
      obtain ⟨as', st3, e1, e2, e3⟩ := ih st2 m1 m' as1 k2 h2 hn'
      refine ⟨some it :: as', st3, seqRun_step env st st1 st2 st3 c calls _ _ g1 k1 e1, ?_, ?_⟩
      · unfold bareAnswers at e2 ⊢
        rw [List.map_cons, List.map_cons, e2, g2]
      · intro h
        rcases List.mem_cons.1 h with h | h
        · rw [← h] at g2; cases g2
        · exact e3 h

theorem sync_start (stars : Nat → Star) (env : SeqEnv) (fin : List (SeqT × Bytes)) (tree : List Entry) (evs : List SeqEv) (ms : List (SeqT × Bytes))
    (hm : evMarks stars [] evs = .ok ms) (d0 : Bytes) : Sync stars env fin (seenTree stars env.dalgo tree) (EC.start (d0, ms ++ fin)) [tree] evs [] :=
  ⟨.inl rfl, ⟨ms, hm, ⟨[], (fun _ h => absurd h (by simp)), rfl⟩, ⟨[], (fun _ h => absurd h (by simp)), rfl⟩⟩, rfl, rfl, rfl, rfl, by
    simp [fill, EC.start, fillUp]⟩

/-! ### the theorems -/

/-- what a backup leaves can always be written -/
theorem C59_can_be_written (stars : Nat → Star) (cut : Bool) (rs : List (List Entry)) (evs : List SeqEv) (h : LeavesIn stars cut rs evs) (wrote : List Nat) :
    ∃ ms, evMarks stars wrote evs = .ok ms := by
  have saved : ∀ (e : Entry) (wrote : List Nat), e.InlineOk stars → ∃ b, e.dumpInline stars wrote = .ok b := fun e wrote hok => by
    obtain ⟨b, hb, _⟩ := entry_inline stars .none ⟨9, 0⟩ (by decide) wrote e hok
    exact ⟨b, hb⟩
  have step : ∀ (ev : SeqEv) (evs : List SeqEv) (wrote w : List Nat) (m : List (SeqT × Bytes)), ev.marks stars wrote = .ok (m, w) →
      (∃ ms, evMarks stars w evs = .ok ms) → ∃ ms, evMarks stars wrote (ev :: evs) = .ok ms := fun ev evs wrote w m h1 ⟨ms, h2⟩ => by
    refine ⟨m ++ ms, ?_⟩
    unfold evMarks
    rw [h1]
    show (evMarks stars w evs).bind _ = _
    rw [h2]
    rfl
  induction h generalizing wrote with
  | done => exact ⟨[], rfl⟩
  | stop _ _ _ => exact ⟨[], rfl⟩
  | failed ok notLink notDir after next ih =>
    obtain ⟨b, hb⟩ := saved _ wrote ok
    exact step _ _ wrote _ _ (by simp only [SeqEv.marks]; rw [hb]; rfl) (ih _)
  | hidden h next ih => exact ih wrote
  | leaf ok notDir after next ih =>
    obtain ⟨b, hb⟩ := saved _ wrote ok
    exact step _ _ wrote _ _ (by simp only [SeqEv.marks]; rw [hb]; rfl) (ih _)
  | dir ok after next ih =>
    obtain ⟨b, hb⟩ := saved _ wrote ok
    exact step _ _ wrote _ _ (by simp only [SeqEv.marks]; rw [hb]; rfl) (ih _)
  | eod after next ih =>
    obtain ⟨b, hb, _⟩ := eodInline_reads .none ⟨9, 0⟩ []
    exact step _ _ wrote _ _ (by simp only [SeqEv.marks]; rw [hb]; rfl) (ih _)

/-- **C59, a complete archive.**  Read from its beginning to its end, whatever the caller reads or skips of what is saved with each object and whatever
directories it skips, the archive gives the same answers as a catalogue in memory that would hold the tree (as the in-line copies tell it) then
the deletion records; the objects whose saving failed are not seen.  Once the end is reached the catalogue in memory holds the whole tree. -/
theorem C59_same_as_direct (stars fstars : Nat → Star) (env : SeqEnv) (hv : env.Fit) (tree : List Entry) (evs : List SeqEv) (d0 d : Bytes)
    (ms rest : List (SeqT × Bytes)) (hc : env.Complete stars fstars tree d rest) (hd : DistinctNames tree) (hl : LeavesIn stars false [tree] evs)
    (hm : evMarks stars [] evs = .ok ms) (calls : List SeqCall) (as : List (Option Item)) (m' : MemRd)
    (hr : memCalls [seenTree stars env.dalgo tree ++ deletionTree tree] calls = .ok (as, m')) (hn : none ∉ as.dropLast) :
    ∃ as' st', seqRun env (EC.start (d0, ms ++ (.catalogue, d) :: rest)) calls = .ok (as', st') ∧ bareAnswers as' = bareAnswers as ∧
      (none ∈ as → st'.built.root = wholeTree stars env.dalgo tree) := by
  have ht : Tells stars env tree ((.catalogue, d) :: rest) (EC.start (d0, ms ++ (.catalogue, d) :: rest)) [seenTree stars env.dalgo tree ++ deletionTree tree] :=
    .marks (rs := [tree]) (cs := [tree]) hl (sync_start stars env _ tree evs ms hm d0) (.inl ⟨rfl, rfl⟩) (.inr ⟨rfl, rfl⟩) (.inl rfl)
  obtain ⟨as', st', h1, h2, h3⟩ := run_tells hv hc hd calls _ _ m' as ht hr hn
  exact ⟨as', st', h1, h2, fun h => (h3 h).2⟩

/-- **C59, an interrupted archive.**  Whatever the object after which the archive ends, and whatever remains of what was saved with each object, reading it
gives the answers of a catalogue in memory that would hold the tree up to that point, with an end for each open directory; then an error, or, in lax
mode, the end, and the catalogue in memory holds that part of the tree. -/
theorem C59_interrupted (stars : Nat → Star) (env : SeqEnv) (hv : env.Fit) (tree : List Entry) (hd : DistinctNames tree) (evs before lost : List SeqEv)
    (hl : LeavesIn stars false [tree] (evs ++ lost)) (hs : List.Forall₂ SameObject evs before) (ha : ∀ ev ∈ before, ev.after.Ok) (d0 : Bytes)
    (ms : List (SeqT × Bytes)) (hm : evMarks stars [] before = .ok ms) :
    ∃ part, CutAt part tree ∧ ∀ (calls : List SeqCall) (as : List (Option Item)) (m' : MemRd), (∀ c ∈ calls, c.skip = false) →
      memCalls [seenTree stars env.dalgo part] calls = .ok (as, m') → none ∉ as.dropLast →
      (none ∉ as ∨ env.lax = true → ∃ st', seqRun env (EC.start (d0, ms)) calls = .ok (bareAnswers as, st') ∧
        (none ∈ as → st'.built.root = seenTree stars env.dalgo part)) ∧
      (none ∈ as → env.lax = false → seqRun env (EC.start (d0, ms)) calls = .error .range) := by
  obtain ⟨rs', h1, h2⟩ := leaves_prefix hl evs before lost rfl hs ha
  have hpart : ∃ part, rs' = [part] ∧ CutAt part tree := by
    cases h1 with
    | last h empty len =>
      rename_i l' up'
      have : up' = [] := List.length_eq_zero_iff.1 len
      subst this
      exact ⟨l', rfl, h⟩
    | deeper h => cases h
  obtain ⟨part, rfl, hcut⟩ := hpart
  refine ⟨part, hcut, ?_⟩
  have titles : ∀ {l' l : List Entry}, CutAt l' l → ∀ e ∈ l', ∃ e' ∈ l, e'.title = e.title := by
    intro l' l h
    induction h with
    | here l => intro e he; cases he
    | later next ih =>
      intro e he
      rcases List.mem_cons.1 he with rfl | he
      · exact ⟨e, List.mem_cons_self, rfl⟩
      · obtain ⟨e', g1, g2⟩ := ih e he
        exact ⟨e', List.mem_cons_of_mem _ g1, g2⟩
    | inside next ih =>
      intro e he
      rw [List.mem_singleton.1 he]
      exact ⟨_, List.mem_cons_self, rfl⟩
  have hdp : DistinctNames part := by
    have : ∀ {l' l : List Entry}, CutAt l' l → DistinctNames l → DistinctNames l' := by
      intro l' l h
      induction h with
      | here l => intro _; unfold DistinctNames; trivial
      | later next ih =>
        intro hh
        unfold DistinctNames at hh ⊢
        refine ⟨fun e' he => ?_, hh.2.1, ih hh.2.2⟩
        obtain ⟨e, g1, g2⟩ := titles next e' he
        rw [← g2]; exact hh.1 e g1
      | inside next ih =>
        intro hh
        unfold DistinctNames at hh
        unfold DistinctNames
        exact ⟨fun e' he => absurd he (by simp), ih hh.2.1, by unfold DistinctNames; trivial⟩
    exact this hcut hd
  have main : ∀ (calls : List SeqCall) (st : EC) (m m' : MemRd) (as : List (Option Item)), TellsCut stars env part st m → (∀ c ∈ calls, c.skip = false) →
      memCalls m calls = .ok (as, m') → none ∉ as.dropLast →
      (none ∉ as ∨ env.lax = true → ∃ st', seqRun env st calls = .ok (bareAnswers as, st') ∧ (none ∈ as → st'.built.root = seenTree stars env.dalgo part)) ∧
      (none ∈ as → env.lax = false → seqRun env st calls = .error .range) := by
    intro calls
    induction calls with
    | nil =>
      intro st m m' as ht _ hr hn
      unfold memCalls at hr
      injection hr with hr
      injection hr with h1 h2
      subst h1
      exact ⟨fun _ => ⟨st, rfl, fun h => by cases h⟩, fun h => by cases h⟩
    | cons c calls ih =>
      intro st m m' as ht hsk hr hn
      have hskip := hsk c (by simp)
      obtain ⟨m1, as1, h1, h2, rfl⟩ := memCalls_step m m' c calls as hr
      rw [hskip, if_neg (by simp)] at h1
      injection h1 with h1
      subst h1
      rcases cut_read hv hdp ht c.move with ⟨it, g1, st1, g2, g3⟩ | ⟨g1, g2⟩
      · have hn' := none_later _ _ hn
        obtain ⟨i1, i2⟩ := ih st1 _ m' as1 g3 (fun c hc => hsk c (List.mem_cons_of_mem _ hc)) h2 hn'
        rw [g1]
        constructor
        · intro h
          obtain ⟨st', e1, e2⟩ := i1 (by
            rcases h with h | h
            · exact .inl fun hh => h (List.mem_cons_of_mem _ hh)
            · exact .inr h)
          refine ⟨st', ?_, fun hh => ?_⟩
          · exact seqRun_step env st st1 st1 st' c calls _ _ g2 (by rw [hskip]; rfl) e1
          · rcases List.mem_cons.1 hh with hh | hh
            · cases hh
            · exact e2 hh
        · intro hh hx
          have hin : none ∈ as1 := by
            rcases List.mem_cons.1 hh with hh | hh
            · cases hh
            · exact hh
          have := i2 hin hx
          unfold seqRun
          rw [g2]
          show (if c.skip then st1.skip else .ok st1 : Res EC).bind _ = _
          rw [hskip, if_neg (by simp)]
          show (seqRun env st1 calls).bind _ = _
          rw [this]
          rfl
      · have has := none_last _ _ hn g1
        subst has
        have hcalls : calls = [] := List.length_eq_zero_iff.1 (memCalls_length _ m' calls [] h2).symm
        subst hcalls
        rw [g1]
        cases hx : env.lax with
        | true =>
          rw [hx, if_pos rfl] at g2
          obtain ⟨st', e1, _, e3⟩ := g2
          exact ⟨fun _ => ⟨st', seqRun_step env st st' st' st' c [] _ _ e1 (by rw [hskip]; rfl) rfl, fun _ => e3⟩, fun _ h => by cases h⟩
        | false =>
          rw [hx, if_neg (by simp)] at g2
          refine ⟨fun h => ?_, fun _ _ => ?_⟩
          · rcases h with h | h
            · exact absurd (List.mem_cons_self) h
            · cases h
          · unfold seqRun
            rw [g2]
            rfl
  intro calls as m' hsk hr hn
  have ht : TellsCut stars env part (EC.start (d0, ms)) [seenTree stars env.dalgo part] := by
    have := sync_start stars env [] part before ms hm d0
    rw [List.append_nil] at this
    exact .marks (rs := [part]) h2 this rfl
  exact main calls _ _ m' as ht hsk hr hn

end

/-! ### what is said of the deletion records -/

theorem records_deletionTree (path : List Bytes) : ∀ l : List Entry, deletionRecords path (deletionTree l) = deletionRecords path l := by
  intro l
  induction hl : sizeOf l using Nat.strongRecOn generalizing l path with
  | _ n ih =>
    cases l with
    | nil => simp [deletionTree, deletionRecords]
    | cons x l =>
      have hrec := ih (sizeOf l) (by subst hl; simp) path l rfl
      cases x with
      | node => simp [deletionTree, deletionRecords, hrec]
      | mirage => simp [deletionTree, deletionRecords, hrec]
      | ignored => simp [deletionTree, deletionRecords, hrec]
      | detruit => simp [deletionTree, deletionRecords, hrec]
      | dir nm st i ch =>
        have hch := ih (sizeOf ch) (by subst hl; simp; omega) (path ++ [nm]) ch rfl
        simp only [deletionTree, deletionRecords]
        by_cases hc : (deletionTree ch).isEmpty = true
        · rw [if_pos hc, hrec, ← hch]
          have : deletionTree ch = [] := by simpa using hc
          rw [this]; simp [deletionRecords]
        · rw [if_neg hc]
          simp only [deletionRecords, hrec, hch]

theorem unsaved_not_full (i : InodeB) : i.unsaved.ea ≠ .full ∧ i.unsaved.fsa ≠ .full := by
  obtain ⟨_, _, _, _, _, _, ea, _, _, _, fsa, _, _, _, _⟩ := i
  cases ea <;> cases fsa <;> simp [InodeB.unsaved]

/-- **C59, deletion records.**  The deletion records given after the tree are those of the catalogue, at the same places and in the same order; nothing else is
given with them than the directories that lead to them, which do not pretend to have EA or FSA to read. -/
theorem C59_deletions (l : List Entry) (path : List Bytes) :
    deletionRecords path (deletionTree l) = deletionRecords path l ∧ OnlyDeletions (deletionTree l) := by
  refine ⟨records_deletionTree path l, ?_⟩
  induction hl : sizeOf l using Nat.strongRecOn generalizing l with
  | _ n ih =>
    cases l with
    | nil => simp [deletionTree, OnlyDeletions]
    | cons x l =>
      have hrec := ih (sizeOf l) (by subst hl; simp) l rfl
      cases x with
      | node => simpa [deletionTree] using hrec
      | mirage => simpa [deletionTree] using hrec
      | ignored => simpa [deletionTree] using hrec
      | detruit => simpa [deletionTree, OnlyDeletions] using hrec
      | dir nm st i ch =>
        have hch := ih (sizeOf ch) (by subst hl; simp; omega) ch rfl
        simp only [deletionTree]
        by_cases hc : (deletionTree ch).isEmpty = true
        · rw [if_pos hc]; exact hrec
        · rw [if_neg hc]
          simp only [OnlyDeletions]
          exact ⟨by simpa using hc, (unsaved_not_full _).1, (unsaved_not_full _).2, hch, hrec⟩

theorem records_deletions (path : List Bytes) (l r : List Entry) (hr : ∀ e ∈ r, ∃ n s d, e = .detruit n s d) :
    deletionRecords path (l ++ r) = deletionRecords path l ++ deletionRecords path r := by
  induction l with
  | nil => simp [deletionRecords]
  | cons x l ih =>
    cases x <;> simp [deletionRecords, ih]

theorem deletions_only (l : List Entry) : ∀ e ∈ deletions l, ∃ n s d, e = .detruit n s d := by
  induction l with
  | nil => intro e he; cases he
  | cons x l ih =>
    cases x with
    | detruit n s d =>
      intro e he
      simp only [deletions] at he
      rcases List.mem_cons.1 he with rfl | he
      · exact ⟨n, s, d, rfl⟩
      · exact ih e he
    | node => simpa [deletions] using ih
    | mirage => simpa [deletions] using ih
    | ignored => simpa [deletions] using ih
    | dir => simpa [deletions] using ih

theorem without_append (l r : List Entry) (hr : ∀ e ∈ r, ∃ n s d, e = .detruit n s d) : withoutDeletions (l ++ r) = withoutDeletions l := by
  have h0 : withoutDeletions r = [] := by
    induction r with
    | nil => simp [withoutDeletions]
    | cons x r ih =>
      obtain ⟨n, s, d, rfl⟩ := hr x (by simp)
      simp only [withoutDeletions]
      exact ih fun e he => hr e (List.mem_cons_of_mem _ he)
  induction l with
  | nil => simpa [withoutDeletions] using h0
  | cons x l ih => cases x <;> simp [withoutDeletions, ih]

theorem inline_leaf' (stars : Nat → Star) (dalgo : Compr) (nm : Bytes) (k : Nat) : (Entry.inline stars dalgo (.mirage nm k)).isFolder = false := by
  simp only [Entry.inline]; split <;> rfl

/-- **C59, the catalogue in memory.**  At the end it holds, beside the deletion records (the same ones, at the same places), what the in-line copies told. -/
theorem C59_catalogue_in_memory (stars : Nat → Star) (dalgo : Compr) (l : List Entry) (path : List Bytes) :
    withoutDeletions (wholeTree stars dalgo l) = seenTree stars dalgo l ∧
    (deletionRecords path (wholeTree stars dalgo l)).Perm (deletionRecords path l) := by
  unfold wholeTree
  rw [without_append _ _ (deletions_only l), records_deletions path _ _ (deletions_only l)]
  induction hl : sizeOf l using Nat.strongRecOn generalizing l path with
  | _ n ih =>
    cases l with
    | nil => exact ⟨by simp [withoutDeletions, seenWhole, seenTree], by simp [deletionRecords, seenWhole, deletions]⟩
    | cons x l =>
      obtain ⟨r1, r2⟩ := ih (sizeOf l) (by subst hl; simp) l path rfl
      have leaf : ∀ e : Entry, e.isFolder = false → e.hidden = false → withoutDeletions (e :: seenWhole stars dalgo l) = e :: withoutDeletions (seenWhole stars dalgo l) ∧
          deletionRecords path (e :: seenWhole stars dalgo l) = deletionRecords path (seenWhole stars dalgo l) := fun e h1 h2 => by
        cases e with
        | dir => cases h1
        | detruit => cases h2
        | ignored => cases h2
        | node => exact ⟨by simp [withoutDeletions], by simp [deletionRecords]⟩
        | mirage => exact ⟨by simp [withoutDeletions], by simp [deletionRecords]⟩
      cases x with
      | node nd =>
        obtain ⟨k1, k2⟩ := leaf (Entry.inline stars dalgo (.node nd)) rfl rfl
        simp only [seenWhole, seenTree, deletions, deletionRecords]
        exact ⟨by rw [k1, r1], by rw [k2]; exact r2⟩
      | mirage nm k =>
        have hfold : (Entry.inline stars dalgo (.mirage nm k)).isFolder = false := inline_leaf' stars dalgo nm k
        have hhid : (Entry.inline stars dalgo (.mirage nm k)).hidden = false := by simp only [Entry.inline]; split <;> rfl
        obtain ⟨k1, k2⟩ := leaf (Entry.inline stars dalgo (.mirage nm k)) hfold hhid
        simp only [seenWhole, seenTree, deletions, deletionRecords]
        exact ⟨by rw [k1, r1], by rw [k2]; exact r2⟩
      | ignored =>
        simp only [seenWhole, seenTree, deletions, deletionRecords]
        exact ⟨r1, r2⟩
      | detruit nm s d =>
        simp only [seenWhole, seenTree, deletions, deletionRecords]
        exact ⟨r1, List.perm_middle.trans (r2.cons _)⟩
      | dir nm st i ch =>
        obtain ⟨c1, c2⟩ := ih (sizeOf ch) (by subst hl; simp; omega) ch (path ++ [nm]) rfl
        simp only [seenWhole, seenTree, deletions, deletionRecords, withoutDeletions]
        rw [without_append _ _ (deletions_only ch), records_deletions (path ++ [nm]) _ _ (deletions_only ch)]
        refine ⟨by rw [c1, r1], ?_⟩
        rw [List.append_assoc]
        exact c2.append r2

end Dar
