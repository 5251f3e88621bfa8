import Verif.Lemmas.ParallelRead
import Verif.Props.Parallel
import Verif.Spec.ParallelRead
/- C42, reading side: blocks processed by several threads reach the caller in order, whatever the schedule. -/
namespace Dar
open Par
variable {β γ : Type}

theorem Par.seqRead_eq (n : Nat) (g : Nat → β → Outcome γ) : ∀ (blocks : List β) (i : Nat), seqRead g i blocks = seqWrite (rcfg n g) i blocks := by
  intro blocks
  induction blocks with
  | nil => intro i; rfl
  | cons b bs ih =>
    intro i
    unfold seqRead seqWrite
    simp only [rcfg, Bool.false_eq_true, if_false]
    cases g i b with
    | ok x => dsimp only; rw [ih]; rfl
    | range => rfl
    | other => rfl

theorem Par.Rd.got_eq {n : Nat} {g : Nat → β → Outcome γ} {tail : Tail} {blocks : List β} {k : Nat} {s : RState β γ}
    (R : Rd n g tail blocks k s) : s.got = ((seqRead g 0 blocks).take s.got.length).map some ∧ s.got.length ≤ (seqRead g 0 blocks).length := by
  rw [seqRead_eq n]
  have key : ∀ i, i < s.got.length → ∃ y, s.got[i]? = some (some y) ∧ (seqWrite (rcfg n g) 0 blocks)[i]? = some y := by
    rcases seqWrite_spec (rcfg n g) blocks 0 s.got.length with h | ⟨i, hi, h⟩
    · intro i hi
      obtain ⟨b, y, h1, h2, h3, h4⟩ := h i hi
      obtain ⟨b', y', g1, g2, g4⟩ := R.gotOk i _ (List.getElem?_eq_getElem hi)
      rw [h1] at g1; cases g1
      rw [Nat.zero_add] at h2
      have h2 : g i b = .ok y := h2
      rw [g2] at h2
      have e : y' = y := by injection h2
      exact ⟨y, by rw [List.getElem?_eq_getElem hi, g4, e], h4⟩
    · exfalso
      obtain ⟨b', y', g1, g2, g4⟩ := R.gotOk i _ (List.getElem?_eq_getElem hi)
      rw [Nat.zero_add] at h
      have := h b' y' g1 g2
      cases this
  have hlen : s.got.length ≤ (seqWrite (rcfg n g) 0 blocks).length := by
    by_cases h0 : s.got.length = 0
    · omega
    · obtain ⟨y, -, h⟩ := key (s.got.length - 1) (by omega)
      have := (List.getElem?_eq_some_iff.1 h).1
      omega
  refine ⟨?_, hlen⟩
  apply List.ext_getElem?
  intro i
  by_cases hi : i < s.got.length
  · obtain ⟨y, h1, h2⟩ := key i hi
    rw [h1, List.getElem?_map, List.getElem?_take, if_pos hi, h2]; rfl
  · rw [List.getElem?_eq_none (by omega), List.getElem?_eq_none (by simp; omega)]

/-- C42: at any time, whatever the schedule, the caller has received the beginning of what one thread alone would give: blocks in
order, none skipped, none repeated, none after a failing one. -/
theorem C42_read_order (n : Nat) (hn : 0 < n) (g : Nat → β → Outcome γ) (tail : Tail) (blocks : List β) (as : List RAction)
    (s : RState β γ) (h : rrun n g tail (RState.init n blocks) as = some s) : s.got <+: (seqRead g 0 blocks).map some := by
  obtain ⟨k, R⟩ := rd_reach hn h
  rw [R.got_eq.1]
  exact (List.take_prefix _ _).map some

/-- C42: whatever the schedule, the pool of segments is never found empty. -/
theorem C42_read_heap (n : Nat) (hn : 0 < n) (g : Nat → β → Outcome γ) (tail : Tail) (blocks : List β) (as : List RAction)
    (s : RState β γ) (h : rrun n g tail (RState.init n blocks) as = some s) (hh : s.p.hold = false) : 0 < s.p.heap := by
  obtain ⟨k, R⟩ := rd_reach hn h
  refine R.core.heap_pos (lost_nil R.core (.inl rfl)) hh

/-- C42: no schedule blocks, provided at most one block of the archive is damaged: as long as the work is not finished, some thread
can go on without the help of the caller. -/
theorem C42_read_no_deadlock (n : Nat) (hn : 0 < n) (g : Nat → β → Outcome γ) (tail : Tail) (blocks : List β)
    (hone : ∀ i j, BlockFails g blocks i → BlockFails g blocks j → i = j) (as : List RAction)
    (s : RState β γ) (h : rrun n g tail (RState.init n blocks) as = some s) (hstop : ∀ a, a ≠ .ask → rstep n g tail s a = none) :
    s.final = true := by
  obtain ⟨k, R⟩ := rd_reach hn h
  have hget : mainGet s.p = none := by
    have := hstop .readerGet (by simp)
    simpa only [rstep, Option.map_eq_none_iff] using this
  have hsc : mainScatter n s.p = none := by
    have := hstop .readerScatter (by simp)
    simpa only [rstep, Option.map_eq_none_iff] using this
  have hwg : ∀ j, workerGet j s.p = none := by
    intro j
    have := hstop (.workerGet j) (by simp)
    simpa only [rstep, Option.map_eq_none_iff] using this
  have hwp : ∀ j, workerProc (rcfg n g) j s.p = none := by
    intro j
    have := hstop (.workerProc j) (by simp)
    simp only [rstep, Option.map_eq_none_iff] at this
    exact this
  have hwu : ∀ j, workerPush n j s.p = none := by
    intro j
    have := hstop (.workerPush j) (by simp)
    simpa only [rstep, Option.map_eq_none_iff] using this
  have hl := lost_nil R.core (.inl rfl)
  -- the main thread waits in gather: impossible while something is expected
  have hwait : s.phase ≠ .join → s.p.popped < k + n → False := by
    intro hph hlt
    have hb : s.p.wbuf = [] := by
      cases hb : s.p.wbuf with
      | nil => rfl
      | cons o rest =>
        exfalso
        have := hstop .consume (by simp)
        simp only [rstep, consume, hb] at this
        cases hp : s.phase with
        | join => exact hph hp
        | reading => rw [hp] at this; cases this
        | purge f e m => rw [hp] at this; cases this
    have hg : gather s.p = none := by
      have := hstop .gather (by simp)
      simp only [rstep, rgather] at this
      cases hp : s.phase with
      | join => exact absurd hp hph
      | reading => rw [hp] at this; simpa using this
      | purge f e m => rw [hp] at this; simpa using this
    have hf : s.p.table.find? (fun x => x.1 = s.p.next) = none := by
      cases hf : s.p.table.find? (fun x => x.1 = s.p.next) with
      | none => rfl
      | some x =>
        exfalso
        simp only [gather, hb, R.wend, hf] at hg
        cases hg
    have hpn : s.p.popped = s.p.next := by unfold State.popped; rw [hb]; simp
    exact pipe_progress (c := rcfg n g) hn R.core R.tot hl hf (by rw [← hpn]; exact hlt) hget hsc hwg hwp hwu
  cases hp : s.phase with
  | reading =>
    exfalso
    have := R.rd hp
    exact hwait (by rw [hp]; simp) (by omega)
  | purge f e m =>
    exfalso
    obtain ⟨p1, p2, -⟩ := R.pur f e m hp
    refine hwait (by rw [hp]; simp) ?_
    cases m with
    | false => have := (p1 rfl).2; omega
    | true => have := p2 rfl; omega
  | join =>
    rcases R.jn hp with hj | ⟨i, j, hij, hi, hj⟩
    · have hle : s.p.popped ≤ s.p.next := by unfold State.popped; omega
      obtain ⟨h1, h2, -⟩ := pipe_ended (c := rcfg n g) R.core R.tot (by show k + n ≤ _; omega)
      unfold RState.final
      rw [hp, h1]
      simp only [decide_true, List.isEmpty_nil, Bool.and_self, Bool.true_and, List.all_eq_true]
      intro w hw
      rw [h2 w hw]
    · have := hone i j hi hj
      omega

/-- C42: no schedule goes on for ever. -/
theorem C42_read_bounded (n : Nat) (hn : 0 < n) (g : Nat → β → Outcome γ) (tail : Tail) (blocks : List β) (as : List RAction)
    (s : RState β γ) (h : rrun n g tail (RState.init n blocks) as = some s) : as.length ≤ 7 * (blocks.length + n) + 4 := by
  have hstep : ∀ (k : Nat) (s s' : RState β γ) (a : RAction), Rd n g tail blocks k s → rstep n g tail s a = some s' →
      s'.p.measure + 1 ≤ s.p.measure := by
    intro k s s' a R h
    have hT : ∀ b rest, s.p.todo = .data b :: rest → (rcfg n g).n + 1 ≤ s.p.todo.length := by
      intro b rest ht
      have hl := R.tot.histLen
      have e : (s.p.hist ++ s.p.todo)[s.p.hist.length]? = some (.data b) := by
        rw [ht, List.getElem?_append_right (Nat.le_refl _)]; simp
      rw [R.tot.1] at e
      have hl2 : ((blocks.take k).map (Item.data (β := β))).length = k := by
        rw [List.length_map, List.length_take]; have := R.tot.2; omega
      show n + 1 ≤ _
      by_cases hi : s.p.hist.length < k
      · omega
      · exfalso
        rw [List.getElem?_append_right (by omega), List.getElem?_replicate] at e
        split at e <;> simp at e
    have lift : ∀ (b : Action) (o : Option (State β γ)), step (rcfg n g) s.p b = o → o.map (fun p => { s with p := p }) = some s' →
        s'.p.measure + 1 ≤ s.p.measure := by
      intro b o h1 h2
      cases o with
      | none => cases h2
      | some p' =>
        simp only [Option.map_some, Option.some.injEq] at h2
        subst h2
        exact measure_step' hT h1
    cases a with
    | readerGet => exact lift .mainGet _ rfl h
    | readerScatter => exact lift .mainScatter _ rfl h
    | readerStop => exact lift .mainAbort _ rfl h
    | workerGet j => exact lift (.workerGet j) _ rfl h
    | workerProc j => exact lift (.workerProc j) _ rfl h
    | workerPush j => exact lift (.workerPush j) _ rfl h
    | gather =>
      simp only [rstep, rgather] at h
      split at h
      · cases h
      · exact lift .gather _ rfl h
    | consume =>
      have hbool : ∀ b : Bool, (!b).toNat ≤ 1 := by intro b; cases b <;> simp
      simp only [rstep, consume] at h
      split at h
      · rename_i o rest hph hb
        simp only [Option.some.injEq] at h
        subst h
        have hwe : s.p.werr = false := by
          cases h : s.p.werr with
          | false => rfl
          | true => exact absurd hph (R.wr.1 h)
        cases o <;> (simp only [consumeRead, State.measure, State.pop, hb, hwe, List.length_cons, Bool.not_true, Bool.not_false,
          Bool.toNat_true, Bool.toNat_false]; omega)
      · rename_i f e m o rest hph hb
        simp only [Option.some.injEq] at h
        subst h
        simp only [consumePurge, State.measure, State.pop, hb, List.length_cons]
        omega
      · cases h
    | ask =>
      simp only [rstep, ask] at h
      split at h
      · rename_i hph
        simp only [Option.some.injEq] at h
        subst h
        have hwe : s.p.werr = false := by
          cases h : s.p.werr with
          | false => rfl
          | true => exact absurd hph (R.wr.1 h)
        simp only [State.measure, hwe, Bool.not_true, Bool.not_false, Bool.toNat_true, Bool.toNat_false]
        omega
      · cases h
  have hrun : ∀ (as : List RAction) (s s' : RState β γ), (∃ k, Rd n g tail blocks k s) → rrun n g tail s as = some s' →
      s'.p.measure + as.length ≤ s.p.measure := by
    intro as
    induction as with
    | nil => intro s s' H h; simp only [rrun, Option.some.injEq] at h; subst h; simp
    | cons a as ih =>
      intro s s' H h
      unfold rrun at h
      cases hs : rstep n g tail s a with
      | none => rw [hs] at h; cases h
      | some s1 =>
        rw [hs] at h
        obtain ⟨k, R⟩ := H
        have h1 := hstep k s s1 a R hs
        have h2 := ih s1 s' (rd_step hn R hs) h
        simp only [List.length_cons]
        omega
  have := hrun as _ _ ⟨_, rd_init n hn g tail blocks⟩ h
  have e : (RState.init n blocks : RState β γ).p.measure = 7 * (blocks.length + n) + 4 := by
    have z : ((List.replicate n (⟨.idle, .fine, false⟩ : Wk β γ)).map wMeasure).sum = 0 := sum_replicate_zero' wMeasure _ rfl _
    unfold State.measure RState.init State.init
    simp only [List.length_append, List.length_map, List.length_replicate, z]
    simp
  omega

/-- C42: when all threads have ended because of what was read (not on a request of the caller), the caller has received exactly what
one thread alone would have given; the end of file is reported exactly when no block fails and the end marker is there, and then
without exception; in all other cases an exception is raised, SRC_BUG for a truncated or too large block. -/
theorem C42_read_result (n : Nat) (hn : 0 < n) (g : Nat → β → Outcome γ) (tail : Tail) (blocks : List β) (as : List RAction)
    (s : RState β γ) (h : rrun n g tail (RState.init n blocks) as = some s) (hfin : s.final = true) (hask : s.asked = false) :
    s.got = (seqRead g 0 blocks).map some ∧
    (s.reof = true ↔ (∀ i, ¬ BlockFails g blocks i) ∧ tail = .eof) ∧
    (s.reof = true → s.result tail = none) ∧
    (s.reof = false → s.result tail ≠ none) ∧
    ((∀ i, ¬ BlockFails g blocks i) → tail = .silent → s.result tail = some .bug) := by
  obtain ⟨k, R⟩ := rd_reach hn h
  have hph : s.phase = .join := by
    unfold RState.final at hfin
    simp only [Bool.and_eq_true, decide_eq_true_eq] at hfin
    exact hfin.1.1
  obtain ⟨e1, e2⟩ := R.got_eq
  have hle : (seqRead g 0 blocks).length ≤ blocks.length := by rw [seqRead_eq n]; exact seqWrite_le _ _ _
  have hfull : s.got.length = (seqRead g 0 blocks).length → s.got = (seqRead g 0 blocks).map some := by
    intro e; rw [e1, e, List.take_length]
  have hnone : s.got.length = blocks.length → ∀ i, ¬ BlockFails g blocks i := by
    intro e i hi
    obtain ⟨b, hb, -⟩ := id hi
    have := (List.getElem?_eq_some_iff.1 hb).1
    exact failB_got R (by omega) hi
  have hexc : (∀ i, ¬ BlockFails g blocks i) → (s.p.ws.any fun w => w.exc) = false := by
    intro hno
    rw [List.any_eq_false]
    intro w hw hx
    obtain ⟨j, b, hb, hfl⟩ := (R.core.wk w hw).2.1 hx
    exact hno j ⟨b, (R.tot.data hb).2, hfl⟩
  rcases R.why (by rw [hph]; simp) with h | ⟨h1, h2, h3, h4⟩ | ⟨h1, h2, h3, h4⟩ | ⟨h1, h2, h3⟩
  · rw [hask] at h; cases h
  · refine ⟨hfull (by omega), ⟨fun _ => ⟨hnone h4, h3⟩, fun _ => h1⟩, fun _ => ?_, (fun h => by rw [h1] at h; cases h),
      (fun _ h => by rw [h3] at h; cases h)⟩
    unfold RState.result
    rw [h3, hexc (hnone h4), h2]
    simp
  · refine ⟨hfull (by omega), ⟨(fun h => by rw [h2] at h; cases h), fun h => absurd h.2 h3⟩, (fun h => by rw [h2] at h; cases h), fun _ => ?_, fun hno ht => ?_⟩
    · unfold RState.result
      rw [h1]
      split
      · simp
      · split <;> simp
    · unfold RState.result
      rw [ht, hexc hno, h1]
      simp
  · have hlen : s.got.length = (seqRead g 0 blocks).length := by
      by_cases e : s.got.length = (seqRead g 0 blocks).length
      · exact e
      · exfalso
        obtain ⟨b, b1, b2⟩ := h3
        rw [seqRead_eq n] at e e2
        obtain ⟨b', y, g1, g2, -⟩ := seqWrite_lt (rcfg n g) blocks 0 s.got.length (by omega)
        rw [b1] at g1; cases g1
        rw [Nat.zero_add] at g2
        exact b2 y g2
    refine ⟨hfull hlen, ⟨(fun h => by rw [h2] at h; cases h), fun h => absurd h3 (h.1 _)⟩, (fun h => by rw [h2] at h; cases h), fun _ => ?_, fun hno _ => absurd h3 (hno _)⟩
    unfold RState.result
    rw [h1]
    split
    · simp
    · split <;> simp

/-! #### Concrete runs -/

/-- two workers, three blocks, the second one overtaken by the third -/
def Par.rexSched : List RAction :=
  [.readerGet, .readerScatter, .readerGet, .readerScatter, .workerGet 0, .workerProc 0, .workerGet 1, .workerPush 0, .readerGet,
   .readerScatter, .workerGet 0, .workerProc 0, .workerPush 0, .gather, .consume, .workerProc 1, .workerPush 1, .gather, .consume, .consume,
   .readerGet, .readerScatter, .readerGet, .readerScatter, .workerGet 1, .workerGet 0, .workerProc 0, .workerPush 0, .workerProc 1,
   .workerPush 1, .gather, .consume, .consume, .consume]

theorem C42_read_example :
    ((rrun 2 (fun _ b => Outcome.ok (10 * b)) .eof (RState.init 2 [1, 2, 3]) rexSched).map
      fun s => (s.got, s.reof, s.final, s.asked, s.result .eof)) = some ([some 10, some 20, some 30], true, true, false, none) ∧
    ∀ i j, BlockFails (fun _ b => Outcome.ok (10 * b)) [1, 2, 3] i → BlockFails (fun _ b => Outcome.ok (10 * b)) [1, 2, 3] j → i = j :=
  ⟨by decide +kernel, fun i j hi _ => by obtain ⟨b, -, h⟩ := hi; exact absurd rfl (h _)⟩

/-- decides that no thread can go on without the caller -/
def Par.rstuckB (n : Nat) (g : Nat → β → Outcome γ) (tail : Tail) (s : RState β γ) : Bool :=
  (rstep n g tail s .readerGet).isNone && (rstep n g tail s .readerScatter).isNone && (rstep n g tail s .readerStop).isNone &&
  (rstep n g tail s .gather).isNone && (rstep n g tail s .consume).isNone && (rstep n g tail s .ask).isNone &&
  (List.range s.p.ws.length).all fun k =>
    (rstep n g tail s (.workerGet k)).isNone && (rstep n g tail s (.workerProc k)).isNone && (rstep n g tail s (.workerPush k)).isNone

theorem Par.rstuck_of_rstuckB {n : Nat} {g : Nat → β → Outcome γ} {tail : Tail} {s : RState β γ} (h : rstuckB n g tail s = true) :
    ∀ a, rstep n g tail s a = none := by
  unfold rstuckB at h
  simp only [Bool.and_eq_true, List.all_eq_true, List.mem_range, Option.isNone_iff_eq_none] at h
  obtain ⟨⟨⟨⟨⟨⟨h1, h2⟩, h3⟩, h4⟩, h5⟩, h7⟩, h6⟩ := h
  intro a
  cases a with
  | readerGet => exact h1
  | readerScatter => exact h2
  | readerStop => exact h3
  | gather => exact h4
  | consume => exact h5
  | ask => exact h7
  | workerGet k =>
    rcases Nat.lt_or_ge k s.p.ws.length with hk | hk
    · exact (h6 k hk).1.1
    · simp only [rstep, (no_worker (c := rcfg n g) hk).1]; rfl
  | workerProc k =>
    rcases Nat.lt_or_ge k s.p.ws.length with hk | hk
    · exact (h6 k hk).1.2
    · have := (no_worker (c := rcfg n g) hk).2.1
      simp only [rstep, Option.map_eq_none_iff]; exact this
  | workerPush k =>
    rcases Nat.lt_or_ge k s.p.ws.length with hk | hk
    · exact (h6 k hk).2
    · have : workerPush n k s.p = none := (no_worker (c := rcfg n g) hk).2.2
      simp only [rstep, this]; rfl

/-- two damaged blocks, each met by one of the two workers; the caller asks to stop: the main thread gives up waiting after the second
`worker_error` and calls join() while the table, the workers and the queue are full -/
def Par.rdeadSched : List RAction :=
  [.readerGet, .readerScatter, .readerGet, .readerScatter, .workerGet 0, .workerGet 1, .workerProc 0, .workerProc 1, .workerPush 0, .workerPush 1,
   .gather,
   .readerGet, .readerScatter, .workerGet 0, .workerProc 0, .workerPush 0,
   .readerGet, .readerScatter, .workerGet 0, .workerProc 0, .workerPush 0,
   .readerGet, .readerScatter, .workerGet 0, .workerProc 0, .workerPush 0,
   .readerGet, .readerScatter, .workerGet 0, .workerProc 0, .readerGet, .readerScatter, .workerGet 1, .workerProc 1,
   .readerGet, .readerScatter, .readerGet, .readerScatter, .readerGet, .readerScatter, .readerGet,
   .ask, .consume, .consume]

/-- C42, counterexample: with two damaged blocks the threads may wait for each other for ever when the reading is stopped. -/
theorem C42_two_damaged_blocks_deadlock_counterexample :
    ∃ (g : Nat → Nat → Outcome Nat) (blocks : List Nat) (as : List RAction) (s : RState Nat Nat),
      rrun 2 g .eof (RState.init 2 blocks) as = some s ∧ (∀ a, rstep 2 g .eof s a = none) ∧ s.final = false := by
  have h : ((rrun 2 (fun i b => if i < 2 then .range else .ok b) .eof (RState.init 2 (List.replicate 9 7)) rdeadSched).map
      fun s => rstuckB 2 (fun i b => if i < 2 then Outcome.range else .ok b) .eof s && !s.final) = some true := by decide +kernel
  obtain ⟨s, h1, h2⟩ := Option.map_eq_some_iff.1 h
  simp only [Bool.and_eq_true, Bool.not_eq_true'] at h2
  exact ⟨_, _, _, s, h1, rstuck_of_rstuckB h2.1, h2.2⟩

end Dar
