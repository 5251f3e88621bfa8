import Verif.Lemmas.Parallel4
/- C42, writing side: blocks processed by several threads reach the layer below in order, whatever the schedule. -/
namespace Dar
open Par
variable {β γ : Type}

/-- No block is lost by a worker: always for the compressor; for the ciphering when encrypt_data raises nothing but Erange. -/
def Par.NothingLost (c : Cfg β γ) : Prop := c.kind = .zip ∨ ∀ i b, c.f i b ≠ .other

/-- The write of the end marker does not fail as the first error of the run. -/
def Par.EofFine (c : Cfg β γ) (blocks : List β) : Prop := c.kind = .crypto ∨ c.eofFails = false ∨ ¬ AllGood c blocks

namespace Par

theorem lost_nil {c : Cfg β γ} {s : State β γ} (H : Core c s) (h : NothingLost c) : s.lost = [] := by
  cases hl : s.lost with
  | nil => rfl
  | cons i l =>
    obtain ⟨h1, b, -, h2⟩ := H.lst i (by rw [hl]; simp)
    rcases h with h | h
    · rw [h] at h1; cases h1
    · exact absurd h2 (h i b)

theorem seqWrite_lt (c : Cfg β γ) : ∀ (blocks : List β) (j i : Nat), i < (seqWrite c j blocks).length →
    ∃ b y, blocks[i]? = some b ∧ c.f (j + i) b = .ok y ∧ c.sinkFails (j + i) = false ∧ (seqWrite c j blocks)[i]? = some y := by
  intro blocks j i hi
  rcases seqWrite_spec c blocks j (i + 1) with h | ⟨m, hm, h⟩
  · exact h i (by omega)
  · exfalso
    induction blocks generalizing j i m with
    | nil => simp [seqWrite] at hi
    | cons b bs ih =>
      cases hf : c.f j b with
      | range => simp [seqWrite, hf] at hi
      | other => simp [seqWrite, hf] at hi
      | ok x =>
        by_cases hs : c.sinkFails j = true
        · simp [seqWrite, hf, hs] at hi
        · have e : seqWrite c j (b :: bs) = x :: seqWrite c (j + 1) bs := by simp only [seqWrite, hf, hs]; rfl
          rw [e] at hi
          simp only [List.length_cons] at hi
          cases m with
          | zero => exact hs (by simpa using h b x rfl (by simpa using hf))
          | succ m =>
            cases i with
            | zero => omega
            | succ i =>
              refine ih (j + 1) i (by omega) m (by omega) ?_
              rw [show j + 1 + m = j + (m + 1) by omega]
              intro b' y h1; exact h b' y (by simpa using h1)

theorem allGood_seq {c : Cfg β γ} {blocks : List β} (h : (seqWrite c 0 blocks).length = blocks.length) : AllGood c blocks := by
  intro i b hb
  have : i < blocks.length := (List.getElem?_eq_some_iff.1 hb).1
  obtain ⟨b', y, h1, h2, h3, -⟩ := seqWrite_lt c blocks 0 i (by omega)
  rw [hb] at h1; cases h1
  rw [Nat.zero_add] at h2 h3
  exact ⟨⟨y, h2⟩, h3⟩

theorem seq_allGood {c : Cfg β γ} {blocks : List β} (h : AllGood c blocks) : (seqWrite c 0 blocks).length = blocks.length := by
  have hle := seqWrite_le c blocks 0
  by_cases he : (seqWrite c 0 blocks).length = blocks.length
  · exact he
  · exfalso
    have hlt : (seqWrite c 0 blocks).length < blocks.length := by omega
    have := seqWrite_end c blocks 0 _ _ rfl (List.getElem?_eq_getElem hlt)
    rw [Nat.zero_add] at this
    obtain ⟨⟨x, hx⟩, hs⟩ := h _ _ (List.getElem?_eq_getElem hlt)
    rcases this with h' | h'
    · exact h' x hx
    · rw [hs] at h'; cases h'

end Par

/-- C42: at any time of any schedule, what was written below is a beginning of what one thread alone would write: no
block is written twice, out of place, unprocessed, or after a block that failed. -/
theorem C42_write_order (c : Cfg β γ) (hn : 0 < c.n) (blocks : List β) (as : List Action) (s : State β γ)
    (h : run c (State.init c.n blocks) as = some s) : s.out <+: (seqWrite c 0 blocks).map some := by
  obtain ⟨-, k, W⟩ := inv_reach c hn blocks as s h
  rw [W.out_eq.1]
  exact (List.take_prefix _ _).map some

/-- C42: the pool of segments is large enough: whatever the schedule, heap::get never finds it empty (it would raise an
exception), and at the end all segments are back. -/
theorem C42_heap (c : Cfg β γ) (hn : 0 < c.n) (hf : NothingLost c) (blocks : List β) (as : List Action) (s : State β γ)
    (h : run c (State.init c.n blocks) as = some s) :
    (s.hold = false → 0 < s.heap) ∧ (s.final = true → s.heap = heapSize c.n) := by
  obtain ⟨H, k, W⟩ := inv_reach c hn blocks as s h
  have hl := lost_nil H hf
  refine ⟨H.heap_pos hl, fun hfin => ?_⟩
  unfold State.final at hfin
  simp only [Bool.and_eq_true, List.isEmpty_iff] at hfin
  obtain ⟨⟨he, ht⟩, -⟩ := hfin
  have h0 := W.fin he
  have h1 := W.endEq
  have h2 := W.histLen
  have h3 := H.nle
  have h4 := H.tle
  have h5 := H.buf
  have hp : s.popped = s.next - s.wbuf.length := rfl
  have hb : s.wbuf.length = 0 := by omega
  have e1 : s.next = s.taken := by omega
  have hq : s.queue.length = 0 := by rw [← H.que, List.length_drop]; omega
  have hfree := H.workers_free e1
  have hbusy : (s.ws.map wBusy).sum = 0 := by
    have hx : ∀ l : List (Wk β γ), (∀ w ∈ l, w.st = .idle ∨ w.st = .ended) → (l.map wBusy).sum = 0 := by
      intro l
      induction l with
      | nil => intro _; rfl
      | cons w l ih =>
        intro h
        rw [List.map_cons, List.sum_cons, ih (fun v hv => h v (by simp [hv]))]
        rcases h w (by simp) with e | e <;> simp [wBusy, e]
    exact hx s.ws hfree
  have htab : s.table.length = 0 := by
    cases htb : s.table with
    | nil => rfl
    | cons x t =>
      exfalso
      have a := H.cnt x.1
      rw [e1, ind_out (by omega)] at a
      have : 0 < s.table.countP (fun y => y.1 = x.1) := List.countP_pos_iff.2 ⟨x, by rw [htb]; simp, by simp⟩
      omega
  have hhold : s.hold = false := by
    cases hh : s.hold with
    | false => rfl
    | true => exact absurd ht (W.holdTodo hh)
  have := H.heapEq
  rw [hhold, hl] at this
  simp only [Bool.toNat_false, List.length_nil] at this
  omega

/-- C42: no schedule blocks: as long as the work is not finished, some thread can go on. -/
theorem C42_write_no_deadlock (c : Cfg β γ) (hn : 0 < c.n) (blocks : List β) (hf : NothingLost c) (he : EofFine c blocks)
    (as : List Action) (s : State β γ) (h : run c (State.init c.n blocks) as = some s) (hstop : ∀ a, step c s a = none) :
    s.final = true := by
  obtain ⟨H, k, W⟩ := inv_reach c hn blocks as s h
  refine progress hn H W (lost_nil H hf) ?_ hstop
  rintro ⟨h1, h2, h3⟩
  rcases he with he | he | he
  · rw [h1] at he; cases he
  · rw [h2] at he; cases he
  · apply he
    intro i b hb
    have hi : i < s.out.length := by rw [h3]; exact (List.getElem?_eq_some_iff.1 hb).1
    obtain ⟨b', y, g1, g2, g3, -⟩ := W.outOk i _ (List.getElem?_eq_getElem hi)
    rw [hb] at g1; cases g1
    exact ⟨⟨y, g2⟩, g3⟩

/-- C42: no schedule goes on for ever: the number of steps is bounded by the number of blocks and workers. -/
theorem C42_write_bounded (c : Cfg β γ) (hn : 0 < c.n) (blocks : List β) (as : List Action) (s : State β γ)
    (h : run c (State.init c.n blocks) as = some s) : as.length ≤ 7 * (blocks.length + c.n) + 4 := by
  have := measure_run c blocks as _ _ ⟨core_init c hn blocks, _, wri_init c hn blocks⟩ h
  have e : (State.init c.n blocks : State β γ).measure = 7 * (blocks.length + c.n) + 4 := by
    have z : ((List.replicate c.n (⟨.idle, .fine, false⟩ : Wk β γ)).map wMeasure).sum = 0 := sum_replicate_zero' wMeasure _ rfl _
    unfold State.measure State.init
    simp only [List.length_append, List.length_map, List.length_replicate, z]
    simp
  omega

/-- C42: when all threads have ended, exactly the sequential result is below; the end marker of the compressor follows; no
exception is raised if nothing failed; with the compressor, any failure raises an exception. -/
theorem C42_write_result (c : Cfg β γ) (hn : 0 < c.n) (blocks : List β) (as : List Action) (s : State β γ)
    (h : run c (State.init c.n blocks) as = some s) (hfin : s.final = true) :
    s.out = (seqWrite c 0 blocks).map some ∧
    (c.kind = .zip → c.eofFails = false → s.eof = true) ∧
    (AllGood c blocks → c.kind = .crypto ∨ c.eofFails = false → s.raised = false) ∧
    (c.kind = .zip → ¬ AllGood c blocks → s.raised = true) := by
  obtain ⟨H, k, W⟩ := inv_reach c hn blocks as s h
  unfold State.final at hfin
  simp only [Bool.and_eq_true, List.isEmpty_iff] at hfin
  obtain ⟨⟨he, ht⟩, -⟩ := hfin
  obtain ⟨ho1, ho2⟩ := W.out_eq
  have h0 := W.fin he
  have h1 := W.endEq
  have h2 := W.histLen
  have hsl := seqWrite_le c blocks 0
  have hlen : s.out.length = (seqWrite c 0 blocks).length := by
    cases hw : s.werr with
    | false =>
      have hl := W.fineLen hw
      have hk : k = blocks.length := by
        have := W.kle
        by_cases hlt : k < blocks.length
        · have := W.ab (W.full hlt); rw [hw] at this; cases this
        · omega
      omega
    | true =>
      rcases W.bad hw with ⟨b, b1, b2, b3, b4⟩ | ⟨-, -, -, -, b5⟩
      · by_cases e : s.out.length = (seqWrite c 0 blocks).length
        · exact e
        · exfalso
          obtain ⟨b', y, g1, g2, g3, -⟩ := seqWrite_lt c blocks 0 s.out.length (by omega)
          rw [b1] at g1; cases g1
          rw [Nat.zero_add] at g2 g3
          rcases b4 with b4 | b4
          · exact b4 y g2
          · rw [g3] at b4; cases b4
      · rw [he] at b5; cases b5
  refine ⟨?_, W.eofW he, fun hg hk => ?_, fun hz hng => ?_⟩
  · rw [ho1, hlen, List.take_length]
  · have hnexc : ¬ ExcSome s.ws := by
      rintro ⟨w, hw, hx⟩
      obtain ⟨j, b, hb, hfl⟩ := (H.wk w hw).2.1 hx
      obtain ⟨⟨x, hx⟩, -⟩ := hg j b (W.data hb).2
      exact hfl x hx
    have hnw : s.wexc = false := by
      cases hx : s.wexc with
      | false => rfl
      | true =>
        rcases W.wx hx with ⟨i, hi, hs⟩ | ⟨h1, h2⟩
        · rw [(hg i _ (List.getElem?_eq_getElem hi)).2] at hs; cases hs
        · rcases hk with hk | hk
          · rw [h1] at hk; cases hk
          · rw [h2] at hk; cases hk
    have hna : s.aborted = false := by
      cases hx : s.aborted with
      | false => rfl
      | true =>
        exfalso
        rcases W.rz (W.ab hx) with h | h | ⟨-, i, b, hb, hr⟩
        · rw [hnw] at h; cases h
        · exact hnexc h
        · obtain ⟨⟨x, hx⟩, -⟩ := hg i b hb
          rw [hr] at hx; cases hx
    unfold State.raised
    rw [hna, hnw]
    simp only [Bool.false_or, List.any_eq_false]
    intro w hw hx
    exact hnexc ⟨w, hw, hx⟩
  · have hw : s.werr = true := by
      cases hw : s.werr with
      | true => rfl
      | false =>
        exfalso
        have hl := W.fineLen hw
        have hk : k = blocks.length := by
          have := W.kle
          by_cases hlt : k < blocks.length
          · have := W.ab (W.full hlt); rw [hw] at this; cases this
          · omega
        exact hng (allGood_seq (by omega))
    unfold State.raised
    rcases W.rz hw with h | ⟨w, h1, h2⟩ | ⟨h, -⟩
    · rw [h]; simp
    · have : s.ws.any (fun w => w.exc) = true := List.any_eq_true.2 ⟨w, h1, h2⟩
      rw [this]; simp
    · rw [hz] at h; cases h

/-- C42: nothing fails: whatever the schedule, when no thread can go on all have ended, the layer below has received the
processed blocks in order, followed by the end marker (compressor), and no exception is raised. -/
theorem C42_write_parallel (c : Cfg β γ) (hn : 0 < c.n) (blocks : List β) (hg : AllGood c blocks)
    (hk : c.kind = .zip ∧ c.eofFails = false ∨ c.kind = .crypto ∧ ∀ i b, c.f i b ≠ .other)
    (as : List Action) (s : State β γ) (h : run c (State.init c.n blocks) as = some s) (hstop : ∀ a, step c s a = none) :
    s.final = true ∧ s.raised = false ∧ s.out.length = blocks.length ∧
    (∀ (i : Nat) (b : β), blocks[i]? = some b → ∃ x, c.f i b = .ok x ∧ s.out[i]? = some (some x)) ∧ (c.kind = .zip → s.eof = true) := by
  have hfin : s.final = true := by
    refine C42_write_no_deadlock c hn blocks ?_ ?_ as s h hstop
    · rcases hk with hk | hk
      · exact .inl hk.1
      · exact .inr hk.2
    · rcases hk with hk | hk
      · exact .inr (.inl hk.2)
      · exact .inl hk.1
  obtain ⟨h1, h2, h3, -⟩ := C42_write_result c hn blocks as s h hfin
  have hl := seq_allGood hg
  refine ⟨hfin, h3 hg (by rcases hk with hk | hk; exacts [.inr hk.2, .inl hk.1]), by rw [h1, List.length_map, hl], fun i b hb => ?_, fun hz => ?_⟩
  · have hi : i < (seqWrite c 0 blocks).length := by rw [hl]; exact (List.getElem?_eq_some_iff.1 hb).1
    obtain ⟨b', y, g1, g2, g3, g4⟩ := seqWrite_lt c blocks 0 i hi
    rw [hb] at g1; cases g1
    rw [Nat.zero_add] at g2
    exact ⟨y, g2, by rw [h1, List.getElem?_map, g4]; rfl⟩
  · rcases hk with hk | hk
    · exact h2 hz hk.2
    · rw [hk.1] at hz; cases hz

/-! #### A concrete run: two workers, three blocks, the second block overtaken by the third -/

def Par.exCfg : Cfg Nat Nat := { kind := .zip, n := 2, f := fun _ b => .ok (10 * b), sinkFails := fun _ => false, eofFails := false }

/-- a schedule where block 2 is processed and pushed before block 1 -/
def Par.exSched : List Action :=
  [.mainGet, .mainScatter, .mainGet, .mainScatter, .workerGet 0, .workerProc 0, .workerGet 1, .workerPush 0, .mainGet, .mainScatter,
   .workerGet 0, .workerProc 0, .workerPush 0, .gather, .write, .workerProc 1, .workerPush 1, .gather, .write, .write,
   .mainGet, .mainScatter, .mainGet, .mainScatter, .workerGet 1, .workerGet 0, .workerProc 0, .workerPush 0, .workerProc 1, .workerPush 1,
   .gather, .write, .write]

theorem C42_write_example :
    ((run exCfg (State.init 2 [1, 2, 3]) exSched).map fun s => (s.out, s.eof, s.final, s.raised))
      = some ([some 10, some 20, some 30], true, true, false) ∧ AllGood exCfg [1, 2, 3] ∧ NothingLost exCfg ∧ EofFine exCfg [1, 2, 3] :=
  ⟨by decide +kernel, fun i b _ => ⟨⟨10 * b, rfl⟩, rfl⟩, .inl rfl, .inr (.inl rfl)⟩

/-! #### Where the code blocks or hides an error -/

/-- no worker of the list can act -/
theorem Par.no_worker {s : State β γ} {c : Cfg β γ} {k : Nat} (h : s.ws.length ≤ k) :
    workerGet k s = none ∧ workerProc c k s = none ∧ workerPush c.n k s = none := by
  have e : s.ws[k]? = none := List.getElem?_eq_none h
  refine ⟨?_, ?_, ?_⟩
  · unfold workerGet; rw [e]; cases s.queue <;> rfl
  · unfold workerProc; rw [e]
  · unfold workerPush; rw [e]

/-- decides that no thread can go on -/
def Par.stuckB (c : Cfg β γ) (s : State β γ) : Bool :=
  (step c s .mainGet).isNone && (step c s .mainScatter).isNone && (step c s .mainAbort).isNone && (step c s .gather).isNone &&
  (step c s .write).isNone && (List.range s.ws.length).all fun k =>
    (step c s (.workerGet k)).isNone && (step c s (.workerProc k)).isNone && (step c s (.workerPush k)).isNone

theorem Par.stuck_of_stuckB {c : Cfg β γ} {s : State β γ} (h : stuckB c s = true) : ∀ a, step c s a = none := by
  unfold stuckB at h
  simp only [Bool.and_eq_true, List.all_eq_true, List.mem_range, Option.isNone_iff_eq_none] at h
  obtain ⟨⟨⟨⟨⟨h1, h2⟩, h3⟩, h4⟩, h5⟩, h6⟩ := h
  intro a
  cases a with
  | mainGet => exact h1
  | mainScatter => exact h2
  | mainAbort => exact h3
  | gather => exact h4
  | write => exact h5
  | workerGet k =>
    rcases Nat.lt_or_ge k s.ws.length with hk | hk
    · exact (h6 k hk).1.1
    · exact (no_worker (c := c) hk).1
  | workerProc k =>
    rcases Nat.lt_or_ge k s.ws.length with hk | hk
    · exact (h6 k hk).1.2
    · exact (no_worker (c := c) hk).2.1
  | workerPush k =>
    rcases Nat.lt_or_ge k s.ws.length with hk | hk
    · exact (h6 k hk).2
    · exact (no_worker (c := c) hk).2.2

/-- C42, counterexample: the write of the end marker fails (disk full): the writing thread calls gather() again and waits
for ever, and so does the main thread in join(). -/
theorem C42_eof_failure_deadlock_counterexample :
    ∃ (c : Cfg Nat Nat) (as : List Action) (s : State Nat Nat), c.kind = .zip ∧ AllGood c [7] ∧ c.eofFails = true ∧
      run c (State.init c.n [7]) as = some s ∧ (∀ a, step c s a = none) ∧ s.final = false := by
  refine ⟨{ kind := .zip, n := 1, f := fun _ b => .ok b, sinkFails := fun _ => false, eofFails := true },
    [.mainGet, .mainScatter, .workerGet 0, .workerProc 0, .workerPush 0, .gather, .write, .mainGet, .mainScatter, .workerGet 0,
     .workerProc 0, .workerPush 0, .gather, .write],
    { todo := [], hold := false, heap := heapSize 1, hist := [.data 7, .die], queue := [], taken := 2, ws := [⟨.ended, .fine, false⟩],
      table := [], next := 2, lost := [], wbuf := [], werr := true, wexc := true, ending := 0, wended := false, out := [some 7],
      eof := false, aborted := false },
    rfl, fun i b _ => ⟨⟨b, rfl⟩, rfl⟩, rfl, by decide +kernel, stuck_of_stuckB (by decide +kernel), by decide +kernel⟩

/-- C42, counterexample: encrypt_data raises an exception other than Erange: the worker loses the block, whose number never
reaches the gather: the writing thread waits for it for ever. -/
theorem C42_worker_exception_deadlock_counterexample :
    ∃ (c : Cfg Nat Nat) (as : List Action) (s : State Nat Nat), c.kind = .crypto ∧
      run c (State.init c.n [7]) as = some s ∧ (∀ a, step c s a = none) ∧ s.final = false := by
  refine ⟨{ kind := .crypto, n := 1, f := fun _ _ => .other, sinkFails := fun _ => false, eofFails := false },
    [.mainGet, .mainScatter, .workerGet 0, .workerProc 0, .mainGet, .mainScatter, .workerGet 0, .workerProc 0],
    { todo := [], hold := false, heap := heapSize 1 - 2, hist := [.data 7, .die], queue := [], taken := 2,
      ws := [⟨.ready 1 .die, .inform, true⟩], table := [], next := 0, lost := [0], wbuf := [], werr := false, wexc := false, ending := 1,
      wended := false, out := [], eof := false, aborted := false },
    rfl, by decide +kernel, stuck_of_stuckB (by decide +kernel), by decide +kernel⟩

/-- C42, counterexample: encrypt_data raises Erange for the last block: nothing is written for it and no exception is ever
raised. -/
theorem C42_encrypt_error_silent_counterexample :
    ∃ (c : Cfg Nat Nat) (as : List Action) (s : State Nat Nat), c.kind = .crypto ∧ ¬ AllGood c [7] ∧
      run c (State.init c.n [7]) as = some s ∧ s.final = true ∧ s.out = [] ∧ s.raised = false := by
  refine ⟨{ kind := .crypto, n := 1, f := fun _ _ => .range, sinkFails := fun _ => false, eofFails := false },
    [.mainGet, .mainScatter, .mainGet, .workerGet 0, .workerProc 0, .workerPush 0, .gather, .write, .mainScatter, .workerGet 0,
     .workerProc 0, .workerPush 0, .gather, .write],
    { todo := [], hold := false, heap := heapSize 1, hist := [.data 7, .die], queue := [], taken := 2,
      ws := [⟨.ended, .fine, false⟩], table := [], next := 2, lost := [], wbuf := [], werr := true, wexc := false, ending := 0,
      wended := true, out := [], eof := false, aborted := false },
    rfl, fun h => ?_, by decide +kernel, by decide +kernel, rfl, by decide +kernel⟩
  obtain ⟨⟨x, hx⟩, -⟩ := h 0 7 rfl
  cases hx

end Dar
