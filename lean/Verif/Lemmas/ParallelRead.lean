import Verif.Lemmas.Parallel4
import Verif.Model.ParallelRead
/- Invariant of the parallel reading pipeline. -/
namespace Dar.Par
variable {β γ : Type}

/-- the configuration of the workers while reading -/
def rcfg (n : Nat) (g : Nat → β → Outcome γ) : Cfg β γ :=
  { kind := .zip, n := n, f := g, sinkFails := fun _ => false, eofFails := false }

/-- what zip_below_read sends -/
def Tot (n : Nat) (blocks : List β) (k : Nat) (s : State β γ) : Prop :=
  s.hist ++ s.todo = (blocks.take k).map Item.data ++ List.replicate n Item.die ∧ k ≤ blocks.length

theorem Tot.data {n : Nat} {blocks : List β} {k : Nat} {s : State β γ} (W : Tot n blocks k s) {i : Nat} {b : β}
    (h : s.hist[i]? = some (.data b)) : i < k ∧ blocks[i]? = some b := by
  have h2 := getElem?_append_mono s.hist s.todo i _ h
  rw [W.1] at h2
  have hl : ((blocks.take k).map (Item.data (β := β))).length = k := by
    rw [List.length_map, List.length_take]; have := W.2; omega
  by_cases hi : i < k
  · rw [List.getElem?_append_left (by omega), List.getElem?_map, List.getElem?_take, if_pos hi] at h2
    refine ⟨hi, ?_⟩
    cases hb : blocks[i]? with
    | none => rw [hb] at h2; simp at h2
    | some b' => rw [hb] at h2; simp at h2; rw [h2]
  · exfalso
    rw [List.getElem?_append_right (by omega), List.getElem?_replicate] at h2
    split at h2 <;> simp at h2

theorem Tot.die {n : Nat} {blocks : List β} {k : Nat} {s : State β γ} (W : Tot n blocks k s) {i : Nat}
    (h : s.hist[i]? = some .die) : k ≤ i := by
  have h2 := getElem?_append_mono s.hist s.todo i _ h
  rw [W.1] at h2
  have hl : ((blocks.take k).map (Item.data (β := β))).length = k := by
    rw [List.length_map, List.length_take]; have := W.2; omega
  by_cases hi : i < k
  · rw [List.getElem?_append_left (by omega), List.getElem?_map] at h2
    cases hb : (blocks.take k)[i]? with
    | none => rw [hb] at h2; simp at h2
    | some b' => rw [hb] at h2; simp at h2
  · omega

theorem Tot.histLen {n : Nat} {blocks : List β} {k : Nat} {s : State β γ} (W : Tot n blocks k s) :
    s.hist.length + s.todo.length = k + n := by
  have := congrArg List.length W.1
  simp only [List.length_append, List.length_map, List.length_take, List.length_replicate] at this
  have := W.2
  omega

theorem Tot.dies {n : Nat} {blocks : List β} {k : Nat} {s : State β γ} (W : Tot n blocks k s) {t : Nat} (ht : t ≤ s.hist.length) :
    ((s.hist.take t).map Item.dieN).sum = t - k := by
  have e : s.hist.take t = (s.hist ++ s.todo).take t := by rw [List.take_append_of_le_length ht]
  have := W.histLen
  rw [e, W.1, dies_take _ _ _ _ W.2 (by omega)]

/-- as long as something is expected, a thread can go on -/
theorem pipe_progress {c : Cfg β γ} {blocks : List β} {k : Nat} {s : State β γ} (hn : 0 < c.n) (H : Core c s) (W : Tot c.n blocks k s)
    (hl : s.lost = []) (hfind : s.table.find? (fun x => x.1 = s.next) = none) (hnext : s.next < k + c.n)
    (h1 : mainGet s = none) (h2 : mainScatter c.n s = none) (h3 : ∀ j, workerGet j s = none) (h4 : ∀ j, workerProc c j s = none)
    (h5 : ∀ j, workerPush c.n j s = none) : False := by
  have hcap := ratelierSize_pos hn
  have hnot : ∀ x ∈ s.table, x.1 ≠ s.next := by
    intro x hx e
    have := List.find?_eq_none.1 hfind x hx
    simp [e] at this
  have hh2 := W.histLen
  have hh3 := H.nle
  have hh4 := H.tle
  by_cases hlt : s.next < s.taken
  · have a := H.cnt s.next
    rw [ind_in (Nat.le_refl _) hlt, hl] at a
    have hc0 : s.table.countP (fun x => x.1 = s.next) = 0 := by
      rw [List.countP_eq_zero]
      intro x hx; simpa using hnot x hx
    rw [hc0] at a
    obtain ⟨j, w, hj, hw⟩ := exists_pos_of_sum (wIdx s.next) s.ws (by simp at a; omega)
    rcases w with ⟨st, err, exc⟩
    cases st with
    | idle => simp [wIdx] at hw
    | ended => simp [wIdx] at hw
    | hold i it =>
      have := h4 j
      simp only [workerProc, hj] at this
      cases it <;> simp [wkProc] at this
    | ready i o =>
      have hi : i = s.next := by
        by_cases e : i = s.next
        · exact e
        · simp [wIdx, e] at hw
      subst hi
      have := h5 j
      simp only [workerPush, hj] at this
      have hm : mayPush (ratelierSize c.n) s.next s.table s.next = true := by
        unfold mayPush
        have : s.table.length + 1 ≤ ratelierSize c.n := by
          rcases Nat.lt_or_ge s.table.length (ratelierSize c.n) with h | h
          · exact h
          · obtain ⟨x, hx, e⟩ := H.tfull h
            exact absurd e (hnot x hx)
        simp [this]
      rw [if_pos hm] at this
      cases this
  · have e1 : s.next = s.taken := by omega
    have hfree := H.workers_free e1
    cases hq : s.queue with
    | cons it q =>
      have hd := H.dies
      rw [W.dies H.tle] at hd
      have hex : ∃ w ∈ s.ws, w.st = .idle := by
        by_cases hx : ∃ w ∈ s.ws, w.st = .idle
        · exact hx
        · exfalso
          have hall : ∀ w ∈ s.ws, wDie w = 1 := by
            intro w hw
            rcases hfree w hw with h | h
            · exact absurd ⟨w, hw, h⟩ hx
            · unfold wDie; rw [h]
          have : (s.ws.map wDie).sum = s.ws.length := by
            have : s.ws.map wDie = List.replicate s.ws.length 1 := by
              rw [List.eq_replicate_iff]
              refine ⟨by simp, ?_⟩
              intro x hx
              obtain ⟨w, hw, rfl⟩ := List.mem_map.1 hx
              exact hall w hw
            rw [this]; simp
          rw [H.wlen] at this
          omega
      obtain ⟨w, hw, hst⟩ := hex
      obtain ⟨j, hj⟩ := List.mem_iff_getElem?.1 hw
      have := h3 j
      simp only [workerGet, hq, hj, wkGet, hst] at this
      simp at this
    | nil =>
      have hdrop := H.que
      rw [hq, List.drop_eq_nil_iff] at hdrop
      cases ht : s.todo with
      | nil => rw [ht] at hh2; simp at hh2; omega
      | cons it rest =>
        by_cases hh : s.hold = true
        · simp only [mainScatter, ht, hh, hq] at h2
          rw [if_pos (by simpa using hcap)] at h2
          cases h2
        · have hh : s.hold = false := by simpa using hh
          have hp := H.heap_pos hl hh
          obtain ⟨m, hm⟩ : ∃ m, s.heap = m + 1 := ⟨s.heap - 1, by omega⟩
          simp only [mainGet, ht, hh, hm] at h1
          cases h1

/-- everything sent was consumed: the threads have ended -/
theorem pipe_ended {c : Cfg β γ} {blocks : List β} {k : Nat} {s : State β γ} (H : Core c s) (W : Tot c.n blocks k s)
    (h : k + c.n ≤ s.next) : s.todo = [] ∧ (∀ w ∈ s.ws, w.st = .ended) ∧ s.next = s.taken ∧ s.queue = [] := by
  have h2 := W.histLen
  have h3 := H.nle
  have h4 := H.tle
  have e1 : s.next = s.taken := by omega
  have hd := H.dies
  rw [W.dies H.tle] at hd
  have hall := all_of_sum wDie wDie_le s.ws (by rw [hd, H.wlen]; omega)
  have hfree := H.workers_free e1
  refine ⟨List.eq_nil_of_length_eq_zero (by omega), fun w hw => ended_of_die (hfree w hw) (hall w hw), e1, ?_⟩
  apply List.eq_nil_of_length_eq_zero
  rw [← H.que, List.length_drop]; omega

/-- zip_below_read sees the order to stop -/
theorem tot_abort {c : Cfg β γ} {blocks : List β} {k : Nat} {s s' : State β γ} (W : Tot c.n blocks k s)
    (h : mainAbort c.n s = some s') : s.hist.length < k ∧ s.aborted = false ∧ s.werr = true ∧
      (∃ k', s.hist.length ≤ k' ∧ k' ≤ k ∧ Tot c.n blocks k' s') ∧ s'.todo ≠ [] ∨ c.n = 0 := by
  unfold mainAbort at h
  split at h
  · rename_i b rest hab hw ht
    simp only [Option.some.injEq] at h
    subst h
    have hl := W.histLen
    rw [ht] at hl
    simp only [List.length_cons] at hl
    have hhd : s.hist.length < k ∧ blocks[s.hist.length]? = some b := by
      have e : (s.hist ++ s.todo)[s.hist.length]? = some (.data b) := by
        rw [ht, List.getElem?_append_right (Nat.le_refl _)]; simp
      rw [W.1] at e
      have hl : ((blocks.take k).map (Item.data (β := β))).length = k := by
        rw [List.length_map, List.length_take]; have := W.2; omega
      by_cases hi : s.hist.length < k
      · rw [List.getElem?_append_left (by omega), List.getElem?_map, List.getElem?_take, if_pos hi] at e
        refine ⟨hi, ?_⟩
        cases hb : blocks[s.hist.length]? with
        | none => rw [hb] at e; simp at e
        | some b' => rw [hb] at e; simp at e; rw [e]
      · exfalso
        rw [List.getElem?_append_right (by omega), List.getElem?_replicate] at e
        split at e <;> simp at e
    have hhist : s.hist = (blocks.take s.hist.length).map Item.data := by
      have := congrArg (List.take s.hist.length) W.1
      rw [List.take_append_of_le_length (Nat.le_refl _), List.take_length, List.take_append_of_le_length (by
        rw [List.length_map, List.length_take]; have := W.2; omega), ← List.map_take, List.take_take,
        Nat.min_eq_left (by omega)] at this
      exact this
    have hkle := W.2
    by_cases hn0 : c.n = 0
    · exact .inr hn0
    refine .inl ⟨hhd.1, hab, hw, ?_, ?_⟩
    · by_cases hh : s.hold = true
      · refine ⟨s.hist.length + 1, by omega, by omega, ?_, by omega⟩
        dsimp only
        rw [if_pos hh]
        have hlt : s.hist.length < blocks.length := by omega
        rw [List.take_succ_eq_append_getElem hlt]
        have : blocks[s.hist.length] = b := (List.getElem?_eq_some_iff.1 hhd.2).2
        rw [this, List.map_append, ← hhist]
        simp
      · refine ⟨s.hist.length, by omega, by omega, ?_, by omega⟩
        dsimp only
        rw [if_neg hh, ← hhist]
        simp
    · dsimp only
      obtain ⟨m, hm⟩ : ∃ m, c.n = m + 1 := ⟨c.n - 1, by omega⟩
      rw [hm, List.replicate_succ]
      simp
  · cases h

end Dar.Par

namespace Dar.Par
variable {β γ : Type}

/-- the processing of block number i of the archive fails -/
def FailB (g : Nat → β → Outcome γ) (blocks : List β) (i : Nat) : Prop := ∃ b, blocks[i]? = some b ∧ ∀ x, g i b ≠ .ok x

structure Rd (n : Nat) (g : Nat → β → Outcome γ) (tail : Tail) (blocks : List β) (k : Nat) (s : RState β γ) : Prop where
  core : Core (rcfg n g) s.p
  tot : Tot n blocks k s.p
  full : k < blocks.length → s.p.aborted = true
  ab : s.p.aborted = true → s.p.werr = true
  wr : s.p.werr = true ↔ s.phase ≠ .reading
  holdT : s.p.hold = true → s.p.todo ≠ []
  wend : s.p.wended = false
  gotOk : ∀ (i : Nat) (x : Option γ), s.got[i]? = some x → ∃ b y, blocks[i]? = some b ∧ g i b = .ok y ∧ x = some y
  rd : s.phase = .reading → s.got.length = s.p.popped ∧ s.p.popped ≤ k ∧ s.must = false ∧ s.reof = false ∧ s.asked = false
  pur : ∀ f e m, s.phase = .purge f e m → (m = false → e = n ∧ s.p.popped ≤ k) ∧
    (m = true → k < s.p.popped ∧ 1 ≤ e ∧ e = n - (s.p.popped - k)) ∧ (f = false → ∃ i, i < s.p.popped ∧ FailB g blocks i)
  jn : s.phase = .join → k + n ≤ s.p.popped ∨ ∃ i j, i < j ∧ FailB g blocks i ∧ FailB g blocks j
  why : s.phase ≠ .reading → s.asked = true ∨
    (s.reof = true ∧ s.must = false ∧ tail = .eof ∧ s.got.length = blocks.length) ∨
    (s.must = true ∧ s.reof = false ∧ tail ≠ .eof ∧ s.got.length = blocks.length) ∨
    (s.must = true ∧ s.reof = false ∧ FailB g blocks s.got.length)

theorem rd_init (n : Nat) (hn : 0 < n) (g : Nat → β → Outcome γ) (tail : Tail) (blocks : List β) :
    Rd n g tail blocks blocks.length (RState.init n blocks : RState β γ) := by
  refine ⟨core_init (rcfg n g) hn blocks, ⟨by simp [RState.init, State.init], Nat.le_refl _⟩, by omega, ?_, ?_, ?_, rfl, ?_, ?_, ?_, ?_, ?_⟩
  · intro h; cases h
  · simp [RState.init, State.init]
  · intro h; cases h
  · intro i x h; simp [RState.init] at h
  · intro _; simp [RState.init, State.init, State.popped]
  · intro f e m h; cases h
  · intro h; cases h
  · intro h; simp [RState.init] at h

/-- steps of zip_below_read and of the workers -/
theorem Rd.pipe {n : Nat} {g : Nat → β → Outcome γ} {tail : Tail} {blocks : List β} {k : Nat} {s : RState β γ} {p' : State β γ}
    (R : Rd n g tail blocks k s) (hc : Core (rcfg n g) p') (ht : Tot n blocks k p') (h1 : p'.aborted = s.p.aborted)
    (h2 : p'.werr = s.p.werr) (h3 : p'.hold = true → p'.todo ≠ []) (h4 : p'.popped = s.p.popped) (h5 : p'.wended = s.p.wended) :
    Rd n g tail blocks k { s with p := p' } :=
  ⟨hc, ht, fun h => by show p'.aborted = true; rw [h1]; exact R.full h, fun h => by
    have h : p'.aborted = true := h
    rw [h1] at h; show p'.werr = true; rw [h2]; exact R.ab h, by show p'.werr = true ↔ _; rw [h2]; exact R.wr, h3,
    by show p'.wended = false; rw [h5]; exact R.wend, R.gotOk, fun h => by
      show _ = p'.popped ∧ p'.popped ≤ k ∧ _; rw [h4]; exact R.rd h, fun f e m h => by
      show (_ → _ ∧ p'.popped ≤ k) ∧ (_ → k < p'.popped ∧ _ ∧ e = n - (p'.popped - k)) ∧ (_ → ∃ i, i < p'.popped ∧ _)
      rw [h4]; exact R.pur f e m h, fun h => by show k + n ≤ p'.popped ∨ _; rw [h4]; exact R.jn h, R.why⟩

theorem core_flag {c : Cfg β γ} {s : State β γ} (H : Core c s) (b : Bool) : Core c { s with werr := b } :=
  ⟨H.que, H.tle, H.cnt, H.nle, H.wlen, H.wk, H.tab, H.dies, H.lst, H.tcap, H.tfull, H.qcap, H.buf, H.bufOk, H.bcap, H.heapEq⟩

theorem core_popR {c : Cfg β γ} {s : State β γ} {o : Out γ} {rest : List (Out γ)} (H : Core c s) (hb : s.wbuf = o :: rest) :
    Core c (s.pop rest) := core_pop H hb s.werr s.wexc s.wended s.ending s.out s.eof

/-- what the first block of lus_data tells -/
theorem Rd.head {n : Nat} {g : Nat → β → Outcome γ} {tail : Tail} {blocks : List β} {k : Nat} {s : RState β γ}
    (R : Rd n g tail blocks k s) {o : Out γ} {rest : List (Out γ)} (hb : s.p.wbuf = o :: rest) :
    (s.p.pop rest).popped = s.p.popped + 1 ∧
    match o with
    | .good x => s.p.popped < k ∧ ∃ b, blocks[s.p.popped]? = some b ∧ g s.p.popped b = .ok x
    | .junk => s.p.popped < k ∧ ∃ j, j < s.p.popped ∧ FailB g blocks j
    | .workerError => s.p.popped < k ∧ FailB g blocks s.p.popped
    | .dataError => False
    | .die => k ≤ s.p.popped := by
  have hl : s.p.wbuf.length = rest.length + 1 := by rw [hb]; rfl
  have hbuf := R.core.buf
  have hO : OutOk (rcfg n g) s.p.hist (ExcSome s.p.ws) s.p.popped o := R.core.bufOk 0 o (by rw [hb]; rfl)
  refine ⟨by show s.p.next - rest.length = s.p.next - s.p.wbuf.length + 1; omega, ?_⟩
  have hF : ∀ j, Fail (rcfg n g) s.p.hist j → FailB g blocks j := by
    rintro j ⟨b, h1, h2⟩
    exact ⟨b, (R.tot.data h1).2, h2⟩
  cases o with
  | good x =>
    obtain ⟨b, h1, h2⟩ := hO
    exact ⟨(R.tot.data h1).1, b, (R.tot.data h1).2, h2⟩
  | junk =>
    obtain ⟨⟨b, h1⟩, j, hj, h2⟩ := hO
    exact ⟨(R.tot.data h1).1, j, hj, hF j h2⟩
  | workerError =>
    obtain ⟨⟨b, h1⟩, -, h2, -⟩ := hO
    exact ⟨(R.tot.data h1).1, hF _ (h2 rfl)⟩
  | dataError => exact absurd hO.1 (by simp [rcfg])
  | die => exact R.tot.die hO

theorem failB_got {n : Nat} {g : Nat → β → Outcome γ} {tail : Tail} {blocks : List β} {k : Nat} {s : RState β γ}
    (R : Rd n g tail blocks k s) {j : Nat} (hj : j < s.got.length) (h : FailB g blocks j) : False := by
  obtain ⟨b, h1, h2⟩ := h
  obtain ⟨b', y, g1, g2, -⟩ := R.gotOk j _ (List.getElem?_eq_getElem hj)
  rw [h1] at g1; cases g1
  exact h2 y g2

theorem rd_consumeRead {n : Nat} (hn : 0 < n) {g : Nat → β → Outcome γ} {tail : Tail} {blocks : List β} {k : Nat} {s : RState β γ}
    (R : Rd n g tail blocks k s) (hph : s.phase = .reading) {o : Out γ} {rest : List (Out γ)} (hb : s.p.wbuf = o :: rest) :
    Rd n g tail blocks k (consumeRead n tail s o rest) := by
  obtain ⟨hpop, hh⟩ := R.head hb
  obtain ⟨r1, r2, r3, r4, r5⟩ := R.rd hph
  have hwe : s.p.werr = false := by
    cases h : s.p.werr with
    | false => rfl
    | true => exact absurd hph (R.wr.1 h)
  have hna : s.p.aborted = false := by
    cases h : s.p.aborted with
    | false => rfl
    | true => have := R.ab h; rw [hwe] at this; cases this
  have hkb : k = blocks.length := by
    have := R.tot.2
    by_cases hlt : k < blocks.length
    · have := R.full hlt; rw [hna] at this; cases this
    · omega
  cases o with
  | good x =>
    obtain ⟨hk, b, hb1, hb2⟩ := hh
    refine ⟨core_popR R.core hb, R.tot, R.full, R.ab, R.wr, R.holdT, R.wend, fun i z hz => ?_, fun _ => ⟨?_, ?_, r3, r4, r5⟩,
      fun f e m h => absurd (hph.symm.trans h) (by simp), fun h => absurd (hph.symm.trans h) (by simp), fun h => absurd hph h⟩
    · have hz : (s.got ++ [some x])[i]? = some z := hz
      by_cases hi : i < s.got.length
      · rw [List.getElem?_append_left hi] at hz
        exact R.gotOk i z hz
      · rw [List.getElem?_append_right (by omega)] at hz
        have : i = s.got.length := by
          rcases Nat.lt_or_ge (i - s.got.length) 1 with h | h
          · omega
          · rw [List.getElem?_eq_none (by simpa using h)] at hz; cases hz
        subst this
        simp at hz
        exact ⟨b, x, by rw [r1]; exact hb1, by rw [r1]; exact hb2, hz.symm⟩
    · show (s.got ++ [some x]).length = (s.p.pop rest).popped
      rw [hpop, List.length_append, r1]; rfl
    · show (s.p.pop rest).popped ≤ k
      omega
  | junk =>
    exfalso
    obtain ⟨hk, j, hj, hf⟩ := hh
    exact failB_got R (by omega) hf
  | dataError => exact hh.elim
  | workerError =>
    obtain ⟨hk, hf⟩ := hh
    refine ⟨core_flag (core_popR R.core hb) true, R.tot, R.full, fun _ => rfl, ⟨fun _ h => (by cases h), fun _ => rfl⟩, R.holdT, R.wend, R.gotOk,
      fun h => absurd (show Phase.purge true n false = Phase.reading from h) (by simp), fun f e m h => ?_, fun h => absurd (show Phase.purge true n false = Phase.join from h) (by simp), fun _ => ?_⟩
    · have h : Phase.purge true n false = Phase.purge f e m := h
      cases h
      refine ⟨fun _ => ⟨rfl, ?_⟩, (fun h => by cases h), (fun h => by cases h)⟩
      show (s.p.pop rest).popped ≤ k
      omega
    · refine .inr (.inr (.inr ⟨rfl, r4, ?_⟩))
      show FailB g blocks s.got.length
      rw [r1]; exact hf
  | die =>
    have he : endIsEof tail s.p = decide (tail = .eof) := by unfold endIsEof; rw [hna]; rfl
    refine ⟨core_flag R.core true, R.tot, R.full, fun _ => rfl, ⟨fun _ h => (by cases h), fun _ => rfl⟩, R.holdT, R.wend, R.gotOk,
      fun h => absurd (show Phase.purge true n false = Phase.reading from h) (by simp), fun f e m h => ?_, fun h => absurd (show Phase.purge true n false = Phase.join from h) (by simp), fun _ => ?_⟩
    · have h : Phase.purge true n false = Phase.purge f e m := h
      cases h
      exact ⟨fun _ => ⟨rfl, r2⟩, (fun h => by cases h), (fun h => by cases h)⟩
    · have hgl : s.got.length = blocks.length := by omega
      by_cases ht : tail = .eof
      · refine .inr (.inl ⟨?_, ?_, ht, hgl⟩)
        · show endIsEof tail s.p = true
          rw [he]; simpa using ht
        · show (!endIsEof tail s.p) = false
          rw [he]; simpa using ht
      · refine .inr (.inr (.inl ⟨?_, ?_, ht, hgl⟩))
        · show (!endIsEof tail s.p) = true
          rw [he]; simpa using ht
        · show endIsEof tail s.p = false
          rw [he]; simpa using ht

theorem rd_consumePurge {n : Nat} (hn : 0 < n) {g : Nat → β → Outcome γ} {tail : Tail} {blocks : List β} {k : Nat} {s : RState β γ}
    (R : Rd n g tail blocks k s) {f : Bool} {e : Nat} {m : Bool} (hph : s.phase = .purge f e m) {o : Out γ} {rest : List (Out γ)}
    (hb : s.p.wbuf = o :: rest) : Rd n g tail blocks k (consumePurge n s f e m o rest) := by
  obtain ⟨hpop, hh⟩ := R.head hb
  obtain ⟨p1, p2, p3⟩ := R.pur f e m hph
  have hne : s.phase ≠ .reading := by rw [hph]; simp
  have hwe := R.wr.2 hne
  have hwhy := R.why hne
  -- the next phase
  have key : ∀ ph : Phase, (consumePurge n s f e m o rest) = { s with p := s.p.pop rest, phase := ph } →
      ph ≠ .reading →
      (∀ f e m, ph = .purge f e m → (m = false → e = n ∧ s.p.popped + 1 ≤ k) ∧
        (m = true → k < s.p.popped + 1 ∧ 1 ≤ e ∧ e = n - (s.p.popped + 1 - k)) ∧ (f = false → ∃ i, i < s.p.popped + 1 ∧ FailB g blocks i)) →
      (ph = .join → k + n ≤ s.p.popped + 1 ∨ ∃ i j, i < j ∧ FailB g blocks i ∧ FailB g blocks j) →
      Rd n g tail blocks k (consumePurge n s f e m o rest) := by
    intro ph he hr hp hj
    rw [he]
    refine ⟨core_popR R.core hb, R.tot, R.full, R.ab, ⟨fun _ => hr, fun _ => hwe⟩, R.holdT, R.wend, R.gotOk, fun h => absurd h hr,
      fun f e m h => ?_, fun h => ?_, fun _ => hwhy⟩
    · show (_ → _ ∧ (s.p.pop rest).popped ≤ k) ∧ (_ → k < (s.p.pop rest).popped ∧ _ ∧ e = n - ((s.p.pop rest).popped - k)) ∧
        (_ → ∃ i, i < (s.p.pop rest).popped ∧ _)
      rw [hpop]; exact hp f e m h
    · show k + n ≤ (s.p.pop rest).popped ∨ _
      rw [hpop]; exact hj h
  have hdat : s.p.popped < k → (m = false ∧ e = n) := by
    intro hk
    cases m with
    | false => exact ⟨rfl, (p1 rfl).1⟩
    | true => have := (p2 rfl).1; omega
  have hsame : s.p.popped < k → (∀ f' e' m', Phase.purge f e m = .purge f' e' m' → (m' = false → e' = n ∧ s.p.popped + 1 ≤ k) ∧
        (m' = true → k < s.p.popped + 1 ∧ 1 ≤ e' ∧ e' = n - (s.p.popped + 1 - k)) ∧ (f' = false → ∃ i, i < s.p.popped + 1 ∧ FailB g blocks i)) := by
    intro hk f' e' m' h
    cases h
    obtain ⟨h1, h2⟩ := hdat hk
    subst h1 h2
    refine ⟨fun _ => ⟨rfl, by omega⟩, (fun h => by cases h), fun h => ?_⟩
    obtain ⟨i, hi, hf⟩ := p3 h
    exact ⟨i, by omega, hf⟩
  cases o with
  | good x => exact key (.purge f e m) rfl (by simp) (hsame hh.1) (by simp)
  | junk => exact key (.purge f e m) rfl (by simp) (hsame hh.1) (by simp)
  | dataError => exact hh.elim
  | workerError =>
    obtain ⟨hk, hf⟩ := hh
    obtain ⟨h1, h2⟩ := hdat hk
    subst h1 h2
    cases f with
    | true =>
      refine key (.purge false e false) rfl (by simp) (fun f e m h => ?_) (by simp)
      cases h
      exact ⟨fun _ => ⟨rfl, by omega⟩, (fun h => by cases h), fun _ => ⟨s.p.popped, by omega, hf⟩⟩
    | false =>
      refine key .join rfl (by simp) (fun f e m h => by cases h) (fun _ => .inr ?_)
      obtain ⟨i, hi, hfi⟩ := p3 rfl
      exact ⟨i, s.p.popped, hi, hfi, hf⟩
  | die =>
    have hk : k ≤ s.p.popped := hh
    by_cases he : e ≤ 1
    · refine key .join (by unfold consumePurge; dsimp only; rw [if_pos he]) (by simp) (fun f e m h => by cases h) (fun _ => .inl ?_)
      cases m with
      | false => have := p1 rfl; omega
      | true => have := p2 rfl; omega
    · refine key (.purge f (e - 1) true) (by unfold consumePurge; dsimp only; rw [if_neg he]) (by simp) (fun f' e' m' h => ?_) (by simp)
      cases h
      refine ⟨(fun h => by cases h), fun _ => ?_, fun h => ?_⟩
      · cases m with
        | false => have := p1 rfl; omega
        | true => have := p2 rfl; omega
      · obtain ⟨i, hi, hf⟩ := p3 h
        exact ⟨i, by omega, hf⟩

theorem rd_step {n : Nat} (hn : 0 < n) {g : Nat → β → Outcome γ} {tail : Tail} {blocks : List β} {k : Nat} {s s' : RState β γ}
    {a : RAction} (R : Rd n g tail blocks k s) (h : rstep n g tail s a = some s') : ∃ k', Rd n g tail blocks k' s' := by
  cases a with
  | readerGet =>
    simp only [rstep] at h
    cases hm : mainGet s.p with
    | none => rw [hm] at h; cases h
    | some p' =>
      rw [hm] at h
      simp only [Option.map_some, Option.some.injEq] at h
      subst h
      have hc := core_mainGet (rcfg n g) s.p p' R.core hm
      unfold mainGet at hm
      split at hm
      · rename_i it rest hp ht hh hk
        simp only [Option.some.injEq] at hm
        subst hm
        exact ⟨k, R.pipe hc R.tot rfl rfl (fun _ => by dsimp only; rw [ht]; simp) rfl rfl⟩
      · cases hm
  | readerScatter =>
    simp only [rstep] at h
    cases hm : mainScatter n s.p with
    | none => rw [hm] at h; cases h
    | some p' =>
      rw [hm] at h
      simp only [Option.map_some, Option.some.injEq] at h
      subst h
      have hc := core_mainScatter (rcfg n g) s.p p' R.core hm
      unfold mainScatter at hm
      split at hm
      · rename_i it rest ht hh
        by_cases hq : s.p.queue.length < ratelierSize n
        · rw [if_pos hq] at hm
          simp only [Option.some.injEq] at hm
          subst hm
          refine ⟨k, R.pipe hc ⟨?_, R.tot.2⟩ rfl rfl (fun h => by cases h) rfl rfl⟩
          have := R.tot.1
          rw [ht] at this
          simpa using this
        · rw [if_neg hq] at hm; cases hm
      · cases hm
  | readerStop =>
    simp only [rstep] at h
    cases hm : mainAbort n s.p with
    | none => rw [hm] at h; cases h
    | some p' =>
      rw [hm] at h
      simp only [Option.map_some, Option.some.injEq] at h
      subst h
      have hc := core_mainAbort (rcfg n g) s.p p' R.core hm
      have hh := tot_abort (c := rcfg n g) R.tot hm
      rcases hh with ⟨hk, ha, hw, ⟨k', hk1, hk2, ht⟩, htd⟩ | h0
      · have hpo : p'.popped = s.p.popped ∧ p'.werr = s.p.werr ∧ p'.wended = s.p.wended ∧ p'.aborted = true := by
          unfold mainAbort at hm
          split at hm
          · simp only [Option.some.injEq] at hm; subst hm; exact ⟨rfl, rfl, rfl, rfl⟩
          · cases hm
        obtain ⟨e1, e2, e3, e4⟩ := hpo
        have hple : s.p.popped ≤ s.p.hist.length := by
          have := R.core.nle; have := R.core.tle; unfold State.popped; omega
        have hne := R.wr.1 hw
        refine ⟨k', hc, ht, fun _ => e4, fun _ => by show p'.werr = true; rw [e2]; exact hw, by show p'.werr = true ↔ _; rw [e2]; exact R.wr,
          fun _ => htd, by show p'.wended = false; rw [e3]; exact R.wend, R.gotOk, fun h => absurd h hne, fun f e m h => ?_, fun h => ?_, R.why⟩
        · show (_ → _ ∧ p'.popped ≤ k') ∧ (_ → k' < p'.popped ∧ _ ∧ e = n - (p'.popped - k')) ∧ (_ → ∃ i, i < p'.popped ∧ _)
          rw [e1]
          obtain ⟨p1, p2, p3⟩ := R.pur f e m h
          refine ⟨fun h => ⟨(p1 h).1, by omega⟩, fun h => ?_, p3⟩
          have := (p2 h).1
          omega
        · show k' + n ≤ p'.popped ∨ _
          rcases R.jn h with h | h
          · omega
          · exact .inr h
      · have : n = 0 := h0
        omega
  | workerGet j =>
    simp only [rstep] at h
    cases hm : workerGet j s.p with
    | none => rw [hm] at h; cases h
    | some p' =>
      rw [hm] at h
      simp only [Option.map_some, Option.some.injEq] at h
      subst h
      have hc := core_workerGet (rcfg n g) s.p p' j R.core hm
      unfold workerGet at hm
      split at hm
      · rename_i it q w hq hk
        rcases w with ⟨st, err, exc⟩
        cases st <;> simp only [wkGet, Option.map_some, Option.map_none, Option.some.injEq, reduceCtorEq] at hm
        subst hm
        exact ⟨k, R.pipe hc R.tot rfl rfl R.holdT rfl rfl⟩
      · cases hm
  | workerProc j =>
    simp only [rstep] at h
    cases hm : workerProc (rcfg n g) j s.p with
    | none => unfold rcfg at hm; rw [hm] at h; cases h
    | some p' =>
      have hm2 := hm
      unfold rcfg at hm2
      rw [hm2] at h
      simp only [Option.map_some, Option.some.injEq] at h
      subst h
      have hc := core_workerProc (rcfg n g) s.p p' j R.core hm
      unfold workerProc at hm
      split at hm
      · rename_i w hk
        cases hp : wkProc (rcfg n g).kind (rcfg n g).f w with
        | none => rw [hp] at hm; cases hm
        | some r =>
          rw [hp] at hm
          simp only [Option.map_some, Option.some.injEq] at hm
          subst hm
          exact ⟨k, R.pipe hc R.tot rfl rfl R.holdT rfl rfl⟩
      · cases hm
  | workerPush j =>
    simp only [rstep] at h
    cases hm : workerPush n j s.p with
    | none => rw [hm] at h; cases h
    | some p' =>
      rw [hm] at h
      simp only [Option.map_some, Option.some.injEq] at h
      subst h
      have hc := core_workerPush (rcfg n g) s.p p' j R.core hm
      unfold workerPush at hm
      split at hm
      · rename_i w hk
        split at hm
        · rename_i i o hst
          by_cases hmp : mayPush (ratelierSize n) s.p.next s.p.table i = true
          · rw [if_pos hmp] at hm
            simp only [Option.some.injEq] at hm
            subst hm
            exact ⟨k, R.pipe hc R.tot rfl rfl R.holdT rfl rfl⟩
          · rw [if_neg hmp] at hm; cases hm
        · cases hm
      · cases hm
  | gather =>
    have hg : ∃ p', gather s.p = some p' ∧ s' = { s with p := p' } := by
      simp only [rstep, rgather] at h
      cases hm : gather s.p with
      | none => rw [hm] at h; split at h <;> cases h
      | some p' =>
        rw [hm] at h
        refine ⟨p', rfl, ?_⟩
        split at h
        · cases h
        · simpa using h.symm
    obtain ⟨p', hm, rfl⟩ := hg
    have hc := core_gather (rcfg n g) s.p p' R.core hm
    unfold gather at hm
    split at hm
    · rename_i x hb he hx
      simp only [Option.some.injEq] at hm
      subst hm
      obtain ⟨h1, -⟩ := takeRun_spec s.p.table.length s.p.next s.p.table
      generalize takeRun s.p.table.length s.p.next s.p.table = r at *
      refine ⟨k, R.pipe hc R.tot rfl rfl R.holdT ?_ rfl⟩
      show r.2.1 - r.1.length = s.p.next - s.p.wbuf.length
      rw [hb, h1]; simp
    · cases hm
  | consume =>
    simp only [rstep, consume] at h
    split at h
    · rename_i o rest hph hb
      simp only [Option.some.injEq] at h
      subst h
      exact ⟨k, rd_consumeRead hn R hph hb⟩
    · rename_i f e m o rest hph hb
      simp only [Option.some.injEq] at h
      subst h
      exact ⟨k, rd_consumePurge hn R hph hb⟩
    · cases h
  | ask =>
    simp only [rstep, ask] at h
    split at h
    · rename_i hph
      simp only [Option.some.injEq] at h
      subst h
      obtain ⟨r1, r2, r3, r4, r5⟩ := R.rd hph
      refine ⟨k, core_flag R.core true, R.tot, R.full, fun _ => rfl, ⟨fun _ h => (by cases h), fun _ => rfl⟩, R.holdT, R.wend, R.gotOk,
        fun h => absurd (show Phase.purge true n false = Phase.reading from h) (by simp), fun f e m h => ?_, fun h => absurd (show Phase.purge true n false = Phase.join from h) (by simp), fun _ => .inl rfl⟩
      have h : Phase.purge true n false = Phase.purge f e m := h
      cases h
      exact ⟨fun _ => ⟨rfl, r2⟩, (fun h => by cases h), (fun h => by cases h)⟩
    · cases h

theorem rd_run {n : Nat} (hn : 0 < n) {g : Nat → β → Outcome γ} {tail : Tail} {blocks : List β} (as : List RAction) :
    ∀ (s s' : RState β γ), (∃ k, Rd n g tail blocks k s) → rrun n g tail s as = some s' → ∃ k, Rd n g tail blocks k s' := by
  induction as with
  | nil => intro s s' H h; simp only [rrun, Option.some.injEq] at h; subst h; exact H
  | cons a as ih =>
    intro s s' H h
    unfold rrun at h
    cases hs : rstep n g tail s a with
    | none => rw [hs] at h; cases h
    | some s1 =>
      rw [hs] at h
      obtain ⟨k, R⟩ := H
      exact ih s1 s' (rd_step hn R hs) h

theorem rd_reach {n : Nat} (hn : 0 < n) {g : Nat → β → Outcome γ} {tail : Tail} {blocks : List β} {as : List RAction} {s : RState β γ}
    (h : rrun n g tail (RState.init n blocks) as = some s) : ∃ k, Rd n g tail blocks k s :=
  rd_run hn as _ _ ⟨_, rd_init n hn g tail blocks⟩ h

end Dar.Par
