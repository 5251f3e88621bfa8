import Verif.Lemmas.Parallel3
import Verif.Spec.Parallel
/- Progress and termination of the parallel writing pipeline. -/
namespace Dar.Par
variable {β γ : Type}

theorem exists_pos_of_sum {α : Type} (g : α → Nat) : ∀ (l : List α), 0 < (l.map g).sum → ∃ (k : Nat) (w : α), l[k]? = some w ∧ 0 < g w := by
  intro l
  induction l with
  | nil => intro h; simp at h
  | cons a l ih =>
    intro h
    by_cases ha : 0 < g a
    · exact ⟨0, a, rfl, ha⟩
    · simp only [List.map_cons, List.sum_cons] at h
      obtain ⟨k, w, h1, h2⟩ := ih (by omega)
      exact ⟨k + 1, w, by simpa using h1, h2⟩

theorem le_sum_of_get {α : Type} (g : α → Nat) : ∀ (l : List α) (w : α), w ∈ l → g w ≤ (l.map g).sum := by
  intro l
  induction l with
  | nil => intro w h; simp at h
  | cons a l ih =>
    intro w h
    simp only [List.map_cons, List.sum_cons]
    rcases List.mem_cons.1 h with h | h
    · subst h; omega
    · have := ih w h; omega

theorem sum_le_length {α : Type} (g : α → Nat) (hg : ∀ w, g w ≤ 1) : ∀ (l : List α), (l.map g).sum ≤ l.length := by
  intro l
  induction l with
  | nil => simp
  | cons a l ih =>
    simp only [List.map_cons, List.sum_cons, List.length_cons]
    have := hg a; omega

theorem all_of_sum {α : Type} (g : α → Nat) (hg : ∀ w, g w ≤ 1) : ∀ (l : List α), (l.map g).sum = l.length → ∀ w ∈ l, g w = 1 := by
  intro l
  induction l with
  | nil => intro _ w h; simp at h
  | cons a l ih =>
    intro h w hw
    simp only [List.map_cons, List.sum_cons, List.length_cons] at h
    have h1 := hg a
    have h2 := sum_le_length g hg l
    rcases List.mem_cons.1 hw with e | e
    · subst e; omega
    · exact ih (by omega) w e

theorem wDie_le (w : Wk β γ) : wDie w ≤ 1 := by unfold wDie; split <;> omega
theorem wBusy_le (w : Wk β γ) : wBusy w ≤ 1 := by unfold wBusy; split <;> omega

/-- orders to stop among the first t blocks sent -/
theorem dies_take (blocks : List β) (k n t : Nat) (hk : k ≤ blocks.length) (ht : t ≤ k + n) :
    ((((blocks.take k).map Item.data ++ List.replicate n Item.die).take t).map Item.dieN).sum = t - k := by
  have hl : ((blocks.take k).map (Item.data (β := β))).length = k := by
    rw [List.length_map, List.length_take]; omega
  have hz : ∀ l : List β, ((l.map Item.data).map Item.dieN).sum = 0 := by
    intro l
    induction l with
    | nil => rfl
    | cons a l ih => simp only [List.map_cons, List.sum_cons, ih]; rfl
  have ho : ∀ m, ((List.replicate m (Item.die : Item β)).map Item.dieN).sum = m := by
    intro m
    induction m with
    | zero => rfl
    | succ m ih =>
      rw [List.replicate_succ, List.map_cons, List.sum_cons, ih, show Item.dieN (Item.die : Item β) = 1 from rfl]; omega
  rw [List.take_append, List.map_append, List.sum_append, hl, List.take_replicate, ho, ← List.map_take, hz]
  omega

theorem Wri.dies {c : Cfg β γ} {blocks : List β} {k : Nat} {s : State β γ} (W : Wri c blocks k s) {t : Nat} (ht : t ≤ s.hist.length) :
    ((s.hist.take t).map Item.dieN).sum = t - k := by
  have e : s.hist.take t = (s.hist ++ s.todo).take t := by rw [List.take_append_of_le_length ht]
  have := W.histLen
  rw [e, W.tot, dies_take _ _ _ _ W.kle (by omega)]

theorem heapSize_eq (n : Nat) : heapSize n = 3 * ratelierSize n + n + 3 := by unfold heapSize; omega

theorem Core.heap_pos {c : Cfg β γ} {s : State β γ} (H : Core c s) (hl : s.lost = []) (hh : s.hold = false) : 0 < s.heap := by
  have h1 := H.heapEq
  have h2 := sum_le_length wBusy wBusy_le s.ws
  have h3 := H.wlen
  have h4 := H.tcap
  have h5 := H.qcap
  have h6 := H.bcap
  have h7 := heapSize_eq c.n
  rw [hl, hh] at h1
  simp only [Bool.toNat_false, List.length_nil] at h1
  omega

theorem idle_of_noidx {w : Wk β γ} (h : ∀ i, wIdx i w = 0) : w.st = .idle ∨ w.st = .ended := by
  rcases w with ⟨st, err, exc⟩
  cases st with
  | idle => exact .inl rfl
  | ended => exact .inr rfl
  | hold i it => have := h i; simp [wIdx] at this
  | ready i o => have := h i; simp [wIdx] at this

/-- when everything sent was gathered, no worker holds anything -/
theorem Core.workers_free {c : Cfg β γ} {s : State β γ} (H : Core c s) (h : s.next = s.taken) : ∀ w ∈ s.ws, w.st = .idle ∨ w.st = .ended := by
  intro w hw
  refine idle_of_noidx fun i => ?_
  have a := H.cnt i
  rw [h, ind_out (by omega)] at a
  have := le_sum_of_get (wIdx i) s.ws w hw
  omega

theorem ended_of_die {w : Wk β γ} (h : w.st = .idle ∨ w.st = .ended) (hd : wDie w = 1) : w.st = .ended := by
  rcases h with h | h
  · unfold wDie at hd; rw [h] at hd; cases hd
  · exact h

theorem final_of_ended {c : Cfg β γ} {blocks : List β} {k : Nat} {s : State β γ} (hn : 0 < c.n) (H : Core c s) (W : Wri c blocks k s)
    (he : s.wended = true) : s.final = true := by
  have h0 := W.fin he
  have h1 := W.endEq
  have h2 := W.histLen
  have h3 := H.nle
  have h4 := H.tle
  have hp : s.popped ≤ s.next := by unfold State.popped; omega
  have e1 : s.next = s.taken := by omega
  have e2 : s.taken = s.hist.length := by omega
  have e3 : s.todo = [] := List.eq_nil_of_length_eq_zero (by omega)
  have hd := H.dies
  rw [W.dies H.tle] at hd
  have hall := all_of_sum wDie wDie_le s.ws (by rw [hd, H.wlen]; omega)
  have hfree := H.workers_free e1
  unfold State.final
  rw [he, e3]
  simp only [List.isEmpty_nil, Bool.and_self, Bool.true_and, List.all_eq_true]
  intro w hw
  rw [ended_of_die (hfree w hw) (hall w hw)]

/-- the writer never stays in `gather` with nothing to come -/
theorem progress {c : Cfg β γ} {blocks : List β} {k : Nat} {s : State β γ} (hn : 0 < c.n) (H : Core c s) (W : Wri c blocks k s)
    (hl : s.lost = []) (hne : ¬ (c.kind = .zip ∧ c.eofFails = true ∧ s.out.length = blocks.length))
    (hstuck : ∀ a, step c s a = none) : s.final = true := by
  by_cases he : s.wended = true
  · exact final_of_ended hn H W he
  · exfalso
    have he : s.wended = false := by simpa using he
    have hcap := ratelierSize_pos hn
    have hend : s.ending ≠ 0 := by
      intro h
      rcases W.fin2 h with h | ⟨h1, h2, h3, h4⟩
      · rw [he] at h; cases h
      · exact hne ⟨h1, h2, h4⟩
    obtain ⟨e, hend'⟩ : ∃ e, s.ending = e + 1 := ⟨s.ending - 1, by omega⟩
    -- nothing in the writer's buffer
    have hwb : s.wbuf = [] := by
      cases hb : s.wbuf with
      | nil => rfl
      | cons o rest =>
        exfalso
        have := hstuck .write
        simp only [step, write, he, hend', hb] at this
        cases o <;> simp at this
    have hfind : s.table.find? (fun x => x.1 = s.next) = none := by
      cases hf : s.table.find? (fun x => x.1 = s.next) with
      | none => rfl
      | some x =>
        exfalso
        have := hstuck .gather
        simp only [step, gather, he, hwb, hf] at this
        simp at this
    have hnot : ∀ x ∈ s.table, x.1 ≠ s.next := by
      intro x hx e
      have := List.find?_eq_none.1 hfind x hx
      simp [e] at this
    have hpop : s.popped = s.next := by unfold State.popped; rw [hwb]; rfl
    have h1 := W.endEq
    rw [hpop] at h1
    have h2 := W.histLen
    have h3 := H.nle
    have h4 := H.tle
    by_cases hlt : s.next < s.taken
    · -- the expected block is with a worker
      have a := H.cnt s.next
      rw [ind_in (Nat.le_refl _) hlt, hl] at a
      have hc0 : s.table.countP (fun x => x.1 = s.next) = 0 := by
        rw [List.countP_eq_zero]
        intro x hx; simpa using hnot x hx
      rw [hc0] at a
      obtain ⟨j, w, hj, hw⟩ := exists_pos_of_sum (wIdx s.next) s.ws (by simp at a; omega)
      rcases w with ⟨st, err, exc⟩
      cases st with
      | idle => simp [wIdx] at hw
      | ended => simp [wIdx] at hw
      | hold i it =>
        have := hstuck (.workerProc j)
        simp only [step, workerProc, hj] at this
        cases it <;> simp [wkProc] at this
      | ready i o =>
        have hi : i = s.next := by
          by_cases e : i = s.next
          · exact e
          · simp [wIdx, e] at hw
        subst hi
        have := hstuck (.workerPush j)
        simp only [step, workerPush, hj] at this
        have hm : mayPush (ratelierSize c.n) s.next s.table s.next = true := by
          unfold mayPush
          have : s.table.length + 1 ≤ ratelierSize c.n := by
            rcases Nat.lt_or_ge s.table.length (ratelierSize c.n) with h | h
            · exact h
            · obtain ⟨x, hx, e⟩ := H.tfull h
              exact absurd e (hnot x hx)
          simp [this]
        rw [if_pos hm] at this
        cases this
    · have e1 : s.next = s.taken := by omega
      have hfree := H.workers_free e1
      cases hq : s.queue with
      | cons it q =>
        -- some worker is waiting
        have hd := H.dies
        rw [W.dies H.tle] at hd
        have hex : ∃ w ∈ s.ws, w.st = .idle := by
          by_cases hx : ∃ w ∈ s.ws, w.st = .idle
          · exact hx
          · exfalso
            have hall : ∀ w ∈ s.ws, wDie w = 1 := by
              intro w hw
              rcases hfree w hw with h | h
              · exact absurd ⟨w, hw, h⟩ hx
              · unfold wDie; rw [h]
            have : (s.ws.map wDie).sum = s.ws.length := by
              have : s.ws.map wDie = List.replicate s.ws.length 1 := by
                rw [List.eq_replicate_iff]
                refine ⟨by simp, ?_⟩
                intro x hx
                obtain ⟨w, hw, rfl⟩ := List.mem_map.1 hx
                exact hall w hw
              rw [this]; simp
            rw [H.wlen] at this
            omega
        obtain ⟨w, hw, hst⟩ := hex
        obtain ⟨j, hj⟩ := List.mem_iff_getElem?.1 hw
        have := hstuck (.workerGet j)
        simp only [step, workerGet, hq, hj, wkGet, hst] at this
        simp at this
      | nil =>
        have hdrop := H.que
        rw [hq, List.drop_eq_nil_iff] at hdrop
        cases ht : s.todo with
        | nil => rw [ht] at h2; simp at h2; omega
        | cons it rest =>
          by_cases hh : s.hold = true
          · have := hstuck .mainScatter
            simp only [step, mainScatter, ht, hh, hq] at this
            rw [if_pos (by simpa using hcap)] at this
            cases this
          · have hh : s.hold = false := by simpa using hh
            have hp := H.heap_pos hl hh
            obtain ⟨m, hm⟩ : ∃ m, s.heap = m + 1 := ⟨s.heap - 1, by omega⟩
            have := hstuck .mainGet
            simp only [step, mainGet, ht, hh, hm] at this
            cases this

/-! #### Termination -/

def wMeasure (w : Wk β γ) : Nat :=
  match w.st with
  | .hold _ _ => 4
  | .ready _ _ => 3
  | _ => 0

/-- what remains to be done -/
def State.measure (s : State β γ) : Nat :=
  7 * s.todo.length + (!s.hold).toNat + 5 * s.queue.length + (s.ws.map wMeasure).sum + 2 * s.table.length + s.wbuf.length +
    (!s.werr).toNat + 2 * (!s.aborted).toNat

theorem measure_step' {c : Cfg β γ} {s s' : State β γ} {a : Action}
    (hT : ∀ b rest, s.todo = .data b :: rest → c.n + 1 ≤ s.todo.length)
    (h : step c s a = some s') : s'.measure + 1 ≤ s.measure := by
  cases a with
  | mainGet =>
    simp only [step, mainGet] at h
    split at h
    · rename_i it rest hp ht hh hk
      simp only [Option.some.injEq] at h
      subst h
      simp only [State.measure, hh, Bool.not_true, Bool.not_false, Bool.toNat_true, Bool.toNat_false]
      omega
    · cases h
  | mainScatter =>
    simp only [step, mainScatter] at h
    split at h
    · rename_i it rest ht hh
      by_cases hq : s.queue.length < ratelierSize c.n
      · rw [if_pos hq] at h
        simp only [Option.some.injEq] at h
        subst h
        simp only [State.measure, hh, ht, List.length_append, List.length_cons, List.length_nil, Bool.not_true, Bool.not_false,
          Bool.toNat_true, Bool.toNat_false]
        omega
      · rw [if_neg hq] at h; cases h
    · cases h
  | mainAbort =>
    simp only [step, mainAbort] at h
    split at h
    · rename_i b rest hab hw ht
      simp only [Option.some.injEq] at h
      subst h
      have hlen := hT b rest ht
      simp only [State.measure, hab, List.length_append, List.length_replicate, Bool.not_true, Bool.not_false, Bool.toNat_true, Bool.toNat_false]
      have : (if s.hold = true then [Item.data b] else []).length ≤ 1 := by split <;> simp
      omega
    · cases h
  | workerGet j =>
    simp only [step, workerGet] at h
    split at h
    · rename_i it q w hq hk
      rcases w with ⟨st, err, exc⟩
      cases st <;> simp only [wkGet, Option.map_some, Option.map_none, Option.some.injEq, reduceCtorEq] at h
      subst h
      have b := sum_map_set wMeasure s.ws j (⟨.hold s.taken it, err, exc⟩ : Wk β γ) _ hk
      have e1 : wMeasure (⟨.idle, err, exc⟩ : Wk β γ) = 0 := rfl
      have e2 : wMeasure (⟨.hold s.taken it, err, exc⟩ : Wk β γ) = 4 := rfl
      rw [e1, e2] at b
      simp only [State.measure, hq, List.length_cons]
      omega
    · cases h
  | workerProc j =>
    simp only [step, workerProc] at h
    split at h
    · rename_i w hk
      cases hp : wkProc c.kind c.f w with
      | none => rw [hp] at h; cases h
      | some r =>
        rw [hp] at h
        simp only [Option.map_some, Option.some.injEq] at h
        subst h
        have b := sum_map_set wMeasure s.ws j r.1 _ hk
        obtain ⟨i, it, hst, hc⟩ := wkProc_cases hp
        have e1 : wMeasure w = 4 := by unfold wMeasure; rw [hst]
        have e2 : wMeasure r.1 ≤ 3 := by
          rcases hc with ⟨o, -, e⟩ | ⟨-, e, -⟩
          · unfold wMeasure; rw [e]
          · rw [e]; simp [wMeasure]
        simp only [State.measure]
        omega
    · cases h
  | workerPush j =>
    simp only [step, workerPush] at h
    split at h
    · rename_i w hk
      split at h
      · rename_i i o hst
        by_cases hm : mayPush (ratelierSize c.n) s.next s.table i = true
        · rw [if_pos hm] at h
          simp only [Option.some.injEq] at h
          subst h
          have b := sum_map_set wMeasure s.ws j (wkPushed o w) _ hk
          have e1 : wMeasure w = 3 := by unfold wMeasure; rw [hst]
          have e2 : wMeasure (wkPushed o w) = 0 := by cases o <;> rfl
          rw [e1, e2] at b
          simp only [State.measure, List.length_append, List.length_singleton]
          omega
        · rw [if_neg hm] at h; cases h
      · cases h
    · cases h
  | gather =>
    simp only [step, gather] at h
    split at h
    · rename_i x hb he hx
      simp only [Option.some.injEq] at h
      subst h
      obtain ⟨-, h2, -⟩ := takeRun_spec s.table.length s.next s.table
      have hpos := takeRun_pos s.next s.table x hx
      generalize takeRun s.table.length s.next s.table = r at *
      simp only [State.measure, hb, List.length_nil]
      omega
    · cases h
  | write =>
    have hD : ∀ (x : Option γ) (o : Out γ) (rest : List (Out γ)), s.wbuf = o :: rest → (writeData c x rest s).measure + 1 ≤ s.measure := by
      intro x o rest hb
      unfold writeData
      by_cases hw : s.werr = true
      · rw [if_pos hw]
        simp only [State.measure, hb, List.length_cons]; omega
      · rw [if_neg hw]
        have hw : s.werr = false := by simpa using hw
        by_cases hs : c.sinkFails s.out.length = true
        · rw [if_pos hs]
          simp only [State.measure, hw, Bool.not_true, Bool.not_false, Bool.toNat_true, Bool.toNat_false]; omega
        · rw [if_neg hs]
          simp only [State.measure, hb, List.length_cons]; omega
    have hbool : ∀ b : Bool, (!b).toNat ≤ 1 := by intro b; cases b <;> simp
    simp only [step, write] at h
    split at h
    · rename_i he hn hb; simp only [Option.some.injEq] at h; subst h; exact hD _ _ _ hb
    · rename_i he hn hb; simp only [Option.some.injEq] at h; subst h; exact hD _ _ _ hb
    · rename_i he hn hb; simp only [Option.some.injEq] at h; subst h
      simp only [State.measure, hb, List.length_cons, Bool.not_true, Bool.toNat_false]; omega
    · rename_i he hn hb; simp only [Option.some.injEq] at h; subst h
      simp only [State.measure, hb, List.length_cons, Bool.not_true, Bool.toNat_false]; omega
    · rename_i he hn hb; simp only [Option.some.injEq] at h; subst h
      unfold writeDie
      dsimp only
      split
      · split <;> (simp only [State.measure, hb, List.length_cons, Bool.not_true, Bool.toNat_false]; omega)
      · simp only [State.measure, hb, List.length_cons]; omega
    · cases h

theorem measure_step {c : Cfg β γ} {blocks : List β} {k : Nat} {s s' : State β γ} {a : Action} (W : Wri c blocks k s)
    (h : step c s a = some s') : s'.measure + 1 ≤ s.measure := by
  refine measure_step' (fun b rest ht => ?_) h
  have hl := W.histLen
  have e : (s.hist ++ s.todo)[s.hist.length]? = some (.data b) := by
    rw [ht, List.getElem?_append_right (Nat.le_refl _)]; simp
  rw [W.tot] at e
  have hl2 : ((blocks.take k).map (Item.data (β := β))).length = k := by
    rw [List.length_map, List.length_take]; have := W.kle; omega
  by_cases hi : s.hist.length < k
  · omega
  · exfalso
    rw [List.getElem?_append_right (by omega), List.getElem?_replicate] at e
    split at e <;> simp at e

theorem measure_run (c : Cfg β γ) (blocks : List β) (as : List Action) : ∀ (s s' : State β γ), (Core c s ∧ ∃ k, Wri c blocks k s) →
    run c s as = some s' → s'.measure + as.length ≤ s.measure := by
  induction as with
  | nil => intro s s' H h; simp only [run, Option.some.injEq] at h; subst h; simp
  | cons a as ih =>
    intro s s' H h
    unfold run at h
    cases hs : step c s a with
    | none => rw [hs] at h; cases h
    | some s1 =>
      rw [hs] at h
      obtain ⟨H1, k, W⟩ := H
      have h1 := measure_step W hs
      have h2 := ih s1 s' ⟨core_step c s s1 a H1 hs, wri_step H1 W hs⟩ h
      simp only [List.length_cons]
      omega

/-! #### The sequential result -/

theorem seqWrite_spec (c : Cfg β γ) : ∀ (blocks : List β) (j : Nat) (m : Nat),
    (∀ i, i < m → ∃ b y, blocks[i]? = some b ∧ c.f (j + i) b = .ok y ∧ c.sinkFails (j + i) = false ∧ (seqWrite c j blocks)[i]? = some y) ∨
    (∃ i, i < m ∧ ∀ b y, blocks[i]? = some b → c.f (j + i) b = .ok y → c.sinkFails (j + i) = true) := by
  intro blocks
  induction blocks with
  | nil =>
    intro j m
    by_cases hm : m = 0
    · exact .inl (by intro i hi; omega)
    · exact .inr ⟨0, by omega, by intro b y h; simp at h⟩
  | cons b bs ih =>
    intro j m
    cases m with
    | zero => exact .inl (by intro i hi; omega)
    | succ m =>
      cases hf : c.f j b with
      | range => exact .inr ⟨0, by omega, by intro b' y h h2; simp at h; subst h; rw [Nat.add_zero, hf] at h2; cases h2⟩
      | other => exact .inr ⟨0, by omega, by intro b' y h h2; simp at h; subst h; rw [Nat.add_zero, hf] at h2; cases h2⟩
      | ok x =>
        by_cases hs : c.sinkFails j = true
        · exact .inr ⟨0, by omega, by intro b' y h h2; simpa using hs⟩
        · have e : seqWrite c j (b :: bs) = x :: seqWrite c (j + 1) bs := by
            simp only [seqWrite, hf, hs]; rfl
          rw [e]
          rcases ih (j + 1) m with h | ⟨i, hi, h⟩
          · refine .inl fun i hi => ?_
            cases i with
            | zero => exact ⟨b, x, rfl, by simpa using hf, by simpa using hs, rfl⟩
            | succ i =>
              obtain ⟨b', y, h1, h2, h3, h4⟩ := h i (by omega)
              rw [show j + 1 + i = j + (i + 1) by omega] at h2 h3
              exact ⟨b', y, by simpa using h1, h2, h3, by simpa using h4⟩
          · refine .inr ⟨i + 1, by omega, ?_⟩
            rw [show j + 1 + i = j + (i + 1) by omega] at h
            intro b' y h1; exact h b' y (by simpa using h1)

/-- the length of the sequential result: either all blocks, or the first failing one -/
theorem seqWrite_end (c : Cfg β γ) : ∀ (blocks : List β) (j m : Nat) (b : β), m = (seqWrite c j blocks).length → blocks[m]? = some b →
    (∀ x, c.f (j + m) b ≠ .ok x) ∨ c.sinkFails (j + m) = true := by
  intro blocks
  induction blocks with
  | nil => intro j m b _ h; simp at h
  | cons b bs ih =>
    intro j m b' hm h
    cases hf : c.f j b with
    | range =>
      simp only [seqWrite, hf, List.length_nil] at hm
      subst hm; simp at h; subst h
      exact .inl (by intro x e; rw [Nat.add_zero, hf] at e; cases e)
    | other =>
      simp only [seqWrite, hf, List.length_nil] at hm
      subst hm; simp at h; subst h
      exact .inl (by intro x e; rw [Nat.add_zero, hf] at e; cases e)
    | ok x =>
      by_cases hs : c.sinkFails j = true
      · simp only [seqWrite, hf, hs, if_true, List.length_nil] at hm
        subst hm
        exact .inr (by simpa using hs)
      · have e : seqWrite c j (b :: bs) = x :: seqWrite c (j + 1) bs := by
          simp only [seqWrite, hf, hs]; rfl
        rw [e, List.length_cons] at hm
        subst hm
        have := ih (j + 1) _ b' rfl (by simpa using h)
        rwa [show j + 1 + (seqWrite c (j + 1) bs).length = j + ((seqWrite c (j + 1) bs).length + 1) by omega] at this

theorem seqWrite_le (c : Cfg β γ) : ∀ (blocks : List β) (j : Nat), (seqWrite c j blocks).length ≤ blocks.length := by
  intro blocks
  induction blocks with
  | nil => intro j; simp [seqWrite]
  | cons b bs ih =>
    intro j
    unfold seqWrite
    split
    · split
      · simp
      · have := ih (j + 1); simp; omega
    · simp

/-- what was written is the beginning of the sequential result -/
theorem Wri.out_eq {c : Cfg β γ} {blocks : List β} {k : Nat} {s : State β γ} (W : Wri c blocks k s) :
    s.out = ((seqWrite c 0 blocks).take s.out.length).map some ∧ s.out.length ≤ (seqWrite c 0 blocks).length := by
  have key : ∀ i, i < s.out.length → ∃ y, s.out[i]? = some (some y) ∧ (seqWrite c 0 blocks)[i]? = some y := by
    rcases seqWrite_spec c blocks 0 s.out.length with h | ⟨i, hi, h⟩
    · intro i hi
      obtain ⟨b, y, h1, h2, h3, h4⟩ := h i hi
      obtain ⟨b', y', g1, g2, g3, g4⟩ := W.outOk i _ (List.getElem?_eq_getElem hi)
      rw [h1] at g1; cases g1
      rw [Nat.zero_add, g2] at h2
      have e : y' = y := by injection h2
      exact ⟨y, by rw [List.getElem?_eq_getElem hi, g4, e], h4⟩
    · exfalso
      obtain ⟨b', y', g1, g2, g3, g4⟩ := W.outOk i _ (List.getElem?_eq_getElem hi)
      rw [Nat.zero_add] at h
      have := h b' y' g1 g2
      rw [g3] at this; cases this
  have hlen : s.out.length ≤ (seqWrite c 0 blocks).length := by
    by_cases h0 : s.out.length = 0
    · omega
    · obtain ⟨y, -, h⟩ := key (s.out.length - 1) (by omega)
      have := (List.getElem?_eq_some_iff.1 h).1
      omega
  refine ⟨?_, hlen⟩
  apply List.ext_getElem?
  intro i
  by_cases hi : i < s.out.length
  · obtain ⟨y, h1, h2⟩ := key i hi
    rw [h1, List.getElem?_map, List.getElem?_take, if_pos hi, h2]; rfl
  · rw [List.getElem?_eq_none (by omega), List.getElem?_eq_none (by simp; omega)]

end Dar.Par
