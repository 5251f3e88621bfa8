import Verif.Lemmas.Parallel
/- Invariant of the parallel writing pipeline: the exchange structures. -/
namespace Dar.Par
variable {β γ : Type}

structure Core (c : Cfg β γ) (s : State β γ) : Prop where
  que : s.hist.drop s.taken = s.queue
  tle : s.taken ≤ s.hist.length
  cnt : ∀ i, (s.ws.map (wIdx i)).sum + s.table.countP (fun x => x.1 = i) + s.lost.count i = ind s.next s.taken i
  nle : s.next ≤ s.taken
  wlen : s.ws.length = c.n
  wk : ∀ w ∈ s.ws, WkOk c s.hist (ExcSome s.ws) s.taken w
  tab : ∀ x ∈ s.table, OutOk c s.hist (ExcSome s.ws) x.1 x.2
  dies : (s.ws.map wDie).sum = ((s.hist.take s.taken).map Item.dieN).sum
  lst : ∀ i ∈ s.lost, c.kind = .crypto ∧ ∃ b, s.hist[i]? = some (.data b) ∧ c.f i b = .other
  tcap : s.table.length ≤ ratelierSize c.n
  tfull : ratelierSize c.n ≤ s.table.length → ∃ x ∈ s.table, x.1 = s.next
  qcap : s.queue.length ≤ ratelierSize c.n
  buf : s.wbuf.length ≤ s.next
  bufOk : ∀ (j : Nat) (o : Out γ), s.wbuf[j]? = some o → OutOk c s.hist (ExcSome s.ws) (s.next - s.wbuf.length + j) o
  bcap : s.wbuf.length ≤ ratelierSize c.n
  heapEq : s.heap + s.hold.toNat + s.queue.length + (s.ws.map wBusy).sum + s.table.length + s.wbuf.length + s.lost.length
    = heapSize c.n

theorem sum_replicate_zero' {α : Type} (g : α → Nat) (x : α) (h : g x = 0) (n : Nat) : ((List.replicate n x).map g).sum = 0 := by
  induction n with
  | zero => rfl
  | succ n ih => rw [List.replicate_succ, List.map_cons, List.sum_cons, ih, h]

theorem ratelierSize_pos {n : Nat} (h : 0 < n) : 0 < ratelierSize n := by unfold ratelierSize; omega

theorem core_init (c : Cfg β γ) (hn : 0 < c.n) (blocks : List β) : Core c (State.init c.n blocks : State β γ) := by
  have hr := ratelierSize_pos hn
  refine ⟨?_, ?_, ?_, ?_, ?_, ?_, ?_, ?_, ?_, ?_, ?_, ?_, ?_, ?_, ?_, ?_⟩
  · rfl
  · exact Nat.le_refl _
  · intro i
    have e : ind (State.init c.n blocks : State β γ).next (State.init c.n blocks : State β γ).taken i = 0 := by
      apply ind_out; simp only [State.init]; omega
    rw [e]
    show (List.map (wIdx i) (List.replicate c.n (⟨.idle, .fine, false⟩ : Wk β γ))).sum + 0 + 0 = 0
    rw [sum_replicate_zero' (wIdx i) _ rfl]
  · exact Nat.le_refl _
  · simp [State.init]
  · intro w hw
    rw [State.init] at hw
    have := List.eq_of_mem_replicate hw
    subst this
    exact ⟨by simp, by simp, by simp, trivial⟩
  · intro x hx; simp [State.init] at hx
  · show (List.map wDie (List.replicate c.n (⟨.idle, .fine, false⟩ : Wk β γ))).sum = 0
    rw [sum_replicate_zero' wDie _ rfl]
  · intro i hi; simp [State.init] at hi
  · exact Nat.zero_le _
  · intro h; simp [State.init] at h; omega
  · exact Nat.zero_le _
  · exact Nat.zero_le _
  · intro j o h; simp [State.init] at h
  · exact Nat.zero_le _
  · show heapSize c.n + 0 + 0 + (List.map wBusy (List.replicate c.n (⟨.idle, .fine, false⟩ : Wk β γ))).sum + 0 + 0 + 0 = _
    try dsimp only
    rw [sum_replicate_zero' wBusy _ rfl]
    rfl

theorem core_mainGet (c : Cfg β γ) (s s' : State β γ) (H : Core c s) (h : mainGet s = some s') : Core c s' := by
  unfold mainGet at h
  split at h
  · rename_i it rest hp ht hh hk
    simp only [Option.some.injEq] at h
    subst h
    refine ⟨H.que, H.tle, H.cnt, H.nle, H.wlen, H.wk, H.tab, H.dies, H.lst, H.tcap, H.tfull, H.qcap, H.buf, H.bufOk, H.bcap, ?_⟩
    have := H.heapEq
    rw [hh, hk] at this
    simp only [Bool.toNat_false, Bool.toNat_true] at this ⊢
    omega
  · cases h

theorem getElem?_append_mono {α : Type} (l m : List α) : ∀ (i : Nat) (x : α), l[i]? = some x → (l ++ m)[i]? = some x := by
  intro i x h
  have : i < l.length := by
    rw [List.getElem?_eq_some_iff] at h
    exact h.1
  rw [List.getElem?_append_left this]; exact h

theorem core_mainScatter (c : Cfg β γ) (s s' : State β γ) (H : Core c s) (h : mainScatter c.n s = some s') : Core c s' := by
  unfold mainScatter at h
  split at h
  · rename_i it rest ht hh
    by_cases hq : s.queue.length < ratelierSize c.n
    · rw [if_pos hq] at h
      simp only [Option.some.injEq] at h
      subst h
      have hm := getElem?_append_mono s.hist [it]
      refine ⟨?_, ?_, H.cnt, H.nle, H.wlen, fun w hw => (H.wk w hw).mono hm id (Nat.le_refl _),
        fun x hx => (H.tab x hx).mono hm id, ?_, fun i hi => ?_, H.tcap, H.tfull, ?_, H.buf,
        fun j o ho => (H.bufOk j o ho).mono hm id, H.bcap, ?_⟩
      · show (s.hist ++ [it]).drop s.taken = s.queue ++ [it]
        rw [List.drop_append_of_le_length H.tle, H.que]
      · show s.taken ≤ (s.hist ++ [it]).length
        have := H.tle
        simp; omega
      · show _ = (((s.hist ++ [it]).take s.taken).map Item.dieN).sum
        rw [List.take_append_of_le_length H.tle]; exact H.dies
      · obtain ⟨a, b, h1, h2⟩ := H.lst i hi
        exact ⟨a, b, hm _ _ h1, h2⟩
      · show (s.queue ++ [it]).length ≤ _
        try dsimp only
        simp; omega
      · have := H.heapEq
        rw [hh] at this
        simp only [Bool.toNat_true, Bool.toNat_false, List.length_append, List.length_singleton] at this ⊢
        omega
    · rw [if_neg hq] at h; cases h
  · cases h

theorem core_mainAbort (c : Cfg β γ) (s s' : State β γ) (H : Core c s) (h : mainAbort c.n s = some s') : Core c s' := by
  unfold mainAbort at h
  split at h
  · simp only [Option.some.injEq] at h
    subst h
    exact ⟨H.que, H.tle, H.cnt, H.nle, H.wlen, H.wk, H.tab, H.dies, H.lst, H.tcap, H.tfull, H.qcap, H.buf, H.bufOk, H.bcap, H.heapEq⟩
  · cases h

theorem excSome_set {ws : List (Wk β γ)} {k : Nat} {w w' : Wk β γ} (hk : ws[k]? = some w) (he : w.exc = true → w'.exc = true)
    (H : ExcSome ws) : ExcSome (ws.set k w') := by
  obtain ⟨v, hv, hx⟩ := H
  obtain ⟨j, hj⟩ := List.mem_iff_getElem?.1 hv
  by_cases e : k = j
  · subst e
    rw [hk] at hj
    cases hj
    have hlt : k < ws.length := (List.getElem?_eq_some_iff.1 hk).1
    exact ⟨w', List.mem_iff_getElem?.2 ⟨k, by rw [List.getElem?_set_self hlt]⟩, he hx⟩
  · exact ⟨v, List.mem_iff_getElem?.2 ⟨j, by rw [List.getElem?_set_ne e]; exact hj⟩, hx⟩

theorem mem_set_self {α : Type} {l : List α} {k : Nat} {w w' : α} (hk : l[k]? = some w) : w' ∈ l.set k w' := by
  have hlt : k < l.length := (List.getElem?_eq_some_iff.1 hk).1
  exact List.mem_iff_getElem?.2 ⟨k, by rw [List.getElem?_set_self hlt]⟩

theorem core_workerGet (c : Cfg β γ) (s s' : State β γ) (k : Nat) (H : Core c s) (h : workerGet k s = some s') : Core c s' := by
  unfold workerGet at h
  split at h
  · rename_i it q w hq hk
    rcases w with ⟨st, err, exc⟩
    cases st <;> simp only [wkGet, Option.map_some, Option.map_none, Option.some.injEq, reduceCtorEq] at h
    subst h
    have hd : s.hist[s.taken]? = some it := by
      have := H.que
      rw [hq] at this
      have e := congrArg (fun l => l[0]?) this
      simpa using e
    have hlt : s.taken < s.hist.length := (List.getElem?_eq_some_iff.1 hd).1
    have hE : ExcSome s.ws → ExcSome (s.ws.set k ⟨.hold s.taken it, err, exc⟩) := excSome_set hk (fun h => h)
    have hwk := H.wk _ (List.mem_iff_getElem?.2 ⟨k, hk⟩)
    refine ⟨?_, ?_, fun i => ?_, ?_, ?_, fun v hv => ?_, fun x hx => (H.tab x hx).mono (fun _ _ h => h) hE, ?_, H.lst, H.tcap, H.tfull, ?_, H.buf,
        fun j o ho => (H.bufOk j o ho).mono (fun _ _ h => h) hE, H.bcap, ?_⟩
    · show s.hist.drop (s.taken + 1) = q
      have := H.que
      rw [hq] at this
      rw [← List.tail_drop, this]; rfl
    · exact hlt
    · have a := H.cnt i
      have b := sum_map_set (wIdx i) s.ws k (⟨.hold s.taken it, err, exc⟩ : Wk β γ) _ hk
      have e1 : wIdx i (⟨.idle, err, exc⟩ : Wk β γ) = 0 := rfl
      have e2 : wIdx i (⟨.hold s.taken it, err, exc⟩ : Wk β γ) = if s.taken = i then 1 else 0 := rfl
      rw [e1, e2] at b
      show ((s.ws.set k _).map (wIdx i)).sum + _ + _ = ind s.next (s.taken + 1) i
      try dsimp only
      have hn := H.nle
      by_cases hi : s.taken = i
      · rw [if_pos hi] at b
        rw [ind_in (by omega) (by omega)]
        rw [ind_out (by omega)] at a
        omega
      · rw [if_neg hi] at b
        have : ind s.next (s.taken + 1) i = ind s.next s.taken i := by
          unfold ind; split <;> split <;> omega
        rw [this]; omega
    · have := H.nle
      show s.next ≤ s.taken + 1
      omega
    · show (s.ws.set k _).length = c.n
      rw [List.length_set]; exact H.wlen
    · rcases mem_set_iff' hv with hv | hv
      · exact (H.wk v hv).mono (fun _ _ h => h) hE (Nat.le_succ _)
      · subst hv
        obtain ⟨h1, h2, h2i, -⟩ := hwk
        refine ⟨fun e => ?_, h2, h2i, hd, fun e => ?_, Nat.lt_succ_self _⟩
        · obtain ⟨a, j, hj, hf⟩ := h1 e
          exact ⟨a, j, Nat.lt_succ_of_lt hj, hf⟩
        · obtain ⟨a, j, hj, hf⟩ := h1 e
          exact ⟨j, hj, hf⟩
    · have b := sum_map_set wDie s.ws k (⟨.hold s.taken it, err, exc⟩ : Wk β γ) _ hk
      have e1 : wDie (⟨.idle, err, exc⟩ : Wk β γ) = 0 := rfl
      have e2 : wDie (⟨.hold s.taken it, err, exc⟩ : Wk β γ) = it.dieN := by cases it <;> rfl
      rw [e1, e2] at b
      show ((s.ws.set k _).map wDie).sum = ((s.hist.take (s.taken + 1)).map Item.dieN).sum
      have hg : s.hist[s.taken] = it := (List.getElem?_eq_some_iff.1 hd).2
      rw [List.take_succ_eq_append_getElem hlt, hg, List.map_append, List.sum_append]
      have := H.dies
      simp only [List.map_cons, List.map_nil, List.sum_cons, List.sum_nil]
      omega
    · have := H.qcap
      rw [hq] at this
      simp only [List.length_cons] at this
      show q.length ≤ _
      try dsimp only
      omega
    · have b := sum_map_set wBusy s.ws k (⟨.hold s.taken it, err, exc⟩ : Wk β γ) _ hk
      have e1 : wBusy (⟨.idle, err, exc⟩ : Wk β γ) = 0 := rfl
      have e2 : wBusy (⟨.hold s.taken it, err, exc⟩ : Wk β γ) = 1 := rfl
      rw [e1, e2] at b
      have := H.heapEq
      rw [hq] at this
      simp only [List.length_cons] at this
      show s.heap + _ + q.length + ((s.ws.set k _).map wBusy).sum + _ + _ + _ = _
      try dsimp only
      omega
  · cases h

/-- what processing does to a worker -/
theorem wkProc_cases {kind : Kind} {f : Nat → β → Outcome γ} {w : Wk β γ} {r : Wk β γ × Option Nat} (h : wkProc kind f w = some r) :
    ∃ i it, w.st = .hold i it ∧
      ((∃ o, r.2 = none ∧ r.1.st = .ready i o) ∨
       (r.2 = some i ∧ r.1 = ⟨.idle, .inform, true⟩ ∧ kind = .crypto ∧ w.err = .fine ∧ ∃ b, it = .data b ∧ f i b = .other)) := by
  rcases w with ⟨st, err, exc⟩
  cases st with
  | idle => simp [wkProc] at h
  | ended => simp [wkProc] at h
  | ready i o => simp [wkProc] at h
  | hold i it =>
    refine ⟨i, it, rfl, ?_⟩
    cases it with
    | die => simp only [wkProc, Option.some.injEq] at h; subst h; exact .inl ⟨.die, rfl, rfl⟩
    | data b =>
      simp only [wkProc, Option.some.injEq] at h
      subst h
      cases err with
      | fine =>
        cases hf : f i b with
        | ok x => exact .inl ⟨_, rfl, rfl⟩
        | range => cases kind <;> exact .inl ⟨_, rfl, rfl⟩
        | other =>
          cases kind with
          | zip => exact .inl ⟨_, rfl, rfl⟩
          | crypto => exact .inr ⟨rfl, rfl, rfl, rfl, b, rfl, hf⟩
      | inform => exact .inl ⟨_, rfl, rfl⟩
      | sent => exact .inl ⟨_, rfl, rfl⟩

theorem core_workerProc (c : Cfg β γ) (s s' : State β γ) (k : Nat) (H : Core c s) (h : workerProc c k s = some s') : Core c s' := by
  unfold workerProc at h
  split at h
  · rename_i w hk
    cases hp : wkProc c.kind c.f w with
    | none => rw [hp] at h; cases h
    | some r =>
      rw [hp] at h
      simp only [Option.map_some, Option.some.injEq] at h
      subst h
      have hwk := H.wk w (List.mem_iff_getElem?.2 ⟨k, hk⟩)
      obtain ⟨i, it, hst, hc⟩ := wkProc_cases hp
      have hexc : w.exc = true → r.1.exc = true := by
        intro e
        rcases w with ⟨st, err, exc⟩
        simp only at hst e
        subst hst e
        cases it with
        | die => simp only [wkProc, Option.some.injEq] at hp; subst hp; rfl
        | data b =>
          simp only [wkProc, Option.some.injEq] at hp
          subst hp
          cases err <;> cases c.kind <;> cases c.f i b <;> rfl
      have hE : ExcSome s.ws → ExcSome (s.ws.set k r.1) := excSome_set hk hexc
      have hwi : ∀ m, wIdx m w = if i = m then 1 else 0 := by intro m; unfold wIdx; rw [hst]
      have hwb : wBusy w = 1 := by unfold wBusy; rw [hst]
      -- the new worker is sound
      have hnew : WkOk c s.hist (ExcSome (s.ws.set k r.1)) s.taken r.1 := by
        have hmem : r.1 ∈ s.ws.set k r.1 := mem_set_self hk
        rcases w with ⟨st, err, exc⟩
        simp only at hst
        subst hst
        obtain ⟨h1, h2, h2i, h3, h4, h5⟩ := hwk
        simp only at h1 h2 h2i h4
        cases it with
        | die =>
          simp only [wkProc, Option.some.injEq] at hp
          subst hp
          exact ⟨h1, h2, h2i, h3, h5⟩
        | data b =>
          simp only [wkProc, Option.some.injEq] at hp
          subst hp
          cases err with
          | fine =>
            cases hf : c.f i b with
            | ok x => exact ⟨by simp [wkData], h2, by simp [wkData], ⟨b, h3, hf⟩, h5⟩
            | range =>
              have hF : Fail c s.hist i := ⟨b, h3, fun x e => by rw [hf] at e; cases e⟩
              cases hkd : c.kind with
              | zip =>
                rw [hf, hkd] at hmem
                exact ⟨fun _ => ⟨rfl, i, h5, hF⟩, fun _ => ⟨i, hF⟩, by simp [wkData], ⟨⟨b, h3⟩, ⟨i, Nat.le_refl _, hF⟩, fun _ => hF, ⟨_, hmem, rfl⟩⟩, h5⟩
              | crypto => exact ⟨by simp [wkData], h2, by simp [wkData], ⟨hkd, b, h3, hf⟩, h5⟩
            | other =>
              have hF : Fail c s.hist i := ⟨b, h3, fun x e => by rw [hf] at e; cases e⟩
              cases hkd : c.kind with
              | zip =>
                rw [hf, hkd] at hmem
                exact ⟨fun _ => ⟨rfl, i, h5, hF⟩, fun _ => ⟨i, hF⟩, by simp [wkData], ⟨⟨b, h3⟩, ⟨i, Nat.le_refl _, hF⟩, fun _ => hF, ⟨_, hmem, rfl⟩⟩, h5⟩
              | crypto => exact ⟨fun _ => ⟨rfl, i, h5, hF⟩, fun _ => ⟨i, hF⟩, fun _ => hkd, trivial⟩
          | inform =>
            obtain ⟨e1, j, hj, hF⟩ := h1 (by simp)
            obtain ⟨j2, hj2, hF2⟩ := h4 (by simp)
            refine ⟨fun _ => ⟨e1, j, hj, hF⟩, h2, by simp [wkData], ⟨⟨b, h3⟩, ⟨j2, Nat.le_of_lt hj2, hF2⟩, fun e => absurd e (by rw [h2i rfl]; simp), ⟨_, hmem, e1⟩⟩, h5⟩
          | sent =>
            obtain ⟨e1, j, hj, hF⟩ := h1 (by simp)
            obtain ⟨j2, hj2, hF2⟩ := h4 (by simp)
            refine ⟨fun _ => ⟨e1, j, hj, hF⟩, h2, by simp [wkData], ⟨⟨b, h3⟩, ⟨j2, hj2, hF2⟩⟩, h5⟩
      refine ⟨H.que, H.tle, fun m => ?_, H.nle, ?_, fun v hv => ?_, fun x hx => (H.tab x hx).mono (fun _ _ h => h) hE, ?_, fun m hm => ?_,
        H.tcap, H.tfull, H.qcap, H.buf, fun j o ho => (H.bufOk j o ho).mono (fun _ _ h => h) hE, H.bcap, ?_⟩
      · have a := H.cnt m
        have b := sum_map_set (wIdx m) s.ws k r.1 _ hk
        show ((s.ws.set k r.1).map (wIdx m)).sum + _ + (s.lost ++ r.2.toList).count m = _
        try dsimp only
        rcases hc with ⟨o, e1, e2⟩ | ⟨e1, e2, -⟩
        · rw [e1]
          have : wIdx m r.1 = if i = m then 1 else 0 := by unfold wIdx; rw [e2]
          rw [this, hwi] at b
          simp only [Option.toList_none, List.append_nil]
          omega
        · rw [e1]
          have : wIdx m r.1 = 0 := by rw [e2]; rfl
          rw [this, hwi] at b
          rw [List.count_append, Option.toList_some]
          have : List.count m [i] = if i = m then 1 else 0 := by
            rw [List.count_singleton]; simp [beq_iff_eq]
          rw [this]
          omega
      · show (s.ws.set k _).length = c.n
        rw [List.length_set]; exact H.wlen
      · rcases mem_set_iff' hv with hv | hv
        · exact (H.wk v hv).mono (fun _ _ h => h) hE (Nat.le_refl _)
        · subst hv; exact hnew
      · have b := sum_map_set wDie s.ws k r.1 _ hk
        have : wDie r.1 = wDie w := by
          rcases w with ⟨st, err, exc⟩
          simp only at hst
          subst hst
          cases it with
          | die => simp only [wkProc, Option.some.injEq] at hp; subst hp; rfl
          | data bb =>
            simp only [wkProc, Option.some.injEq] at hp
            subst hp
            cases err <;> cases c.kind <;> cases c.f i bb <;> rfl
        show ((s.ws.set k r.1).map wDie).sum = _
        try dsimp only
        have := H.dies
        omega
      · rcases hc with ⟨o, e1, e2⟩ | ⟨e1, e2, e3, e4, b, e5, e6⟩
        · rw [e1] at hm
          simp only [Option.toList_none, List.append_nil] at hm
          exact H.lst m hm
        · rw [e1] at hm
          simp only [Option.toList_some, List.mem_append, List.mem_singleton] at hm
          rcases hm with hm | hm
          · exact H.lst m hm
          · subst hm
            refine ⟨e3, b, ?_, e6⟩
            obtain ⟨-, -, -, h3⟩ := hwk
            rw [hst] at h3
            rw [← e5]; exact h3.1
      · have b := sum_map_set wBusy s.ws k r.1 _ hk
        have := H.heapEq
        show _ + _ + _ + ((s.ws.set k r.1).map wBusy).sum + _ + _ + (s.lost ++ r.2.toList).length = _
        try dsimp only
        rcases hc with ⟨o, e1, e2⟩ | ⟨e1, e2, -⟩
        · rw [e1]
          have e : wBusy r.1 = 1 := by unfold wBusy; rw [e2]
          rw [e, hwb] at b
          simp only [Option.toList_none, List.append_nil]
          omega
        · rw [e1]
          have e : wBusy r.1 = 0 := by rw [e2]; rfl
          rw [e, hwb] at b
          simp only [Option.toList_some, List.length_append, List.length_singleton]
          omega
  · cases h

theorem core_workerPush (c : Cfg β γ) (s s' : State β γ) (k : Nat) (H : Core c s) (h : workerPush c.n k s = some s') : Core c s' := by
  unfold workerPush at h
  split at h
  · rename_i w hk
    split at h
    · rename_i i o hst
      by_cases hm : mayPush (ratelierSize c.n) s.next s.table i = true
      · rw [if_pos hm] at h
        simp only [Option.some.injEq] at h
        subst h
        have hwk := H.wk w (List.mem_iff_getElem?.2 ⟨k, hk⟩)
        have hexc : w.exc = true → (wkPushed o w).exc = true := by intro e; cases o <;> exact e
        have hE : ExcSome s.ws → ExcSome (s.ws.set k (wkPushed o w)) := excSome_set hk hexc
        have hlen : s.table.length + 1 ≤ ratelierSize c.n := by
          unfold mayPush at hm
          simp only [Bool.or_eq_true, Bool.and_eq_true, decide_eq_true_eq] at hm
          omega
        refine ⟨H.que, H.tle, fun m => ?_, H.nle, ?_, fun v hv => ?_, fun x hx => ?_, ?_, H.lst, ?_, fun hf => ?_, H.qcap, H.buf,
          fun j o ho => (H.bufOk j o ho).mono (fun _ _ h => h) hE, H.bcap, ?_⟩
        · have a := H.cnt m
          have b := sum_map_set (wIdx m) s.ws k (wkPushed o w) _ hk
          have e1 : wIdx m w = if i = m then 1 else 0 := by unfold wIdx; rw [hst]
          have e2 : wIdx m (wkPushed o w) = 0 := by cases o <;> rfl
          rw [e1, e2] at b
          show ((s.ws.set k _).map (wIdx m)).sum + (s.table ++ [(i, o)]).countP _ + _ = _
          try dsimp only
          rw [List.countP_append]
          have : List.countP (fun x : Nat × Out γ => decide (x.1 = m)) [(i, o)] = if i = m then 1 else 0 := by
            simp [List.countP_cons]
          rw [this]
          omega
        · show (s.ws.set k _).length = c.n
          rw [List.length_set]; exact H.wlen
        · rcases mem_set_iff' hv with hv | hv
          · exact (H.wk v hv).mono (fun _ _ h => h) hE (Nat.le_refl _)
          · subst hv
            obtain ⟨h1, h2, h2i, -⟩ := hwk
            cases o <;> exact ⟨h1, h2, h2i, trivial⟩
        · have hx : x ∈ s.table ++ [(i, o)] := hx
          rw [List.mem_append, List.mem_singleton] at hx
          rcases hx with hx | hx
          · exact (H.tab x hx).mono (fun _ _ h => h) hE
          · subst hx
            obtain ⟨-, -, -, h3⟩ := hwk
            rw [hst] at h3
            exact h3.1.mono (fun _ _ h => h) hE
        · have b := sum_map_set wDie s.ws k (wkPushed o w) _ hk
          have e : wDie (wkPushed o w) = wDie w := by
            rcases w with ⟨st, err, exc⟩
            simp only at hst
            rw [hst]
            cases o <;> rfl
          show ((s.ws.set k _).map wDie).sum = _
          try dsimp only
          have := H.dies
          omega
        · show (s.table ++ [(i, o)]).length ≤ _
          try dsimp only
          simpa using hlen
        · show ∃ x ∈ s.table ++ [(i, o)], x.1 = s.next
          have hf : ratelierSize c.n ≤ (s.table ++ [(i, o)]).length := hf
          simp only [List.length_append, List.length_singleton] at hf
          unfold mayPush at hm
          simp only [Bool.or_eq_true, Bool.and_eq_true, decide_eq_true_eq, List.any_eq_true] at hm
          rcases hm with hm | ⟨-, hm | ⟨x, hx, hx2⟩⟩
          · omega
          · exact ⟨(i, o), by simp, hm⟩
          · exact ⟨x, by simp [hx], hx2⟩
        · have b := sum_map_set wBusy s.ws k (wkPushed o w) _ hk
          have e1 : wBusy w = 1 := by unfold wBusy; rw [hst]
          have e2 : wBusy (wkPushed o w) = 0 := by cases o <;> rfl
          rw [e1, e2] at b
          have := H.heapEq
          show _ + _ + _ + ((s.ws.set k _).map wBusy).sum + (s.table ++ [(i, o)]).length + _ + _ = _
          try dsimp only
          simp only [List.length_append, List.length_singleton]
          omega
      · rw [if_neg hm] at h; cases h
    · cases h
  · cases h

theorem core_gather (c : Cfg β γ) (s s' : State β γ) (H : Core c s) (h : gather s = some s') : Core c s' := by
  unfold gather at h
  split at h
  · rename_i x hb he hx
    simp only [Option.some.injEq] at h
    subst h
    obtain ⟨h1, h2, h3, h4, h5⟩ := takeRun_spec s.table.length s.next s.table
    have hpos := takeRun_pos s.next s.table x hx
    generalize takeRun s.table.length s.next s.table = r at *
    have hnext : r.2.1 ≤ s.taken := by
      rw [h1]
      by_cases hh : s.next + r.1.length ≤ s.taken
      · exact hh
      · exfalso
        have a := h3 s.taken
        have b := H.cnt s.taken
        rw [ind_in (H.nle) (by omega)] at a
        rw [ind_out (by omega)] at b
        omega
    have hcap := H.tcap
    have hbuf0 : s.wbuf.length = 0 := by rw [hb]; rfl
    refine ⟨H.que, H.tle, fun i => ?_, hnext, H.wlen, H.wk, fun y hy => H.tab y (h5 y hy), H.dies, H.lst, ?_, fun hf => ?_, H.qcap, ?_,
      fun j o ho => ?_, ?_, ?_⟩
    · have a := h3 i
      have b := H.cnt i
      have hn := H.nle
      have : ind s.next s.taken i = ind r.2.1 s.taken i + ind s.next (s.next + r.1.length) i := by
        rw [h1] at hnext ⊢
        unfold ind; split <;> split <;> split <;> omega
      show _ + r.2.2.countP _ + _ = ind r.2.1 s.taken i
      try dsimp only
      omega
    · show r.2.2.length ≤ _
      try dsimp only
      omega
    · exfalso
      have hf : ratelierSize c.n ≤ r.2.2.length := hf
      omega
    · show r.1.length ≤ r.2.1
      omega
    · show OutOk c s.hist (ExcSome s.ws) (r.2.1 - r.1.length + j) o
      have := H.tab _ (h4 j o ho)
      rwa [show r.2.1 - r.1.length + j = s.next + j by omega]
    · show r.1.length ≤ _
      try dsimp only
      omega
    · have := H.heapEq
      show _ + _ + _ + _ + r.2.2.length + r.1.length + _ = _
      try dsimp only
      omega
  · cases h

/-- taking the first block of the writer's buffer keeps the invariant -/
theorem core_pop {c : Cfg β γ} {s : State β γ} {o : Out γ} {rest : List (Out γ)} (H : Core c s) (hb : s.wbuf = o :: rest)
    (we wx we2 : Bool) (e : Nat) (out : List (Option γ)) (eo : Bool) :
    Core c { s with wbuf := rest, heap := s.heap + 1, werr := we, wexc := wx, ending := e, wended := we2, out := out, eof := eo } := by
  have hl : s.wbuf.length = rest.length + 1 := by rw [hb]; rfl
  have hbuf := H.buf
  refine ⟨H.que, H.tle, H.cnt, H.nle, H.wlen, H.wk, H.tab, H.dies, H.lst, H.tcap, H.tfull, H.qcap, ?_, fun j o' ho => ?_, ?_, ?_⟩
  · show rest.length ≤ s.next
    omega
  · show OutOk c s.hist (ExcSome s.ws) (s.next - rest.length + j) o'
    have := H.bufOk (j + 1) o' (by rw [hb]; exact ho)
    rwa [show s.next - s.wbuf.length + (j + 1) = s.next - rest.length + j by omega] at this
  · have := H.bcap
    show rest.length ≤ _
    try dsimp only
    omega
  · have := H.heapEq
    show s.heap + 1 + _ + _ + _ + _ + rest.length + _ = _
    try dsimp only
    omega

theorem core_write (c : Cfg β γ) (s s' : State β γ) (H : Core c s) (h : write c s = some s') : Core c s' := by
  have hD : ∀ (x : Option γ) (o : Out γ) (rest : List (Out γ)), s.wbuf = o :: rest → Core c (writeData c x rest s) := by
    intro x o rest hb
    unfold writeData
    by_cases hw : s.werr = true
    · rw [if_pos hw]
      exact core_pop H hb s.werr s.wexc s.wended s.ending s.out s.eof
    · rw [if_neg hw]
      by_cases hs : c.sinkFails s.out.length = true
      · rw [if_pos hs]
        exact ⟨H.que, H.tle, H.cnt, H.nle, H.wlen, H.wk, H.tab, H.dies, H.lst, H.tcap, H.tfull, H.qcap, H.buf, H.bufOk, H.bcap, H.heapEq⟩
      · rw [if_neg hs]
        exact core_pop H hb s.werr s.wexc s.wended s.ending _ s.eof
  unfold write at h
  split at h
  · rename_i he hb; simp only [Option.some.injEq] at h; subst h; exact hD _ _ _ hb
  · rename_i he hb; simp only [Option.some.injEq] at h; subst h; exact hD _ _ _ hb
  · rename_i he hb; simp only [Option.some.injEq] at h; subst h
    exact core_pop H hb true s.wexc s.wended s.ending s.out s.eof
  · rename_i he hb; simp only [Option.some.injEq] at h; subst h
    exact core_pop H hb true s.wexc s.wended s.ending s.out s.eof
  · rename_i he hb; simp only [Option.some.injEq] at h; subst h
    unfold writeDie
    dsimp only
    split
    · split
      · exact core_pop H hb s.werr s.wexc true _ s.out s.eof
      · exact core_pop H hb s.werr s.wexc true _ s.out true
      · exact core_pop H hb s.werr s.wexc true _ s.out s.eof
      · exact core_pop H hb true true s.wended _ s.out s.eof
    · exact core_pop H hb s.werr s.wexc s.wended _ s.out s.eof
  · cases h

theorem core_step (c : Cfg β γ) (s s' : State β γ) (a : Action) (H : Core c s) (h : step c s a = some s') : Core c s' := by
  cases a with
  | mainGet => exact core_mainGet c s s' H h
  | mainScatter => exact core_mainScatter c s s' H h
  | mainAbort => exact core_mainAbort c s s' H h
  | workerGet k => exact core_workerGet c s s' k H h
  | workerProc k => exact core_workerProc c s s' k H h
  | workerPush k => exact core_workerPush c s s' k H h
  | gather => exact core_gather c s s' H h
  | write => exact core_write c s s' H h

end Dar.Par
