import Verif.Lemmas.Parallel2
/- Invariant of the parallel writing pipeline: the writer. -/
namespace Dar.Par
variable {β γ : Type}

/-- number of blocks the writer has treated -/
def State.popped (s : State β γ) : Nat := s.next - s.wbuf.length

structure Wri (c : Cfg β γ) (blocks : List β) (k : Nat) (s : State β γ) : Prop where
  tot : s.hist ++ s.todo = (blocks.take k).map Item.data ++ List.replicate c.n Item.die
  kle : k ≤ blocks.length
  full : k < blocks.length → s.aborted = true
  ab : s.aborted = true → s.werr = true
  outOk : ∀ (i : Nat) (x : Option γ), s.out[i]? = some x →
    ∃ b y, blocks[i]? = some b ∧ c.f i b = .ok y ∧ c.sinkFails i = false ∧ x = some y
  fineLen : s.werr = false → s.out.length = min s.popped k
  bad : s.werr = true →
    (∃ b, blocks[s.out.length]? = some b ∧ s.out.length < k ∧ s.out.length < s.next ∧
      ((∀ x, c.f s.out.length b ≠ .ok x) ∨ c.sinkFails s.out.length = true)) ∨
    (s.out.length = blocks.length ∧ s.ending = 0 ∧ c.kind = .zip ∧ c.eofFails = true ∧ s.wended = false)
  endEq : s.ending = c.n - (s.popped - k)
  holdTodo : s.hold = true → s.todo ≠ []
  fin : s.wended = true → s.ending = 0
  fin2 : s.ending = 0 → s.wended = true ∨ (c.kind = .zip ∧ c.eofFails = true ∧ s.werr = true ∧ s.out.length = blocks.length)
  eofW : s.wended = true → c.kind = .zip → c.eofFails = false → s.eof = true
  eofZ : s.eof = true → s.wended = true ∧ c.kind = .zip
  rz : s.werr = true → s.wexc = true ∨ ExcSome s.ws ∨ (c.kind = .crypto ∧ ∃ i b, blocks[i]? = some b ∧ c.f i b = .range)
  wx : s.wexc = true → (∃ i, i < blocks.length ∧ c.sinkFails i = true) ∨ (c.kind = .zip ∧ c.eofFails = true)

theorem Wri.data {c : Cfg β γ} {blocks : List β} {k : Nat} {s : State β γ} (W : Wri c blocks k s) {i : Nat} {b : β}
    (h : s.hist[i]? = some (.data b)) : i < k ∧ blocks[i]? = some b := by
  have h2 := getElem?_append_mono s.hist s.todo i _ h
  rw [W.tot] at h2
  have hl : ((blocks.take k).map (Item.data (β := β))).length = k := by
    rw [List.length_map, List.length_take]; have := W.kle; omega
  by_cases hi : i < k
  · rw [List.getElem?_append_left (by omega), List.getElem?_map, List.getElem?_take, if_pos hi] at h2
    refine ⟨hi, ?_⟩
    cases hb : blocks[i]? with
    | none => rw [hb] at h2; simp at h2
    | some b' => rw [hb] at h2; simp at h2; rw [h2]
  · exfalso
    rw [List.getElem?_append_right (by omega), List.getElem?_replicate] at h2
    split at h2 <;> simp at h2

theorem Wri.die {c : Cfg β γ} {blocks : List β} {k : Nat} {s : State β γ} (W : Wri c blocks k s) {i : Nat}
    (h : s.hist[i]? = some .die) : k ≤ i := by
  have h2 := getElem?_append_mono s.hist s.todo i _ h
  rw [W.tot] at h2
  have hl : ((blocks.take k).map (Item.data (β := β))).length = k := by
    rw [List.length_map, List.length_take]; have := W.kle; omega
  by_cases hi : i < k
  · rw [List.getElem?_append_left (by omega), List.getElem?_map] at h2
    cases hb : (blocks.take k)[i]? with
    | none => rw [hb] at h2; simp at h2
    | some b' => rw [hb] at h2; simp at h2
  · omega

theorem Wri.histLen {c : Cfg β γ} {blocks : List β} {k : Nat} {s : State β γ} (W : Wri c blocks k s) :
    s.hist.length + s.todo.length = k + c.n := by
  have := congrArg List.length W.tot
  simp only [List.length_append, List.length_map, List.length_take, List.length_replicate] at this
  have := W.kle
  omega

theorem wri_init (c : Cfg β γ) (hn : 0 < c.n) (blocks : List β) : Wri c blocks blocks.length (State.init c.n blocks : State β γ) := by
  constructor
  · simp [State.init]
  · exact Nat.le_refl _
  · omega
  · simp [State.init]
  · intro i x h; simp [State.init] at h
  · intro h; simp [State.init, State.popped]
  · intro h; simp [State.init] at h
  · simp [State.init, State.popped]
  · intro h; simp [State.init] at h
  · intro h; simp [State.init] at h
  · intro h; simp [State.init] at h; omega
  · intro h; simp [State.init] at h
  · intro h; simp [State.init] at h
  · intro h; simp [State.init] at h
  · intro h; simp [State.init] at h

theorem Wri.workers {c : Cfg β γ} {blocks : List β} {k : Nat} {s s' : State β γ} (W : Wri c blocks k s)
    (h1 : s'.hist = s.hist) (h2 : s'.todo = s.todo) (h3 : s'.aborted = s.aborted) (h4 : s'.out = s.out) (h5 : s'.werr = s.werr)
    (h6 : s'.popped = s.popped) (h7 : s.next ≤ s'.next) (h8 : s'.ending = s.ending) (h9 : s'.wended = s.wended)
    (h10 : s'.hold = s.hold) (h11 : s'.eof = s.eof) (h12 : s'.wexc = s.wexc) (hE : ExcSome s.ws → ExcSome s'.ws) :
    Wri c blocks k s' := by
  refine ⟨by rw [h1, h2]; exact W.tot, W.kle, fun h => by rw [h3]; exact W.full h, fun h => by rw [h3] at h; rw [h5]; exact W.ab h,
    fun i x h => by rw [h4] at h; exact W.outOk i x h, fun h => by rw [h5] at h; rw [h4, h6]; exact W.fineLen h, fun h => ?_,
    by rw [h8, h6]; exact W.endEq, fun h => by rw [h10] at h; rw [h2]; exact W.holdTodo h, fun h => by rw [h9] at h; rw [h8]; exact W.fin h,
    fun h => by rw [h8] at h; rw [h9, h5, h4]; exact W.fin2 h, fun h => by rw [h9] at h; rw [h11]; exact W.eofW h,
    fun h => by rw [h11] at h; rw [h9]; exact W.eofZ h, fun h => ?_, fun h => by rw [h12] at h; exact W.wx h⟩
  · rw [h5] at h
    rw [h4, h8, h9]
    rcases W.bad h with ⟨b, a1, a2, a3, a4⟩ | h
    · exact .inl ⟨b, a1, a2, by omega, a4⟩
    · exact .inr h
  · rw [h5] at h
    rw [h12]
    rcases W.rz h with h | h | h
    · exact .inl h
    · exact .inr (.inl (hE h))
    · exact .inr (.inr h)

theorem excSome_get {ws : List (Wk β γ)} {k : Nat} {w w' : Wk β γ} (hk : ws[k]? = some w) (he : w'.exc = w.exc) :
    ExcSome ws → ExcSome (ws.set k w') := excSome_set hk (fun h => by rw [he]; exact h)

theorem wri_mainGet {c : Cfg β γ} {blocks : List β} {k : Nat} {s s' : State β γ} (W : Wri c blocks k s) (h : mainGet s = some s') :
    Wri c blocks k s' := by
  unfold mainGet at h
  split at h
  · rename_i it rest hp ht hh hk
    simp only [Option.some.injEq] at h
    subst h
    exact ⟨W.tot, W.kle, W.full, W.ab, W.outOk, W.fineLen, W.bad, W.endEq, fun _ => by dsimp only; rw [ht]; simp, W.fin, W.fin2, W.eofW,
      W.eofZ, W.rz, W.wx⟩
  · cases h

theorem wri_mainScatter {c : Cfg β γ} {blocks : List β} {k : Nat} {s s' : State β γ} (W : Wri c blocks k s)
    (h : mainScatter c.n s = some s') : Wri c blocks k s' := by
  unfold mainScatter at h
  split at h
  · rename_i it rest ht hh
    by_cases hq : s.queue.length < ratelierSize c.n
    · rw [if_pos hq] at h
      simp only [Option.some.injEq] at h
      subst h
      refine ⟨?_, W.kle, W.full, W.ab, W.outOk, W.fineLen, W.bad, W.endEq, fun h => by simp at h, W.fin, W.fin2, W.eofW,
        W.eofZ, W.rz, W.wx⟩
      have := W.tot
      rw [ht] at this
      simpa using this
    · rw [if_neg hq] at h; cases h
  · cases h

theorem wri_mainAbort {c : Cfg β γ} {blocks : List β} {k : Nat} {s s' : State β γ} (H : Core c s) (W : Wri c blocks k s)
    (h : mainAbort c.n s = some s') : ∃ k', Wri c blocks k' s' := by
  unfold mainAbort at h
  split at h
  · rename_i b rest hab hw ht
    simp only [Option.some.injEq] at h
    subst h
    have hl := W.histLen
    rw [ht] at hl
    simp only [List.length_cons] at hl
    -- the history is made of data
    have hhd : s.hist.length < k ∧ blocks[s.hist.length]? = some b := by
      have e : (s.hist ++ s.todo)[s.hist.length]? = some (.data b) := by
        rw [ht, List.getElem?_append_right (Nat.le_refl _)]; simp
      rw [W.tot] at e
      have hl : ((blocks.take k).map (Item.data (β := β))).length = k := by
        rw [List.length_map, List.length_take]; have := W.kle; omega
      by_cases hi : s.hist.length < k
      · rw [List.getElem?_append_left (by omega), List.getElem?_map, List.getElem?_take, if_pos hi] at e
        refine ⟨hi, ?_⟩
        cases hb : blocks[s.hist.length]? with
        | none => rw [hb] at e; simp at e
        | some b' => rw [hb] at e; simp at e; rw [e]
      · exfalso
        rw [List.getElem?_append_right (by omega), List.getElem?_replicate] at e
        split at e <;> simp at e
    have hhist : s.hist = (blocks.take s.hist.length).map Item.data := by
      have := congrArg (List.take s.hist.length) W.tot
      rw [List.take_append_of_le_length (Nat.le_refl _), List.take_length, List.take_append_of_le_length (by
        rw [List.length_map, List.length_take]; have := W.kle; omega), ← List.map_take, List.take_take,
        Nat.min_eq_left (by omega)] at this
      exact this
    have hkle := W.kle
    have hpop : s.popped ≤ s.hist.length := by
      have := H.nle; have := H.tle; unfold State.popped; omega
    have hnx : s.next ≤ s.hist.length := by have := H.nle; have := H.tle; omega
    have hend : ∀ k', s.hist.length ≤ k' → s.ending = c.n - (s.popped - k') := by
      intro k' hk'
      rw [W.endEq]
      rw [show s.popped - k = 0 by omega, show s.popped - k' = 0 by omega]
    have hbad : ∀ k', s.hist.length ≤ k' → (s.werr = true →
      (∃ b, blocks[s.out.length]? = some b ∧ s.out.length < k' ∧ s.out.length < s.next ∧
      ((∀ x, c.f s.out.length b ≠ .ok x) ∨ c.sinkFails s.out.length = true)) ∨
      (s.out.length = blocks.length ∧ s.ending = 0 ∧ c.kind = .zip ∧ c.eofFails = true ∧ s.wended = false)) := by
      intro k' hk' hwe
      rcases W.bad hwe with ⟨b, a1, a2, a3, a4⟩ | h
      · exact .inl ⟨b, a1, by omega, a3, a4⟩
      · exact .inr h
    by_cases hh : s.hold = true
    · refine ⟨s.hist.length + 1, ?_, by omega, fun _ => rfl, fun _ => hw, W.outOk, fun h => absurd (show s.werr = false from h) (by rw [hw]; simp), hbad _ (by omega), ?_,
        fun _ => by dsimp only; rw [if_pos hh]; simp, W.fin, W.fin2, W.eofW, W.eofZ, W.rz, W.wx⟩
      · dsimp only
        rw [if_pos hh]
        have hlt : s.hist.length < blocks.length := by omega
        rw [List.take_succ_eq_append_getElem hlt]
        have : blocks[s.hist.length] = b := (List.getElem?_eq_some_iff.1 hhd.2).2
        rw [this, List.map_append, ← hhist]
        simp
      · exact hend _ (by omega)
    · refine ⟨s.hist.length, ?_, by omega, fun _ => rfl, fun _ => hw, W.outOk, fun h => absurd (show s.werr = false from h) (by rw [hw]; simp), hbad _ (by omega), ?_,
        fun h => absurd h hh, W.fin, W.fin2, W.eofW, W.eofZ, W.rz, W.wx⟩
      · dsimp only
        rw [if_neg hh, ← hhist]
        simp
      · exact hend _ (by omega)
  · cases h

theorem wri_workerGet {c : Cfg β γ} {blocks : List β} {k : Nat} {s s' : State β γ} {j : Nat} (W : Wri c blocks k s)
    (h : workerGet j s = some s') : Wri c blocks k s' := by
  unfold workerGet at h
  split at h
  · rename_i it q w hq hk
    rcases w with ⟨st, err, exc⟩
    cases st <;> simp only [wkGet, Option.map_some, Option.map_none, Option.some.injEq, reduceCtorEq] at h
    subst h
    exact W.workers rfl rfl rfl rfl rfl rfl (Nat.le_refl _) rfl rfl rfl rfl rfl (excSome_get hk rfl)
  · cases h

theorem wkProc_exc {kind : Kind} {f : Nat → β → Outcome γ} {w : Wk β γ} {r : Wk β γ × Option Nat} (hp : wkProc kind f w = some r)
    (e : w.exc = true) : r.1.exc = true := by
  obtain ⟨i, it, hst, -⟩ := wkProc_cases hp
  rcases w with ⟨st, err, exc⟩
  simp only at hst e
  subst hst e
  cases it with
  | die => simp only [wkProc, Option.some.injEq] at hp; subst hp; rfl
  | data b =>
    simp only [wkProc, Option.some.injEq] at hp
    subst hp
    cases err <;> cases kind <;> cases f i b <;> rfl

theorem wri_workerProc {c : Cfg β γ} {blocks : List β} {k : Nat} {s s' : State β γ} {j : Nat} (W : Wri c blocks k s)
    (h : workerProc c j s = some s') : Wri c blocks k s' := by
  unfold workerProc at h
  split at h
  · rename_i w hk
    cases hp : wkProc c.kind c.f w with
    | none => rw [hp] at h; cases h
    | some r =>
      rw [hp] at h
      simp only [Option.map_some, Option.some.injEq] at h
      subst h
      exact W.workers rfl rfl rfl rfl rfl rfl (Nat.le_refl _) rfl rfl rfl rfl rfl (excSome_set hk (wkProc_exc hp))
  · cases h

theorem wri_workerPush {c : Cfg β γ} {blocks : List β} {k : Nat} {s s' : State β γ} {j : Nat} (W : Wri c blocks k s)
    (h : workerPush c.n j s = some s') : Wri c blocks k s' := by
  unfold workerPush at h
  split at h
  · rename_i w hk
    split at h
    · rename_i i o hst
      by_cases hm : mayPush (ratelierSize c.n) s.next s.table i = true
      · rw [if_pos hm] at h
        simp only [Option.some.injEq] at h
        subst h
        exact W.workers rfl rfl rfl rfl rfl rfl (Nat.le_refl _) rfl rfl rfl rfl rfl (excSome_get hk (by cases o <;> rfl))
      · rw [if_neg hm] at h; cases h
    · cases h
  · cases h

theorem wri_gather {c : Cfg β γ} {blocks : List β} {k : Nat} {s s' : State β γ} (W : Wri c blocks k s)
    (h : gather s = some s') : Wri c blocks k s' := by
  unfold gather at h
  split at h
  · rename_i x hb he hx
    simp only [Option.some.injEq] at h
    subst h
    obtain ⟨h1, -⟩ := takeRun_spec s.table.length s.next s.table
    generalize takeRun s.table.length s.next s.table = r at *
    refine W.workers rfl rfl rfl rfl rfl ?_ ?_ rfl rfl rfl rfl rfl id
    · show r.2.1 - r.1.length = s.next - s.wbuf.length
      rw [hb, h1]; simp
    · show s.next ≤ r.2.1
      omega
  · cases h

theorem wri_writeData {c : Cfg β γ} {blocks : List β} {k : Nat} {s : State β γ} (H : Core c s) (W : Wri c blocks k s)
    {o : Out γ} {x : Option γ} {rest : List (Out γ)} (hb : s.wbuf = o :: rest) (he : s.wended = false)
    (ho : o = .junk ∧ x = none ∨ ∃ y, o = .good y ∧ x = some y) : Wri c blocks k (writeData c x rest s) := by
  have hl : s.wbuf.length = rest.length + 1 := by rw [hb]; rfl
  have hbuf := H.buf
  have hpop : s.next - rest.length = s.popped + 1 := by unfold State.popped; omega
  have hO : OutOk c s.hist (ExcSome s.ws) s.popped o := by
    have := H.bufOk 0 o (by rw [hb]; rfl)
    exact this
  have hdata : ∃ b, s.hist[s.popped]? = some (.data b) := by
    rcases ho with ⟨h1, -⟩ | ⟨y, h1, -⟩
    · subst h1; exact hO.1
    · subst h1; obtain ⟨b, h, -⟩ := hO; exact ⟨b, h⟩
  obtain ⟨b, hb1⟩ := hdata
  obtain ⟨hk, hb2⟩ := W.data hb1
  have hpn : s.popped < s.next := by unfold State.popped; omega
  have hend : s.ending = c.n - (s.popped + 1 - k) := by
    rw [W.endEq, show s.popped - k = 0 by omega, show s.popped + 1 - k = 0 by omega]
  unfold writeData
  by_cases hw : s.werr = true
  · rw [if_pos hw]
    refine ⟨W.tot, W.kle, W.full, W.ab, W.outOk, fun h => ?_, W.bad, ?_, W.holdTodo, W.fin, W.fin2, W.eofW, W.eofZ, W.rz, W.wx⟩
    · exact absurd (show s.werr = false from h) (by rw [hw]; simp)
    · show s.ending = c.n - (s.next - rest.length - k)
      rw [hpop]; exact hend
  · rw [if_neg hw]
    have hw' : s.werr = false := by simpa using hw
    have hlen := W.fineLen hw'
    rw [Nat.min_eq_left (by omega)] at hlen
    by_cases hs : c.sinkFails s.out.length = true
    · rw [if_pos hs]
      refine ⟨W.tot, W.kle, W.full, fun _ => rfl, W.outOk, fun h => Bool.noConfusion h, fun _ => .inl ⟨b, by rw [hlen]; exact hb2, ?_, ?_, .inr hs⟩,
        W.endEq, W.holdTodo, W.fin, fun h => ?_, W.eofW, W.eofZ, fun _ => .inl rfl, fun _ => .inl ⟨s.out.length, ?_, hs⟩⟩
      · show s.out.length < k
        omega
      · show s.out.length < s.next
        omega
      · rcases W.fin2 h with h | ⟨h1, h2, h3, h4⟩
        · exact .inl h
        · rw [hw'] at h3; cases h3
      · have := W.kle; omega
    · rw [if_neg hs]
      rcases ho with ⟨h1, h2⟩ | ⟨y, h1, h2⟩
      · -- impossible: an earlier block failed
        exfalso
        subst h1
        obtain ⟨-, j, hj, b', hb', hf⟩ := hO
        obtain ⟨hjk, hjb⟩ := W.data hb'
        have : j < s.out.length := by omega
        obtain ⟨b2, y2, e1, e2, -⟩ := W.outOk j s.out[j] (List.getElem?_eq_getElem this)
        rw [hjb] at e1; cases e1
        exact hf _ e2
      · subst h1 h2
        obtain ⟨b3, e1, e2⟩ := hO
        rw [hb1] at e1; cases e1
        refine ⟨W.tot, W.kle, W.full, W.ab, fun i z hz => ?_, fun _ => ?_, fun h => absurd (show s.werr = true from h) hw, ?_, W.holdTodo,
          W.fin, fun h => ?_, W.eofW, W.eofZ, W.rz, W.wx⟩
        · have hz : (s.out ++ [some y])[i]? = some z := hz
          by_cases hi : i < s.out.length
          · rw [List.getElem?_append_left hi] at hz
            exact W.outOk i z hz
          · rw [List.getElem?_append_right (by omega)] at hz
            have : i = s.out.length := by
              rcases Nat.lt_or_ge (i - s.out.length) 1 with h | h
              · omega
              · rw [List.getElem?_eq_none (by simpa using h)] at hz; cases hz
            subst this
            simp at hz
            refine ⟨b, y, by rw [hlen]; exact hb2, by rw [hlen]; exact e2, by simpa using hs, hz.symm⟩
        · show (s.out ++ [some y]).length = min (s.next - rest.length) k
          rw [hpop, List.length_append, List.length_singleton]
          omega
        · show s.ending = c.n - (s.next - rest.length - k)
          rw [hpop]; exact hend
        · rcases W.fin2 h with h | ⟨h1, h2, h3, h4⟩
          · exact .inl h
          · rw [hw'] at h3; cases h3

theorem wri_writeErr {c : Cfg β γ} {blocks : List β} {k : Nat} {s : State β γ} (H : Core c s) (W : Wri c blocks k s)
    {o : Out γ} {rest : List (Out γ)} (hb : s.wbuf = o :: rest) (ho : o = .workerError ∨ o = .dataError) (hpos : s.ending ≠ 0)
    (he : s.wended = false) : Wri c blocks k { s with wbuf := rest, heap := s.heap + 1, werr := true } := by
  have hl : s.wbuf.length = rest.length + 1 := by rw [hb]; rfl
  have hbuf := H.buf
  have hpop : s.next - rest.length = s.popped + 1 := by unfold State.popped; omega
  have hO : OutOk c s.hist (ExcSome s.ws) s.popped o := H.bufOk 0 o (by rw [hb]; rfl)
  have hpn : s.popped < s.next := by unfold State.popped; omega
  have hkl := W.kle
  -- the block holds data and, when no error was seen, its processing failed
  have hdata : ∃ b, s.hist[s.popped]? = some (.data b) ∧ (s.werr = false → ∀ x, c.f s.popped b ≠ .ok x) := by
    rcases ho with rfl | rfl
    · obtain ⟨⟨b, h1⟩, ⟨j, hj, b', hb', hf⟩, -⟩ := hO
      refine ⟨b, h1, fun hw => ?_⟩
      have hlen := W.fineLen hw
      obtain ⟨hk, -⟩ := W.data h1
      obtain ⟨hjk, hjb⟩ := W.data hb'
      by_cases e : j = s.popped
      · subst e; rw [h1] at hb'; cases hb'; exact hf
      · exfalso
        have : j < s.out.length := by omega
        obtain ⟨b2, y2, e1, e2, -⟩ := W.outOk j s.out[j] (List.getElem?_eq_getElem this)
        rw [hjb] at e1; cases e1
        exact hf _ e2
    · obtain ⟨-, b, h1, h2⟩ := hO
      exact ⟨b, h1, fun _ x e => by rw [h2] at e; cases e⟩
  obtain ⟨b, hb1, hbf⟩ := hdata
  obtain ⟨hk, hb2⟩ := W.data hb1
  refine ⟨W.tot, W.kle, W.full, fun _ => rfl, W.outOk, fun h => Bool.noConfusion h, fun _ => ?_, ?_, W.holdTodo, W.fin, fun h => absurd h hpos, W.eofW,
    W.eofZ, fun _ => ?_, W.wx⟩
  · by_cases hw : s.werr = true
    · exact W.bad hw
    · have hw' : s.werr = false := by simpa using hw
      have hlen := W.fineLen hw'
      rw [Nat.min_eq_left (by omega)] at hlen
      refine .inl ⟨b, by show blocks[s.out.length]? = _; rw [hlen]; exact hb2, by show s.out.length < k; omega,
        by show s.out.length < s.next; omega, .inl ?_⟩
      show ∀ x, c.f s.out.length b ≠ _
      rw [hlen]; exact hbf hw'
  · show s.ending = c.n - (s.next - rest.length - k)
    rw [hpop, W.endEq, show s.popped - k = 0 by omega, show s.popped + 1 - k = 0 by omega]
  · rcases ho with rfl | rfl
    · exact .inr (.inl hO.2.2.2)
    · obtain ⟨hkd, b', h1, h2⟩ := hO
      exact .inr (.inr ⟨hkd, s.popped, b', (W.data h1).2, h2⟩)

theorem wri_writeDie {c : Cfg β γ} {blocks : List β} {k : Nat} {s : State β γ} (H : Core c s) (W : Wri c blocks k s)
    {rest : List (Out γ)} (hb : s.wbuf = .die :: rest) (hpos : s.ending ≠ 0)
    (he : s.wended = false) : Wri c blocks k (writeDie c rest s) := by
  have hl : s.wbuf.length = rest.length + 1 := by rw [hb]; rfl
  have hbuf := H.buf
  have hpop : s.next - rest.length = s.popped + 1 := by unfold State.popped; omega
  have hO : OutOk c s.hist (ExcSome s.ws) s.popped .die := H.bufOk 0 _ (by rw [hb]; rfl)
  have hpn : s.popped < s.next := by unfold State.popped; omega
  have hkl := W.kle
  have hk := W.die hO
  have hend := W.endEq
  have hfl : s.werr = false → s.out.length = min (s.next - rest.length) k := by
    intro h; rw [W.fineLen h, hpop]; omega
  have hen : s.ending - 1 = c.n - (s.next - rest.length - k) := by rw [hpop]; omega
  have hnoeof : s.eof = true → False := fun h => by have := (W.eofZ h).1; rw [he] at this; cases this
  have hbad : s.werr = true → ∃ b, blocks[s.out.length]? = some b ∧ s.out.length < k ∧ s.out.length < s.next ∧
      ((∀ x, c.f s.out.length b ≠ .ok x) ∨ c.sinkFails s.out.length = true) := by
    intro h
    rcases W.bad h with h | ⟨-, h, -⟩
    · exact h
    · exact absurd h hpos
  have hfull : s.werr = false → k = blocks.length := by
    intro h
    by_cases hlt : k < blocks.length
    · have := W.ab (W.full hlt); rw [h] at this; cases this
    · omega
  unfold writeDie
  dsimp only
  by_cases h0 : s.ending - 1 = 0
  · rw [if_pos h0]
    split
    · rename_i hkd
      exact ⟨W.tot, W.kle, W.full, W.ab, W.outOk, hfl, fun h => .inl (hbad h), hen, W.holdTodo, fun _ => h0, fun _ => .inl rfl,
        fun _ h => absurd (show c.kind = _ from h) (by rw [hkd]; simp), fun h => (hnoeof h).elim, W.rz, W.wx⟩
    · rename_i hkd hef
      exact ⟨W.tot, W.kle, W.full, W.ab, W.outOk, hfl, fun h => .inl (hbad h), hen, W.holdTodo, fun _ => h0, fun _ => .inl rfl,
        fun _ _ _ => rfl, fun _ => ⟨rfl, hkd⟩, W.rz, W.wx⟩
    · rename_i hkd hef hwe
      exact ⟨W.tot, W.kle, W.full, W.ab, W.outOk, hfl, fun h => .inl (hbad h), hen, W.holdTodo, fun _ => h0, fun _ => .inl rfl,
        fun _ _ h => absurd (show c.eofFails = false from h) (by rw [hef]; simp), fun h => (hnoeof h).elim, W.rz, W.wx⟩
    · rename_i hkd hef hwe
      have hol : s.out.length = blocks.length := by
        have := hfl hwe; have := hfull hwe; rw [hpop] at *; omega
      refine ⟨W.tot, W.kle, W.full, fun _ => rfl, W.outOk, fun h => Bool.noConfusion h, fun _ => .inr ⟨hol, h0, hkd, hef, he⟩, hen, W.holdTodo,
        fun h => ?_, fun _ => .inr ⟨hkd, hef, rfl, hol⟩, fun _ _ h => absurd (show c.eofFails = false from h) (by rw [hef]; simp), fun h => (hnoeof h).elim, fun _ => .inl rfl,
        fun _ => .inr ⟨hkd, hef⟩⟩
      exact h0
  · rw [if_neg h0]
    exact ⟨W.tot, W.kle, W.full, W.ab, W.outOk, hfl, fun h => .inl (hbad h), hen, W.holdTodo, fun h => absurd (show s.wended = true from h) (by rw [he]; simp),
      fun h => absurd h h0, W.eofW, W.eofZ, W.rz, W.wx⟩

theorem wri_write {c : Cfg β γ} {blocks : List β} {k : Nat} {s s' : State β γ} (H : Core c s) (W : Wri c blocks k s)
    (h : write c s = some s') : Wri c blocks k s' := by
  unfold write at h
  split at h
  · rename_i n x rest he hn hb; simp only [Option.some.injEq] at h; subst h
    exact wri_writeData H W hb he (.inr ⟨_, rfl, rfl⟩)
  · rename_i n rest he hn hb; simp only [Option.some.injEq] at h; subst h
    exact wri_writeData H W hb he (.inl ⟨rfl, rfl⟩)
  · rename_i n rest he hn hb; simp only [Option.some.injEq] at h; subst h
    exact wri_writeErr H W hb (.inl rfl) (by omega) he
  · rename_i n rest he hn hb; simp only [Option.some.injEq] at h; subst h
    exact wri_writeErr H W hb (.inr rfl) (by omega) he
  · rename_i n rest he hn hb; simp only [Option.some.injEq] at h; subst h
    exact wri_writeDie H W hb (by omega) he
  · cases h

theorem wri_step {c : Cfg β γ} {blocks : List β} {k : Nat} {s s' : State β γ} {a : Action} (H : Core c s) (W : Wri c blocks k s)
    (h : step c s a = some s') : ∃ k', Wri c blocks k' s' := by
  cases a with
  | mainGet => exact ⟨k, wri_mainGet W h⟩
  | mainScatter => exact ⟨k, wri_mainScatter W h⟩
  | mainAbort => exact wri_mainAbort H W h
  | workerGet j => exact ⟨k, wri_workerGet W h⟩
  | workerProc j => exact ⟨k, wri_workerProc W h⟩
  | workerPush j => exact ⟨k, wri_workerPush W h⟩
  | gather => exact ⟨k, wri_gather W h⟩
  | write => exact ⟨k, wri_write H W h⟩

theorem inv_run (c : Cfg β γ) (blocks : List β) (as : List Action) : ∀ (s s' : State β γ), (Core c s ∧ ∃ k, Wri c blocks k s) →
    run c s as = some s' → Core c s' ∧ ∃ k, Wri c blocks k s' := by
  induction as with
  | nil => intro s s' H h; simp only [run, Option.some.injEq] at h; subst h; exact H
  | cons a as ih =>
    intro s s' H h
    unfold run at h
    cases hs : step c s a with
    | none => rw [hs] at h; cases h
    | some s1 =>
      rw [hs] at h
      obtain ⟨H1, k, W⟩ := H
      exact ih s1 s' ⟨core_step c s s1 a H1 hs, wri_step H1 W hs⟩ h

theorem inv_reach (c : Cfg β γ) (hn : 0 < c.n) (blocks : List β) (as : List Action) (s : State β γ)
    (h : run c (State.init c.n blocks) as = some s) : Core c s ∧ ∃ k, Wri c blocks k s :=
  inv_run c blocks as _ _ ⟨core_init c hn blocks, _, wri_init c hn blocks⟩ h

end Dar.Par
