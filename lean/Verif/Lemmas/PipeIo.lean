import Verif.Lemmas.FileIo
namespace Dar

theorem pipeReadLoop_spec (size : Nat) : ∀ (evs : List SysEv) (p : PipeR) (got b : Bytes) (p' : PipeR) (evs' : List SysEv), got.length ≤ size →
    pipeReadLoop p size got evs = .done b p' evs' →
    (∃ n, n ≤ size - got.length ∧ b = got ++ p.src.take n ∧ p'.src = p.src.drop n) ∧ p'.next = p.next ∧ p'.pos = p.pos + b.length ∧
    evs'.length < evs.length ∧ (∃ pre, evs = pre ++ evs') ∧ SysEv.count evs ≤ SysEv.count evs' + (b.length - got.length) + 1 ∧
    ((∀ e ∈ evs, e ≠ .intr) → b = got ++ p.src.take (size - got.length) ∧ p'.src = p.src.drop (size - got.length)) := by
  intro evs
  induction evs with
  | nil => intro p got b p' evs' _ h; simp [pipeReadLoop] at h
  | cons ev evs ih =>
    intro p got b p' evs' hg h
    cases ev with
    | moved k =>
      simp only [pipeReadLoop] at h
      have hle : min (min (size - got.length) ssizeMax) (k + 1) ≤ size - got.length := by omega
      have hp : size - got.length > 0 → min (min (size - got.length) ssizeMax) (k + 1) > 0 := by
        intro h; unfold ssizeMax; omega
      generalize min (min (size - got.length) ssizeMax) (k + 1) = m at hle hp h
      have hm : (p.src.take m).length ≤ m := by rw [List.length_take]; omega
      have hcc : SysEv.count (.moved k :: evs) = SysEv.count evs + 1 := count_moved _ _
      by_cases hc : (got ++ p.src.take m).length < size ∧ (p.src.take m).length > 0
      · rw [if_pos hc] at h
        obtain ⟨⟨n, hn, e1, e2⟩, e3, e4, e5, ⟨pre, e6⟩, e7, e8⟩ := ih _ _ b p' evs' (by omega) h
        have hma : (got ++ p.src.take m).length = got.length + (p.src.take m).length := List.length_append
        refine ⟨?_, e3, e4, by simp only [List.length_cons]; omega, ⟨.moved k :: pre, by simp [e6]⟩, ?_, ?_⟩
        · dsimp only at e1 e2
          by_cases hms : m ≤ p.src.length
          · have hml : (p.src.take m).length = m := by rw [List.length_take]; omega
            refine ⟨m + n, ?_, ?_, ?_⟩
            · omega
            · rw [e1, List.append_assoc, take_add_drop _ _ _ hms]
            · rw [e2, List.drop_drop]
          · refine ⟨m, hle, ?_, ?_⟩
            · rw [e1, List.drop_of_length_le (by omega : p.src.length ≤ m)]; simp
            · rw [e2, List.drop_of_length_le (by omega : p.src.length ≤ m)]; simp
        · rw [hcc]
          have hb : b.length ≥ (got ++ p.src.take m).length := by rw [e1, List.length_append]; omega
          omega
        · intro hi
          obtain ⟨f1, f2⟩ := e8 (fun e he => hi e (List.mem_cons_of_mem _ he))
          dsimp only at f1 f2
          by_cases hms : m ≤ p.src.length
          · have hml : (p.src.take m).length = m := by rw [List.length_take]; omega
            have hs : m + (size - (got ++ p.src.take m).length) = size - got.length := by omega
            constructor
            · rw [f1, List.append_assoc, take_add_drop _ _ _ hms, hs]
            · rw [f2, List.drop_drop, hs]
          · constructor
            · rw [f1, List.drop_of_length_le (by omega : p.src.length ≤ m), List.take_of_length_le (by omega : p.src.length ≤ m),
                List.take_of_length_le (by omega : p.src.length ≤ size - got.length)]; simp
            · rw [f2, List.drop_of_length_le (by omega : p.src.length ≤ m), List.drop_of_length_le (by omega : p.src.length ≤ size - got.length)]; simp
      · rw [if_neg hc] at h
        simp only [IoRes.done.injEq] at h
        obtain ⟨rfl, rfl, rfl⟩ := h
        refine ⟨⟨m, hle, rfl, rfl⟩, rfl, rfl, by simp, ⟨[.moved k], rfl⟩, by rw [hcc]; omega, ?_⟩
        intro _
        dsimp only
        by_cases hz : (p.src.take m).length > 0
        · have hma : (got ++ p.src.take m).length = got.length + (p.src.take m).length := List.length_append
          have : m = size - got.length := by omega
          rw [this]; exact ⟨rfl, rfl⟩
        · by_cases hs : size - got.length = 0
          · have : m = size - got.length := by omega
            rw [this]; exact ⟨rfl, rfl⟩
          · have := hp (by omega)
            have hnil : p.src = [] := by
              rw [List.length_take] at hz
              exact List.length_eq_zero_iff.mp (by omega)
            rw [hnil]; simp
    | intr =>
      simp only [pipeReadLoop, IoRes.done.injEq] at h
      obtain ⟨rfl, rfl, rfl⟩ := h
      refine ⟨⟨0, Nat.zero_le _, by simp, by simp⟩, rfl, rfl, by simp, ⟨[.intr], rfl⟩, by simp [SysEv.count, SysEv.moves], ?_⟩
      intro hi
      exact absurd rfl (hi _ List.mem_cons_self)
    | noSpace g => simp [pipeReadLoop] at h
    | again => simp [pipeReadLoop] at h
    | io => simp [pipeReadLoop] at h
    | other => simp [pipeReadLoop] at h

theorem pipeRead_spec (p : PipeR) (size : Nat) (evs : List SysEv) (b : Bytes) (p' : PipeR) (evs' : List SysEv)
    (h : pipeRead p size evs = .done b p' evs') :
    p.rest = b ++ p'.rest ∧ b.length ≤ size ∧ p'.pos = p.pos + b.length ∧ (∃ pre, evs = pre ++ evs') ∧ SysEv.count evs ≤ SysEv.count evs' + b.length + 1 ∧
    (size > 0 → evs'.length < evs.length) ∧
    ((∀ e ∈ evs, e ≠ .intr) → b = p.rest.take size) := by
  unfold pipeRead at h
  by_cases h0 : size = 0
  · rw [if_pos h0] at h
    simp only [IoRes.done.injEq] at h
    obtain ⟨rfl, rfl, rfl⟩ := h
    subst h0
    exact ⟨by simp, by simp, by simp, ⟨[], rfl⟩, by omega, by simp, by simp⟩
  · rw [if_neg h0] at h
    cases hn : p.next with
    | some x =>
      simp only [hn] at h
      obtain ⟨⟨n, hn', e1, e2⟩, e3, e4, e5, e6, e7, e8⟩ := pipeReadLoop_spec size evs _ _ b p' evs' (by simp; omega) h
      dsimp only [List.length_singleton] at *
      simp only [PipeR.rest, hn, e3, e2, Option.toList, List.nil_append]
      refine ⟨by rw [e1]; simp, ?_, e4, e6, by omega, fun _ => e5, ?_⟩
      · rw [e1, List.length_append, List.length_take, List.length_singleton]; omega
      · intro hi
        rw [(e8 hi).1]
        obtain ⟨s, rfl⟩ : ∃ s, size = s + 1 := ⟨size - 1, by omega⟩
        simp
    | none =>
      simp only [hn] at h
      obtain ⟨⟨n, hn', e1, e2⟩, e3, e4, e5, e6, e7, e8⟩ := pipeReadLoop_spec size evs _ _ b p' evs' (by simp) h
      simp only [PipeR.rest, hn, e3, e2, Option.toList, List.nil_append]
      rw [List.nil_append] at e1
      refine ⟨by rw [e1]; simp, ?_, e4, e6, by simpa using e7, fun _ => e5, ?_⟩
      · rw [e1, List.length_take]; simp only [List.length_nil] at hn'; omega
      · intro hi
        rw [(e8 hi).1]; simp

theorem pipeReadLoop_ends (size : Nat) : ∀ (evs : List SysEv) (p : PipeR) (got : Bytes), got.length ≤ size →
    (∀ ev ∈ evs, ev.Harmless ∧ ∀ g, ev ≠ .noSpace g) → SysEv.count evs > size - got.length → ∃ b p' evs', pipeReadLoop p size got evs = .done b p' evs' := by
  intro evs
  induction evs with
  | nil => intro f got _ _ h; simp [SysEv.count] at h
  | cons ev evs ih =>
    intro p got hg hh hc
    have hh' := fun e he => hh e (List.mem_cons_of_mem _ he)
    cases ev with
    | moved k =>
      simp only [pipeReadLoop]
      have hle : (p.src.take (min (min (size - got.length) ssizeMax) (k + 1))).length ≤ size - got.length := by
        simp only [List.length_take]; omega
      generalize min (min (size - got.length) ssizeMax) (k + 1) = m at hle
      by_cases hcc : (got ++ p.src.take m).length < size ∧ (p.src.take m).length > 0
      · rw [if_pos hcc]
        refine ih _ _ (by omega) hh' ?_
        have hc' := count_moved k evs
        rw [hc'] at hc
        simp only [List.length_append] at hcc ⊢
        omega
      · rw [if_neg hcc]; exact ⟨_, _, _, rfl⟩
    | intr => exact ⟨_, _, _, rfl⟩
    | noSpace g => exact absurd rfl ((hh _ List.mem_cons_self).2 g)
    | again => exact absurd (hh _ List.mem_cons_self).1 (by simp [SysEv.Harmless])
    | io => exact absurd (hh _ List.mem_cons_self).1 (by simp [SysEv.Harmless])
    | other => exact absurd (hh _ List.mem_cons_self).1 (by simp [SysEv.Harmless])

theorem pipeRead_ends (p : PipeR) (size : Nat) (evs : List SysEv) (hh : ∀ ev ∈ evs, ev.Harmless ∧ ∀ g, ev ≠ .noSpace g) (hc : SysEv.count evs > size) :
    ∃ b p' evs', pipeRead p size evs = .done b p' evs' := by
  unfold pipeRead
  by_cases h0 : size = 0
  · rw [if_pos h0]; exact ⟨_, _, _, rfl⟩
  · rw [if_neg h0]
    cases p.next with
    | some x => exact pipeReadLoop_ends size evs _ _ (by simp; omega) hh (by omega)
    | none => exact pipeReadLoop_ends size evs _ _ (by simp) hh (by omega)

theorem pipeDrop_spec : ∀ (n : Nat) (p : PipeR) (amount : Nat) (evs : List SysEv) (r : Bool) (p' : PipeR) (evs' : List SysEv),
    pipeDrop n p amount evs = .done r p' evs' →
    (∃ k, k ≤ amount ∧ k ≤ p.rest.length ∧ p'.rest = p.rest.drop k ∧ p'.pos = p.pos + k ∧ (r = true → k = amount)) ∧
    ((∀ e ∈ evs, e ≠ .intr) → r = decide (amount ≤ p.rest.length)) := by
  intro n
  induction n with
  | zero => intro p a evs r p' evs' h; simp [pipeDrop] at h
  | succ n ih =>
    intro p a evs r p' evs' h
    unfold pipeDrop at h
    by_cases h0 : a = 0
    · rw [if_pos h0] at h
      simp only [IoRes.done.injEq] at h
      obtain ⟨rfl, rfl, rfl⟩ := h
      subst h0
      exact ⟨⟨0, Nat.le_refl _, Nat.zero_le _, by simp, rfl, by simp⟩, by simp⟩
    · rw [if_neg h0] at h
      have hpos : min a pipeBuf > 0 := by unfold pipeBuf; omega
      have hmin : min a pipeBuf ≤ a := by omega
      generalize min a pipeBuf = m at h hpos hmin
      cases hr : pipeRead p m evs with
      | running q => rw [hr] at h; simp at h
      | failed e q => rw [hr] at h; simp at h
      | done b q evs1 =>
        rw [hr] at h
        dsimp only at h
        obtain ⟨e1, e2, e3, ⟨pre, e4⟩, e5, e6, e7⟩ := pipeRead_spec _ _ _ _ _ _ hr
        have hl : p.rest.length = b.length + q.rest.length := by rw [e1, List.length_append]
        have hd : p.rest.drop b.length = q.rest := by rw [e1]; simp
        by_cases hs : b.length < m
        · rw [if_pos hs] at h
          simp only [IoRes.done.injEq] at h
          obtain ⟨rfl, rfl, rfl⟩ := h
          refine ⟨⟨b.length, by omega, by omega, hd.symm, e3, by simp⟩, ?_⟩
          intro hi
          have h7 := e7 hi
          have : b.length = min m p.rest.length := by rw [h7, List.length_take]
          have : ¬ a ≤ p.rest.length := by omega
          simp [this]
        · rw [if_neg hs] at h
          obtain ⟨⟨k, k1, k2, k3, k4, k5⟩, k6⟩ := ih _ _ _ _ _ _ h
          have hbm : b.length = m := by omega
          refine ⟨⟨b.length + k, by omega, by omega, by rw [k3, ← hd, List.drop_drop], by omega, fun hr => by have := k5 hr; omega⟩, ?_⟩
          intro hi
          rw [k6 (fun e he => hi e (by rw [e4]; simp [he]))]
          congr 1
          rw [eq_iff_iff]
          omega

theorem pipeToEof_spec : ∀ (n : Nat) (p : PipeR) (evs : List SysEv) (r : Bool) (p' : PipeR) (evs' : List SysEv),
    pipeToEof n p evs = .done r p' evs' → (∀ e ∈ evs, e ≠ .intr) → p'.rest = [] ∧ p'.pos = p.pos + 2 * p.rest.length := by
  intro n
  induction n with
  | zero => intro p evs r p' evs' h; simp [pipeToEof] at h
  | succ n ih =>
    intro p evs r p' evs' h hi
    unfold pipeToEof at h
    cases hr : pipeRead p pipeBuf evs with
    | running q => rw [hr] at h; simp at h
    | failed e q => rw [hr] at h; simp at h
    | done b q evs1 =>
      rw [hr] at h
      dsimp only at h
      obtain ⟨e1, e2, e3, ⟨pre, e4⟩, e5, e6, e7⟩ := pipeRead_spec _ _ _ _ _ _ hr
      have hl : p.rest.length = b.length + q.rest.length := by rw [e1, List.length_append]
      by_cases hs : b.length > 0
      · rw [if_pos hs] at h
        obtain ⟨k1, k2⟩ := ih _ _ _ _ _ h (fun e he => hi e (by rw [e4]; simp [he]))
        have hq : (PipeR.mk q.src q.next (q.pos + b.length)).rest = q.rest := rfl
        rw [hq] at k2
        dsimp only at k2
        exact ⟨k1, by omega⟩
      · rw [if_neg hs] at h
        simp only [IoRes.done.injEq] at h
        obtain ⟨rfl, rfl, rfl⟩ := h
        have hb : b = [] := List.length_eq_zero_iff.mp (by omega)
        have h7 := e7 hi
        have hpr : p.rest = [] := by
          rw [hb] at h7
          have := congrArg List.length h7
          rw [List.length_take, List.length_nil] at this
          unfold pipeBuf at this
          exact List.length_eq_zero_iff.mp (by omega)
        have hq : q.rest = [] := by rw [hpr, hb] at e1; simpa using e1.symm
        exact ⟨hq, by rw [e3, hpr, hb]; simp⟩

theorem pipeWriteLoop_spec : ∀ (evs : List SysEv) (out a : Bytes),
    (∀ out' evs', pipeWriteLoop out evs a = .done () out' evs' → out' = out ++ a) ∧
    (∃ k, k ≤ a.length ∧ (pipeWriteLoop out evs a).state = out ++ a.take k) := by
  intro evs
  induction evs with
  | nil =>
    intro out a
    cases a with
    | nil =>
      refine ⟨?_, ⟨0, Nat.le_refl _, by simp [pipeWriteLoop, IoRes.state]⟩⟩
      intro out' evs' h
      simp only [pipeWriteLoop, IoRes.done.injEq, true_and] at h
      simp [h.1]
    | cons b bs => exact ⟨fun _ _ h => by simp [pipeWriteLoop] at h, ⟨0, Nat.zero_le _, by simp [pipeWriteLoop, IoRes.state]⟩⟩
  | cons ev evs ih =>
    intro out a
    cases a with
    | nil =>
      refine ⟨?_, ⟨0, Nat.le_refl _, by simp [pipeWriteLoop, IoRes.state]⟩⟩
      intro out' evs' h
      simp only [pipeWriteLoop, IoRes.done.injEq, true_and] at h
      simp [h.1]
    | cons b bs =>
      cases ev with
      | moved m =>
        simp only [pipeWriteLoop]
        have hle : min (if (b :: bs).length > ssizeMax / 2 then ssizeMax / 2 else (b :: bs).length) (m + 1) ≤ (b :: bs).length := by
          split
          · unfold ssizeMax at *; omega
          · simp only [List.length_cons]; omega
        generalize min (if (b :: bs).length > ssizeMax / 2 then ssizeMax / 2 else (b :: bs).length) (m + 1) = n at hle
        generalize b :: bs = a at hle
        obtain ⟨i1, ⟨k, hk, i2⟩⟩ := ih (out ++ a.take n) (a.drop n)
        refine ⟨?_, ⟨n + k, ?_, ?_⟩⟩
        · intro out' evs' h
          rw [i1 out' evs' h, List.append_assoc, List.take_append_drop]
        · rw [List.length_drop] at hk; omega
        · rw [i2, List.append_assoc, take_add_drop _ _ _ hle]
      | intr => simp only [pipeWriteLoop]; exact ih out (b :: bs)
      | noSpace g =>
        cases g with
        | true => simp only [pipeWriteLoop]; exact ih out (b :: bs)
        | false => exact ⟨fun _ _ h => by simp [pipeWriteLoop] at h, ⟨0, Nat.zero_le _, by simp [pipeWriteLoop, IoRes.state]⟩⟩
      | again => exact ⟨fun _ _ h => by simp [pipeWriteLoop] at h, ⟨0, Nat.zero_le _, by simp [pipeWriteLoop, IoRes.state]⟩⟩
      | io => exact ⟨fun _ _ h => by simp [pipeWriteLoop] at h, ⟨0, Nat.zero_le _, by simp [pipeWriteLoop, IoRes.state]⟩⟩
      | other => exact ⟨fun _ _ h => by simp [pipeWriteLoop] at h, ⟨0, Nat.zero_le _, by simp [pipeWriteLoop, IoRes.state]⟩⟩

theorem pipeWriteLoop_ends : ∀ (evs : List SysEv) (out a : Bytes), (∀ ev ∈ evs, ev.Harmless) → a.length ≤ SysEv.count evs →
    ∃ out' evs', pipeWriteLoop out evs a = .done () out' evs' := by
  intro evs
  induction evs with
  | nil =>
    intro out a _ h
    have : a = [] := by simpa [SysEv.count] using h
    subst this
    exact ⟨_, _, rfl⟩
  | cons ev evs ih =>
    intro out a hh hc
    have hh' := fun e he => hh e (List.mem_cons_of_mem _ he)
    cases a with
    | nil => exact ⟨_, _, rfl⟩
    | cons b bs =>
      cases ev with
      | moved m =>
        simp only [pipeWriteLoop]
        refine ih _ _ hh' ?_
        have hc' := count_moved m evs
        rw [hc'] at hc
        rw [List.length_drop]
        have : min (if (b :: bs).length > ssizeMax / 2 then ssizeMax / 2 else (b :: bs).length) (m + 1) > 0 := by
          split
          · unfold ssizeMax; omega
          · simp only [List.length_cons]; omega
        omega
      | intr => simp only [pipeWriteLoop]; exact ih _ _ hh' (by simpa [SysEv.count, SysEv.moves] using hc)
      | noSpace g =>
        have := hh _ List.mem_cons_self
        simp only [SysEv.Harmless] at this
        subst this
        simp only [pipeWriteLoop]; exact ih _ _ hh' (by simpa [SysEv.count, SysEv.moves] using hc)
      | again => exact absurd (hh _ List.mem_cons_self) (by simp [SysEv.Harmless])
      | io => exact absurd (hh _ List.mem_cons_self) (by simp [SysEv.Harmless])
      | other => exact absurd (hh _ List.mem_cons_self) (by simp [SysEv.Harmless])

end Dar
