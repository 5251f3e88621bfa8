import Verif.Lemmas.PipeIo
/- C61: files and pipes over system calls. -/
namespace Dar

/-! ### files -/

/-- C61: whatever the system does at each call (transferring less than asked, being interrupted), a reading that returns gives what an ordinary file gives: all
the bytes asked, or all those before the end of the file, and the position follows.  Whether it returns, fails or is stopped, the content of the file is
untouched and the position has not gone further than what was asked. -/
theorem C61_read (f : Flat) (size : Nat) (evs : List SysEv) :
    (∀ b f' evs', fileRead' f size evs = .done b f' evs' → (f', b) = f.read size) ∧
    (∃ n, n ≤ size ∧ (fileRead' f size evs).state = (f.read n).1) := by
  obtain ⟨h1, h2⟩ := localRead_spec size evs f [] (Nat.zero_le _)
  refine ⟨?_, by simpa [fileRead'] using h2⟩
  intro b f' evs' h
  obtain ⟨e1, e2⟩ := h1 b f' evs' h
  simp only [List.nil_append, List.length_nil, Nat.sub_zero] at e1 e2
  rw [e1, e2]

/-- C61: a reading returns as soon as the system has transferred something `size + 1` times, without error -/
theorem C61_read_returns (f : Flat) (size : Nat) (evs : List SysEv) (hh : ∀ ev ∈ evs, ev.Harmless ∧ ∀ g, ev ≠ .noSpace g) (hc : SysEv.count evs > size) :
    (fileRead' f size evs).Is (f.read size).2 (f.read size).1 := by
  obtain ⟨b, f', evs', h⟩ := localRead_ends size evs f [] (Nat.zero_le _) hh (by simpa using hc)
  have := (C61_read f size evs).1 b f' evs' h
  exact ⟨evs', by rw [← this]; exact h⟩

/-- C61: whatever the system does, a writing that returns has written all of the data at the position, and nothing else; one that fails or is stopped has written
a beginning of the data there and nothing else (so that what was already in the file around is untouched). -/
theorem C61_write (w : FileW) (hw : w.diskFull = false) (a : Bytes) (evs : List SysEv) :
    (∀ w' evs', fileWrite w a evs = .done () w' evs' → w' = ⟨w.file.write a, false⟩) ∧
    (∃ k, k ≤ a.length ∧ (fileWrite w a evs).state.file = w.file.write (a.take k)) ∧
    (∀ e w', fileWrite w a evs = .failed e w' → (w'.diskFull = true ↔ e = .userAbort)) :=
  globalLoop_spec _ w a evs hw

/-- C61: a writing returns as soon as the system has transferred something as many times as there are bytes, the user accepting to go on each time there is no more
space -/
theorem C61_write_returns (w : FileW) (hw : w.diskFull = false) (a : Bytes) (evs : List SysEv) (hh : ∀ ev ∈ evs, ev.Harmless) (hc : a.length ≤ SysEv.count evs) :
    (fileWrite w a evs).Is () ⟨w.file.write a, false⟩ := by
  obtain ⟨w', evs', h⟩ := globalLoop_ends (evs.length + 1) w a evs (Nat.lt_succ_self _) hh hc
  have := (C61_write w hw a evs).1 w' evs' h
  exact ⟨evs', by rw [← this]; exact h⟩

/-- C61 does not hold: once the user has refused to go on, the writings that follow are reported as done though nothing is written -/
theorem C61_not_after_full (w : FileW) (hw : w.diskFull = true) (a : Bytes) (evs : List SysEv) : fileWrite w a evs = .done () w evs := by
  unfold fileWrite globalLoop
  rw [if_pos (Or.inr hw)]

/-- C61: going to a position: done when the file system can have such a position, refused else; the content is untouched -/
theorem C61_skip (lim : Nat) (hl : lim ≤ offMax) (f : Flat) (q : Nat) :
    (q ≤ lim → fileSkip lim f q = (f.skip q, true)) ∧ (q > lim → (fileSkip lim f q).2 = false) ∧ (fileSkip lim f q).1.data = f.data := by
  have h0 : seekTo lim f 0 = some { f with pos := 0 } := by unfold seekTo; rw [if_pos (by omega)]; rfl
  unfold fileSkip
  rw [h0]
  dsimp only
  by_cases h : q ≤ lim
  · have := skipLoop_in lim hl (q + 1) { f with pos := 0 } q (by omega) (by dsimp only; omega)
    rw [this]
    exact ⟨fun _ => by simp [Flat.skip], fun h' => by omega, rfl⟩
  · have := skipLoop_out lim (q + 1) { f with pos := 0 } q (by omega) (by dsimp only; omega) (by dsimp only; omega)
    exact ⟨fun h' => absurd h' h, fun _ => this.1, this.2⟩

/-- C61: going to the end -/
theorem C61_skip_to_eof (lim : Nat) (f : Flat) (h : f.data.length ≤ lim) : fileSkipEof lim f = (f.skipEof, true) := by
  unfold fileSkipEof seekTo
  rw [if_pos (by omega)]
  rfl

/-- C61: going forward or backward: backward beyond the beginning goes to the beginning and tells so.  The least int is excluded: its opposite overflows. -/
theorem C61_skip_relative (lim : Nat) (f : Flat) (x : Int) (hx : x ≠ -2 ^ 31) (hf : f.pos ≤ lim) (hr : (f.pos : Int) + x ≤ lim) :
    fileSkipRel lim f x = .ok (f.skipRel x) := by
  unfold fileSkipRel Flat.skipRel seekTo
  by_cases h1 : x > 0
  · rw [if_pos h1, if_pos (by omega), if_neg (by omega)]
    have : ((f.pos : Int) + x).toNat = f.pos + x.natAbs := by omega
    rw [this]
  · rw [if_neg h1]
    by_cases h2 : x < 0
    · rw [if_pos h2, if_pos h2, if_neg hx]
      dsimp only
      by_cases h3 : (f.pos : Int) < -x
      · rw [if_pos h3, if_pos h3, if_pos (by omega)]
        simp [h3]
      · rw [if_neg h3, if_neg h3, if_pos (by omega)]
        have : ((f.pos : Int) + x).toNat = f.pos - x.natAbs := by omega
        rw [this]
        simp [h3]
    · have : x = 0 := by omega
      subst this
      simp

/-- C61: shortening a file; a position of the file after the cut is brought back to it -/
theorem C61_truncate (lim : Nat) (hl : lim ≤ offMax) (f : Flat) (hd : f.data.length ≤ lim) (hp : f.pos ≤ lim) (p : Nat) :
    (p ≤ offMax → fileTruncate lim f p = .ok (f.truncate p)) ∧ (p > offMax → fileTruncate lim f p = .error .range) := by
  constructor
  · intro h
    unfold fileTruncate
    rw [if_neg (by omega)]
    have h1 : seekTo lim f (f.data.length : Int) = some { f with pos := f.data.length } := by unfold seekTo; rw [if_pos (by omega)]; rfl
    rw [h1]
    dsimp only
    have h2 : seekTo lim { f with pos := f.data.length } (f.pos : Int) = some f := by unfold seekTo; rw [if_pos (by omega)]; rfl
    rw [h2]
    dsimp only
    unfold Flat.truncate
    by_cases hg : p ≥ f.data.length
    · rw [if_pos hg, if_pos hg]
    · rw [if_neg hg, if_neg hg]
      by_cases hq : f.pos > p
      · have hlen : (f.data.take p).length = p := by rw [List.length_take]; omega
        rw [if_pos hq, if_pos hq, C61_skip_to_eof lim _ (by dsimp only; omega)]
        simp only [Flat.skipEof, hlen]
      · rw [if_neg hq, if_neg hq]
  · intro h
    unfold fileTruncate
    rw [if_pos h]

/-! ### pipes -/

/-- C61: writing to a pipe: all of the data goes through, in order, once; a beginning of it when it fails or is stopped -/
theorem C61_pipe_write (out a : Bytes) (evs : List SysEv) :
    (∀ out' evs', pipeWriteLoop out evs a = .done () out' evs' → out' = out ++ a) ∧
    (∃ k, k ≤ a.length ∧ (pipeWriteLoop out evs a).state = out ++ a.take k) ∧
    ((∀ ev ∈ evs, ev.Harmless) → a.length ≤ SysEv.count evs → (pipeWriteLoop out evs a).Is () (out ++ a)) := by
  obtain ⟨h1, h2⟩ := pipeWriteLoop_spec evs out a
  refine ⟨h1, h2, ?_⟩
  intro hh hc
  obtain ⟨o, e, h⟩ := pipeWriteLoop_ends evs out a hh hc
  exact ⟨e, by rw [← h1 o e h]; exact h⟩

/-- C61: reading from a pipe: nothing is lost, repeated or invented (what has been given and what is still to come make what was to come), and the position
follows -/
theorem C61_pipe_read (p : PipeR) (size : Nat) (evs : List SysEv) (b : Bytes) (p' : PipeR) (evs' : List SysEv) (h : pipeRead p size evs = .done b p' evs') :
    p.rest = b ++ p'.rest ∧ b.length ≤ size ∧ p'.pos = p.pos + b.length := by
  obtain ⟨h1, h2, h3, -⟩ := pipeRead_spec _ _ _ _ _ _ h
  exact ⟨h1, h2, h3⟩

/-- C61 for pipes, *as far as no signal interrupts a reading*: all that is asked is given, less only at the end of the data.  With interruptions this fails, see
`C61_not_pipe_interrupted`. -/
theorem C61_pipe_read_all_partial (p : PipeR) (size : Nat) (evs : List SysEv) (hi : ∀ e ∈ evs, e ≠ .intr) :
    (∀ b p' evs', pipeRead p size evs = .done b p' evs' → b = p.rest.take size ∧ p'.rest = p.rest.drop size) ∧
    ((∀ ev ∈ evs, ev.Harmless ∧ ∀ g, ev ≠ .noSpace g) → SysEv.count evs > size → (pipeRead p size evs).Ended) := by
  constructor
  · intro b p' evs' h
    obtain ⟨h1, h2, h3, -, -, -, h7⟩ := pipeRead_spec _ _ _ _ _ _ h
    have hb := h7 hi
    refine ⟨hb, ?_⟩
    have : p.rest = p.rest.take size ++ p'.rest := by rw [← hb]; exact h1
    exact (List.append_cancel_left (this.symm.trans (List.take_append_drop size p.rest).symm))
  · intro hh hc
    obtain ⟨b, p', e, h⟩ := pipeRead_ends p size evs hh hc
    rw [h]
    trivial

/-- C61: looking whether there is something more to read changes nothing to what is read next -/
theorem C61_pipe_has_next (p : PipeR) (evs : List SysEv) (r : Bool) (p' : PipeR) (evs' : List SysEv) (h : pipeHasNext p evs = .done r p' evs') :
    p'.rest = p.rest ∧ p'.pos = p.pos ∧ (r = true → p.rest ≠ []) ∧ ((∀ ev ∈ evs, ∃ k, ev = .moved k) → (r = true ↔ p.rest ≠ [])) := by
  unfold pipeHasNext at h
  cases hn : p.next with
  | some b =>
    simp only [hn, IoRes.done.injEq] at h
    obtain ⟨rfl, rfl, rfl⟩ := h
    simp [PipeR.rest, hn]
  | none =>
    simp only [hn] at h
    cases evs with
    | nil => simp at h
    | cons ev evs =>
      cases ev with
      | moved k =>
        dsimp only at h
        cases hs : p.src with
        | nil =>
          rw [hs] at h
          simp only [IoRes.done.injEq] at h
          obtain ⟨rfl, rfl, rfl⟩ := h
          simp [PipeR.rest, hn, hs]
        | cons x l =>
          rw [hs] at h
          simp only [IoRes.done.injEq] at h
          obtain ⟨rfl, rfl, rfl⟩ := h
          simp [PipeR.rest, hn, hs]
      | intr =>
        simp only [IoRes.done.injEq] at h
        obtain ⟨rfl, rfl, rfl⟩ := h
        exact ⟨rfl, rfl, by simp, fun hm => by simpa using hm _ List.mem_cons_self⟩
      | noSpace g =>
        simp only [IoRes.done.injEq] at h
        obtain ⟨rfl, rfl, rfl⟩ := h
        exact ⟨rfl, rfl, by simp, fun hm => by simpa using hm _ List.mem_cons_self⟩
      | again =>
        simp only [IoRes.done.injEq] at h
        obtain ⟨rfl, rfl, rfl⟩ := h
        exact ⟨rfl, rfl, by simp, fun hm => by simpa using hm _ List.mem_cons_self⟩
      | io =>
        simp only [IoRes.done.injEq] at h
        obtain ⟨rfl, rfl, rfl⟩ := h
        exact ⟨rfl, rfl, by simp, fun hm => by simpa using hm _ List.mem_cons_self⟩
      | other =>
        simp only [IoRes.done.injEq] at h
        obtain ⟨rfl, rfl, rfl⟩ := h
        exact ⟨rfl, rfl, by simp, fun hm => by simpa using hm _ List.mem_cons_self⟩

/-- C61: going forward in a pipe: when it tells that it is done, the position is the one asked and exactly what was in between has been dropped; without
interruption it is done exactly when there was enough data.  Backward is refused. -/
theorem C61_pipe_skip (p : PipeR) (pos : Nat) (evs : List SysEv) :
    (∀ p' evs', pipeSkip p pos evs = .done true p' evs' → p'.pos = pos ∧ p'.rest = p.rest.drop (pos - p.pos)) ∧
    (∀ r p' evs', (∀ e ∈ evs, e ≠ .intr) → pipeSkip p pos evs = .done r p' evs' → r = decide (pos ≤ p.pos + p.rest.length)) ∧
    (pos < p.pos → pipeSkip p pos evs = .failed .range p) := by
  unfold pipeSkip
  by_cases h1 : pos < p.pos
  · rw [if_pos h1]
    exact ⟨by simp, by simp, fun _ => rfl⟩
  · rw [if_neg h1]
    by_cases h2 : pos = p.pos
    · rw [if_pos h2]
      refine ⟨?_, ?_, fun h => absurd h h1⟩
      · intro p' evs' h
        simp only [IoRes.done.injEq, true_and] at h
        obtain ⟨rfl, rfl⟩ := h
        exact ⟨h2.symm, by rw [h2]; simp⟩
      · intro r p' evs' _ h
        simp only [IoRes.done.injEq] at h
        obtain ⟨rfl, rfl, rfl⟩ := h
        simp [h2]
    · rw [if_neg h2]
      refine ⟨?_, ?_, fun h => absurd h h1⟩
      · intro p' evs' h
        obtain ⟨⟨k, k1, k2, k3, k4, k5⟩, -⟩ := pipeDrop_spec _ _ _ _ _ _ _ h
        have := k5 rfl
        subst this
        exact ⟨by omega, k3⟩
      · intro r p' evs' hi h
        rw [(pipeDrop_spec _ _ _ _ _ _ _ h).2 hi]
        congr 1
        rw [eq_iff_iff]
        omega

/-- C61: going to the end of a pipe does so, without interruption... -/
theorem C61_pipe_to_eof (n : Nat) (p : PipeR) (evs : List SysEv) (hi : ∀ e ∈ evs, e ≠ .intr) (r : Bool) (p' : PipeR) (evs' : List SysEv)
    (h : pipeToEof n p evs = .done r p' evs') : p'.rest = [] := (pipeToEof_spec n p evs r p' evs' h hi).1
/-- ...but C61 does not hold for the position: the bytes dropped on the way are counted twice -/
theorem C61_not_pipe_position (n : Nat) (p : PipeR) (evs : List SysEv) (hi : ∀ e ∈ evs, e ≠ .intr) (r : Bool) (p' : PipeR) (evs' : List SysEv)
    (h : pipeToEof n p evs = .done r p' evs') : p'.pos = p.pos + 2 * p.rest.length := (pipeToEof_spec n p evs r p' evs' h hi).2

/-- C61 does not hold for pipes when a signal arrives during a reading: less than asked is given though there is more, which the callers take for the end of the
data -/
theorem C61_not_pipe_interrupted (src : Bytes) (k n : Nat) (hk : k + 1 < n) (hn : n ≤ src.length) (hz : n ≤ ssizeMax) (evs : List SysEv) :
    pipeRead ⟨src, none, 0⟩ n (.moved k :: .intr :: evs) = .done (src.take (k + 1)) ⟨src.drop (k + 1), none, k + 1⟩ evs := by
  have hl : (src.take (k + 1)).length = k + 1 := by rw [List.length_take]; omega
  have hm : min (min (n - 0) ssizeMax) (k + 1) = k + 1 := by omega
  unfold pipeRead
  rw [if_neg (by omega)]
  simp only [pipeReadLoop, List.length_nil, hm, List.nil_append, hl]
  rw [if_pos (by omega)]
  simp
/-- the same for files is right: the interruption is not seen -/
theorem C61_file_interrupted (f : Flat) (k n : Nat) (b : Bytes) (f' : Flat) (evs evs' : List SysEv)
    (h : fileRead' f n (.moved k :: .intr :: evs) = .done b f' evs') : (f', b) = f.read n := (C61_read f n _).1 b f' evs' h

/-- C61 does not hold for pipes when a signal arrives while looking whether there is something more: it tells there is nothing -/
theorem C61_not_pipe_has_next (src : Bytes) (evs : List SysEv) : pipeHasNext ⟨src, none, 0⟩ (.intr :: evs) = .done false ⟨src, none, 0⟩ evs := rfl

/-! ### examples -/

example : fileRead' ⟨[1, 2, 3, 4, 5], 1⟩ 3 [.intr, .moved 0, .intr, .moved 0, .moved 7] = .done [2, 3, 4] ⟨[1, 2, 3, 4, 5], 4⟩ [] := rfl
example : fileWrite ⟨⟨[1, 2, 3], 2⟩, false⟩ [7, 8, 9] [.moved 0, .noSpace true, .intr, .moved 0, .noSpace true, .moved 5] = .done () ⟨⟨[1, 2, 7, 8, 9], 5⟩, false⟩ [] := by
  simp [fileWrite, globalLoop, localWrite, Flat.write, patch, ssizeMax]
example : fileWrite ⟨⟨[1, 2, 3], 2⟩, false⟩ [7, 8, 9] [.moved 0, .noSpace false] = .failed .userAbort ⟨⟨[1, 2, 7], 3⟩, true⟩ := by
  simp [fileWrite, globalLoop, localWrite, Flat.write, patch, ssizeMax]
example : pipeSkip ⟨[1, 2, 3, 4, 5], some 0, 10⟩ 13 [.moved 0, .moved 3] = .done true ⟨[3, 4, 5], none, 13⟩ [] := by
  simp [pipeSkip, pipeDrop, pipeRead, pipeReadLoop, ssizeMax, pipeBuf]
example : ∃ p' evs', pipeToEof 3 ⟨[1, 2, 3], none, 0⟩ [.moved 4, .moved 0, .moved 0] = .done true p' evs' := by
  simp [pipeToEof, pipeRead, pipeReadLoop, ssizeMax, pipeBuf]
example : (∀ ev ∈ [SysEv.moved 0, .intr, .moved 2, .moved 0], ev.Harmless ∧ ∀ g, ev ≠ .noSpace g) ∧ SysEv.count [SysEv.moved 0, .intr, .moved 2, .moved 0] > 2 := by
  exact ⟨by simp [SysEv.Harmless], by decide⟩

end Dar
