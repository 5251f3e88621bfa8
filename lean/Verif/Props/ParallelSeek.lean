import Verif.Lemmas.ParallelSeek5
/- Property C75: reading an encrypted archive with several threads, at any positions in any order, gives the clear data. -/
namespace Dar
open Pt
variable {α : Type}

theorem Pt.Inv.skipRel {e : PtEnv α} {D : List α} (G : Good e D) {s : PtSt α} (h : Inv e D s) (b : Bool) (x : Nat)
    (hx : b = false → s.cur + x ≤ D.length) :
    ∃ r s', s.skipRel e b x = .ok (r, s') ∧ Inv e D s' ∧
      (r, s'.cur) = if b then (if x ≤ s.cur then (true, s.cur - x) else (false, 0)) else (true, s.cur + x) := by
  unfold PtSt.skipRel
  have hc : s.cur ≤ D.length := by
    rcases h with h | ⟨-, b, c, h, -⟩
    · exact h.1.cur
    · exact h.cur
  cases b with
  | true =>
    by_cases hle : x ≤ s.cur
    · obtain ⟨s', h1, h2, h3⟩ := h.skip G (s.cur - x) (by omega)
      exact ⟨true, s', by simp [hle, h1], h2, by simp [hle, h3]⟩
    · obtain ⟨s', h1, h2, h3⟩ := h.skip G 0 (by omega)
      exact ⟨false, s', by simp [hle, h1], h2, by simp [hle, h3]⟩
  | false =>
    obtain ⟨s', h1, h2, h3⟩ := h.skip G (s.cur + x) (hx rfl)
    exact ⟨true, s', by simp [h1], h2, by simp [h3]⟩

theorem Pt.Inv.call {e : PtEnv α} {D : List α} (G : Good e D) {s : PtSt α} (h : Inv e D s) (o : Op) (r : List α × Bool) (p : Nat)
    (hs : specOp D s.cur o = some (r, p)) : ∃ s', Pt.call e s o = .ok (r, s') ∧ Inv e D s' ∧ s'.cur = p := by
  cases o with
  | read n =>
    simp only [specOp, Option.some.injEq, Prod.mk.injEq] at hs
    obtain ⟨rfl, rfl⟩ := hs
    obtain ⟨s', h1, h2, h3⟩ := h.read G n
    exact ⟨s', by simp only [Pt.call, h1], h2, h3⟩
  | skip q =>
    simp only [specOp] at hs
    split at hs
    · rename_i hq
      simp only [Option.some.injEq, Prod.mk.injEq] at hs
      obtain ⟨rfl, rfl⟩ := hs
      obtain ⟨s', h1, h2, h3⟩ := h.skip G q hq
      exact ⟨s', by simp only [Pt.call, h1], h2, h3⟩
    · cases hs
  | move b x =>
    cases b with
    | true =>
      obtain ⟨r', s', h1, h2, h3⟩ := h.skipRel G true x (fun h => by cases h)
      simp only [if_true] at h3
      simp only [specOp] at hs
      split at hs
      · rename_i hx
        simp only [Option.some.injEq, Prod.mk.injEq] at hs
        obtain ⟨rfl, rfl⟩ := hs
        simp only [hx, if_true, Prod.mk.injEq] at h3
        exact ⟨s', by simp only [Pt.call, h1, h3.1], h2, h3.2⟩
      · rename_i hx
        simp only [Option.some.injEq, Prod.mk.injEq] at hs
        obtain ⟨rfl, rfl⟩ := hs
        simp only [hx, if_false, Prod.mk.injEq] at h3
        exact ⟨s', by simp only [Pt.call, h1, h3.1], h2, h3.2⟩
    | false =>
      simp only [specOp] at hs
      split at hs
      · rename_i hx
        simp only [Option.some.injEq, Prod.mk.injEq] at hs
        obtain ⟨rfl, rfl⟩ := hs
        obtain ⟨r', s', h1, h2, h3⟩ := h.skipRel G false x (fun _ => hx)
        simp only [Bool.false_eq_true, if_false, Prod.mk.injEq] at h3
        exact ⟨s', by simp only [Pt.call, h1, h3.1], h2, h3.2⟩
      · cases hs
  | flush =>
    simp only [specOp, Option.some.injEq, Prod.mk.injEq] at hs
    obtain ⟨rfl, rfl⟩ := hs
    obtain ⟨s', h1, h2, h3, -⟩ := h.flush G
    exact ⟨s', by simp only [Pt.call, h1], h2, h3⟩

theorem Pt.Inv.calls {e : PtEnv α} {D : List α} (G : Good e D) : ∀ (os : List Op) {s : PtSt α}, Inv e D s → ∀ (rs : List (List α × Bool)) (p : Nat),
    spec D s.cur os = some (rs, p) → ∃ s', Pt.calls e s os = .ok (rs, s') ∧ Inv e D s' ∧ s'.cur = p
  | [], s, h, rs, p, hs => by
      simp only [spec, Option.some.injEq, Prod.mk.injEq] at hs
      obtain ⟨rfl, rfl⟩ := hs
      exact ⟨s, rfl, h, rfl⟩
  | o :: os, s, h, rs, p, hs => by
      simp only [spec] at hs
      cases h1 : specOp D s.cur o with
      | none => rw [h1] at hs; cases hs
      | some x =>
        obtain ⟨r, p'⟩ := x
        rw [h1] at hs
        dsimp only at hs
        obtain ⟨s', a1, a2, a3⟩ := h.call G o r p' h1
        cases h2 : spec D p' os with
        | none => rw [h2] at hs; cases hs
        | some x =>
          obtain ⟨rs', p''⟩ := x
          rw [h2] at hs
          simp only [Option.some.injEq, Prod.mk.injEq] at hs
          obtain ⟨rfl, rfl⟩ := hs
          rw [← a3] at h2
          obtain ⟨s'', b1, b2, b3⟩ := Pt.Inv.calls G os a2 rs' p'' h2
          exact ⟨s'', by simp only [Pt.calls, a1, b1], b2, b3⟩

/-- Whatever the number of worker threads, however they are scheduled and however the deciphered blocks are handed over, any sequence of
reads and seeks within the data gives what it gives on the clear data: no wrong byte, no dead-lock, no internal error. -/
theorem C75_reads_and_seeks (e : PtEnv α) (D : List α) (G : Good e D) (os : List Op) (rs : List (List α × Bool)) (p : Nat)
    (h : spec D 0 os = some (rs, p)) : ∃ s, calls e PtSt.init os = .ok (rs, s) ∧ s.cur = p := by
  obtain ⟨s, h1, _, h2⟩ := (init_inv e D).calls G os rs p h
  exact ⟨s, h1, h2⟩

/-- In particular the result depends neither on the schedule, nor on the number of threads, nor on the size of the blocks. -/
theorem C75_schedule_independent (e e' : PtEnv α) (D : List α) (G : Good e D) (G' : Good e' D) (os : List Op) (h : (spec D 0 os).isSome) :
    ∃ rs s s', calls e PtSt.init os = .ok (rs, s) ∧ calls e' PtSt.init os = .ok (rs, s') ∧ s.cur = s'.cur := by
  obtain ⟨⟨rs, p⟩, hr⟩ := Option.isSome_iff_exists.mp h
  obtain ⟨s, h1, h2⟩ := C75_reads_and_seeks e D G os rs p hr
  obtain ⟨s', h1', h2'⟩ := C75_reads_and_seeks e' D G' os rs p hr
  exact ⟨rs, s, s', h1, h1', by rw [h2, h2']⟩

theorem Pt.Inv.skipToEof {e : PtEnv α} {D : List α} (G : Good e D) {s : PtSt α} (h : Inv e D s) (he : s.lusEof = false) (m : Nat) (hm : e.cb ≤ m)
    (hfull : e.short = false → D.length = e.nb * e.cb) :
    ∃ s', s.skipToEof e m = .ok s' ∧ s'.cur = D.length := by
  unfold PtSt.skipToEof
  obtain ⟨s1, h1, -, -, hS, hle⟩ := h.flush G
  rw [h1]
  dsimp only
  by_cases hsh : e.short = true ∧ 0 < e.nb
  · rw [if_pos hsh]
    have hlt := G.tight (e.nb - 1) (by omega)
    have hen := G.enough
    have hmul : e.nb * e.cb = (e.nb - 1) * e.cb + e.cb := by
      obtain ⟨n, hn⟩ : ∃ n, e.nb = n + 1 := ⟨e.nb - 1, by omega⟩
      rw [hn, Nat.succ_mul]; rfl
    have hS' : Susp D ({ s1 with cur := (e.nb - 1) * e.cb } : PtSt α) := ⟨hS.run, hS.wait, hS.lus, hS.q, hS.ign, by dsimp only; omega⟩
    obtain ⟨s2, a1, a2, a3, a4, a5, a6, a7, a8⟩ := hS'.goRead G
    rw [a1]
    dsimp only
    have hI : Inv e D s2 := Or.inr ⟨by rw [a7]; exact hle.trans he, false, _, by
      have : pend e s2 = e.n := by simp [pend, a6]
      rw [this]; exact a2, (fun hx => by rw [a3] at hx; cases hx), by simp [a6]⟩
    obtain ⟨s3, b1, b2, b3⟩ := hI.read G m
    have hcb := G.cbpos
    have a5' : s2.cur = (e.nb - 1) * e.cb := a5
    have h3 : s3.cur = D.length := by rw [b3, a5']; omega
    rw [PtSt.drain, b1]
    dsimp only
    by_cases hl : ((D.drop s2.cur).take m).length = m
    · rw [if_pos hl, PtSt.drain]
      obtain ⟨s4, c1, c2, c3⟩ := b2.read G m
      rw [c1]
      dsimp only
      rw [if_neg (by rw [h3]; simp; omega)]
      exact ⟨s4, rfl, by rw [c3, h3]; omega⟩
    · rw [if_neg hl]
      exact ⟨s3, rfl, h3⟩
  · rw [if_neg hsh]
    refine ⟨_, rfl, ?_⟩
    dsimp only
    by_cases hs : e.short = true
    · have h0 : e.nb = 0 := Nat.eq_zero_of_not_pos (fun h => hsh ⟨hs, h⟩)
      have := G.enough
      rw [h0] at this ⊢
      omega
    · exact (hfull (by simpa using hs)).symm

/-- `skip_to_eof` leads to the end of the data, unless the end has already been met (see below). -/
theorem C75_skip_to_eof_partial (e : PtEnv α) (D : List α) (G : Good e D) (os : List Op) (rs : List (List α × Bool)) (p : Nat)
    (h : spec D 0 os = some (rs, p)) (s : PtSt α) (hs : calls e PtSt.init os = .ok (rs, s)) (he : s.lusEof = false) (m : Nat) (hm : e.cb ≤ m)
    (hfull : e.short = false → D.length = e.nb * e.cb) : ∃ s', s.skipToEof e m = .ok s' ∧ s'.cur = D.length := by
  obtain ⟨s0, h1, h2, _⟩ := (init_inv e D).calls G os rs p h
  rw [h1] at hs
  simp only [Except.ok.injEq, Prod.mk.injEq, true_and] at hs
  subst hs
  exact h2.skipToEof G he m hm hfull

/-- twelve bytes in blocks of two, two workers, everything read in advance, blocks handed over by two -/
def ptToy : PtEnv Nat :=
  { nb := 6, cb := 2, n := 2, clear := fun i => some [2 * i, 2 * i + 1], fix := fun _ => none, short := false, canSkip := fun _ => true,
    sched := fun k => (2 * k + 3, 1) }

theorem C75_good_example : Good ptToy [0, 1, 2, 3, 4, 5, 6, 7, 8, 9, 10, 11] :=
  ⟨by decide, by decide, fun i hi => by
    have hi : i < 6 := hi
    obtain h | h | h | h | h | h : i = 0 ∨ i = 1 ∨ i = 2 ∨ i = 3 ∨ i = 4 ∨ i = 5 := by omega
    all_goals (subst h; rfl), by decide, fun i hi => by
    have hi : i < 6 := hi
    show i * 2 < 12
    omega, fun _ _ => rfl⟩

/-- reads, a seek forward found in the pipe, a seek backward, one to the end: by computation -/
example : (calls ptToy PtSt.init [.read 3, .skip 7, .read 2, .move true 8, .read 4, .flush, .skip 11, .read 5, .read 1, .skip 2, .read 1]).map Prod.fst =
    .ok [([0, 1, 2], true), ([], true), ([7, 8], true), ([], true), ([1, 2, 3, 4], true), ([], true), ([], true), ([11], true), ([], true), ([], true),
      ([2], true)] := rfl

example : (spec (List.range 12) 0 [.read 3, .skip 7, .read 2, .move true 8, .read 4, .flush, .skip 11, .read 5, .read 1, .skip 2, .read 1]).map Prod.fst =
    some [([0, 1, 2], true), ([], true), ([7, 8], true), ([], true), ([1, 2, 3, 4], true), ([], true), ([], true), ([11], true), ([], true), ([], true),
      ([2], true)] := rfl

/-- Seeking forward over a damaged block: the position of what follows is lost (the damaged block is dropped without being counted) and the data
read is not the one asked for, without any error.  Here block 1 (bytes 2 and 3) cannot be deciphered; byte 9 is asked for and byte 11 given. -/
theorem C75_seek_over_damaged_block_counterexample :
    ∃ e : PtEnv Nat, (∀ i, i < e.nb → i ≠ 1 → e.clear i = ptToy.clear i) ∧ e.clear 1 = none ∧ e.fix 1 = none ∧ e.cb = 2 ∧ e.nb = 6 ∧
      (calls e PtSt.init [.read 1, .skip 9, .read 1]).map Prod.fst = .ok [([0], true), ([], true), ([11], true)] :=
  ⟨{ ptToy with n := 1, clear := fun i => if i = 1 then none else some [2 * i, 2 * i + 1], sched := fun _ => (10, 0) },
    (by intro i _ h; simp [ptToy, h]), rfl, rfl, rfl, rfl, rfl⟩

/-- Seeking after the end of the data but within the room of the last block: the next read reports a bug of libdar instead of the end of file. -/
theorem C75_seek_past_end_counterexample :
    ∃ (e : PtEnv Nat) (D : List Nat), Good e D ∧ D.length = 5 ∧ (calls e PtSt.init [.skip 7, .read 1]).map Prod.fst = .error .bug :=
  ⟨{ ptToy with nb := 2, cb := 4, clear := fun i => some (if i = 0 then [0, 1, 2, 3] else [4]), short := true }, [0, 1, 2, 3, 4],
    ⟨by decide, by decide, fun i hi => by
      have hi : i < 2 := hi
      obtain h | h : i = 0 ∨ i = 1 := by omega
      all_goals (subst h; rfl), by decide, fun i hi => by
      have hi : i < 2 := hi
      show i * 4 < 5
      omega, fun _ _ => rfl⟩, rfl, rfl⟩

/-- When the clear data that follows the encrypted one begins in the middle of a full block, the caller's thread removes it and deciphers what
remains, but has already noted that the end was reached: the last bytes of the data are never returned. -/
theorem C75_last_block_lost_counterexample :
    ∃ e : PtEnv Nat, e.clear 5 = none ∧ e.fix 5 = some [10] ∧
      (calls e PtSt.init [.read 20, .read 20]).map Prod.fst = .ok [([0, 1, 2, 3, 4, 5, 6, 7, 8, 9], true), ([], true)] :=
  ⟨{ ptToy with clear := fun i => if i = 5 then none else some [2 * i, 2 * i + 1], fix := fun i => if i = 5 then some [10] else none }, rfl, rfl,
    rfl⟩

/-- `skip_to_eof` once the end has been met leads to the beginning of the last block. -/
theorem C75_skip_to_eof_counterexample :
    ∃ (e : PtEnv Nat) (D : List Nat) (s s' : PtSt Nat), Good e D ∧ D.length = 5 ∧ calls e PtSt.init [.read 9] = .ok ([(D, true)], s) ∧
      s.cur = 5 ∧ s.skipToEof e 4 = .ok s' ∧ s'.cur = 4 := by
  refine ⟨{ ptToy with nb := 2, cb := 4, clear := fun i => some (if i = 0 then [0, 1, 2, 3] else [4]), short := true }, [0, 1, 2, 3, 4], _, _,
    ⟨by decide, by decide, fun i hi => by
      have hi : i < 2 := hi
      obtain h | h : i = 0 ∨ i = 1 := by omega
      all_goals (subst h; rfl), by decide, fun i hi => by
      have hi : i < 2 := hi
      show i * 4 < 5
      omega, fun _ _ => rfl⟩, rfl, rfl, rfl, rfl, rfl⟩

end Dar
