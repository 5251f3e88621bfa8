import Verif.Spec.FileIo
import Verif.Lemmas.Flat
import Mathlib.Tactic.Ring
namespace Dar

theorem count_moved (k : Nat) (evs : List SysEv) : SysEv.count (.moved k :: evs) = SysEv.count evs + 1 := by
  unfold SysEv.count
  rw [List.filter_cons_of_pos rfl]
  rfl

theorem flat_read_add (f : Flat) (m n : Nat) (h : (f.read m).2.length = m) :
    ((f.read m).1.read n).1 = (f.read (m + n)).1 ∧ (f.read m).2 ++ ((f.read m).1.read n).2 = (f.read (m + n)).2 := by
  obtain ⟨d, p⟩ := f
  simp only [Flat.read] at h ⊢
  have h2 : List.take (m + n) (d.drop p) = List.take m (d.drop p) ++ List.take n (d.drop (p + (List.take m (d.drop p)).length)) := by
    rw [h, List.take_add, List.drop_drop]
  constructor
  · rw [h2]; simp; omega
  · rw [h2]

theorem flat_read_short (f : Flat) (m n : Nat) (h : (f.read m).2.length < m) (hn : m ≤ n) : f.read n = f.read m := by
  obtain ⟨d, p⟩ := f
  simp only [Flat.read, List.length_take] at h ⊢
  have : (d.drop p).length < m := by omega
  rw [List.take_of_length_le (by omega), List.take_of_length_le (by omega), Nat.min_eq_right (by omega), Nat.min_eq_right (by omega)]

theorem flat_read_all (f : Flat) (m n : Nat) (hm : m ≤ n) (hne : (f.read m).2.length < m → (f.read m).2 ≠ [] → True) :
    ∃ k, k ≤ n ∧ (f.read m).1 = (f.read k).1 ∧ k = (f.read m).2.length ∧ (f.read m).2 = (f.read k).2 := by
  obtain ⟨d, p⟩ := f
  refine ⟨((Flat.mk d p).read m).2.length, ?_, ?_, rfl, ?_⟩
  · simp only [Flat.read, List.length_take]; omega
  · simp only [Flat.read, List.length_take, Flat.mk.injEq, true_and]; omega
  · simp only [Flat.read, List.length_take]
    apply List.ext_getElem?
    intro i
    simp only [List.getElem?_take, List.getElem?_drop, List.length_drop]
    by_cases h1 : i < m
    · by_cases h2 : i < d.length - p
      · rw [if_pos h1, if_pos (by omega)]
      · rw [if_pos h1, if_neg (by omega), List.getElem?_eq_none (by omega)]
    · rw [if_neg h1, if_neg (by omega)]

theorem localRead_spec (size : Nat) : ∀ (evs : List SysEv) (f : Flat) (got : Bytes), got.length ≤ size →
    (∀ b f' evs', localRead f size got evs = .done b f' evs' → b = got ++ (f.read (size - got.length)).2 ∧ f' = (f.read (size - got.length)).1) ∧
    (∃ n, n ≤ size - got.length ∧ (localRead f size got evs).state = (f.read n).1) := by
  intro evs
  induction evs with
  | nil =>
    intro f got hg
    refine ⟨fun b f' evs' h => by simp [localRead] at h, 0, Nat.zero_le _, ?_⟩
    simp [localRead, IoRes.state, Flat.read]
  | cons ev evs ih =>
    intro f got hg
    cases ev with
    | moved k =>
      simp only [localRead]
      have hle : min (min (size - got.length) ssizeMax) (k + 1) ≤ size - got.length := by omega
      have hp : size - got.length > 0 → min (min (size - got.length) ssizeMax) (k + 1) > 0 := by
        intro h; unfold ssizeMax; omega
      generalize min (min (size - got.length) ssizeMax) (k + 1) = m at hle hp
      obtain ⟨j, hj, e1, e2, e3⟩ := flat_read_all f m (size - got.length) hle (fun _ _ => trivial)
      have hjj : (f.read j).2.length = j := by rw [← e3, ← e2]
      rw [e1, e3]
      by_cases hc : (got ++ (f.read j).2).length < size ∧ (f.read j).2.length ≠ 0
      · rw [if_pos hc]
        have hl : (got ++ (f.read j).2).length ≤ size := by omega
        obtain ⟨i1, n, hn, i2⟩ := ih (f.read j).1 (got ++ (f.read j).2) hl
        have hsz : size - (got ++ (f.read j).2).length = size - got.length - j := by
          rw [List.length_append, hjj]; omega
        rw [hsz] at i1 hn
        constructor
        · intro b f' evs' h
          obtain ⟨a1, a2⟩ := i1 b f' evs' h
          obtain ⟨c1, c2⟩ := flat_read_add f j (size - got.length - j) hjj
          have : j + (size - got.length - j) = size - got.length := by omega
          rw [this] at c1 c2
          exact ⟨by rw [a1, List.append_assoc, c2], by rw [a2, c1]⟩
        · exact ⟨j + n, by omega, by rw [i2, (flat_read_add f j n hjj).1]⟩
      · rw [if_neg hc]
        refine ⟨?_, j, hj, by simp [IoRes.state]⟩
        intro b f' evs' h
        cases h
        have : f.read (size - got.length) = f.read j := by
          by_cases hz : j = 0
          · by_cases hs : size - got.length = 0
            · rw [hs, hz]
            · have h1 := hp (by omega)
              have : (f.read m).2.length < m := by omega
              rw [flat_read_short f m _ this hle]
              ext1
              · exact e1
              · exact e3
          · rw [hjj, List.length_append, hjj] at hc
            have : j = size - got.length := by omega
            rw [this]
        rw [this]
        exact ⟨rfl, rfl⟩
    | intr =>
      simp only [localRead]
      by_cases hc : got.length < size
      · rw [if_pos hc]; exact ih f got hg
      · rw [if_neg hc]
        have h0 : size - got.length = 0 := by omega
        rw [h0]
        refine ⟨?_, 0, Nat.le_refl _, by simp [IoRes.state, Flat.read]⟩
        intro b f' evs' h
        cases h
        simp [Flat.read]
    | noSpace g => exact ⟨fun b f' evs' h => by simp [localRead] at h, 0, Nat.zero_le _, by simp [localRead, IoRes.state, Flat.read]⟩
    | again => exact ⟨fun b f' evs' h => by simp [localRead] at h, 0, Nat.zero_le _, by simp [localRead, IoRes.state, Flat.read]⟩
    | io => exact ⟨fun b f' evs' h => by simp [localRead] at h, 0, Nat.zero_le _, by simp [localRead, IoRes.state, Flat.read]⟩
    | other => exact ⟨fun b f' evs' h => by simp [localRead] at h, 0, Nat.zero_le _, by simp [localRead, IoRes.state, Flat.read]⟩

theorem localRead_ends (size : Nat) : ∀ (evs : List SysEv) (f : Flat) (got : Bytes), got.length ≤ size →
    (∀ ev ∈ evs, ev.Harmless ∧ ∀ g, ev ≠ .noSpace g) → SysEv.count evs > size - got.length → ∃ b f' evs', localRead f size got evs = .done b f' evs' := by
  intro evs
  induction evs with
  | nil => intro f got _ _ h; simp [SysEv.count] at h
  | cons ev evs ih =>
    intro f got hg hh hc
    have hh' := fun e he => hh e (List.mem_cons_of_mem _ he)
    cases ev with
    | moved k =>
      simp only [localRead]
      have hle : (f.read (min (min (size - got.length) ssizeMax) (k + 1))).2.length ≤ size - got.length := by
        simp only [Flat.read, List.length_take]; omega
      generalize f.read (min (min (size - got.length) ssizeMax) (k + 1)) = r at hle
      by_cases hcc : (got ++ r.2).length < size ∧ r.2.length ≠ 0
      · rw [if_pos hcc]
        refine ih _ _ (by omega) hh' ?_
        have hc' : SysEv.count (.moved k :: evs) = SysEv.count evs + 1 := count_moved _ _
        rw [hc'] at hc
        simp only [List.length_append] at hcc ⊢
        omega
      · rw [if_neg hcc]; exact ⟨_, _, _, rfl⟩
    | intr =>
      simp only [localRead]
      by_cases hcc : got.length < size
      · rw [if_pos hcc]
        exact ih f got hg hh' (by simpa [SysEv.count, SysEv.moves] using hc)
      · rw [if_neg hcc]; exact ⟨_, _, _, rfl⟩
    | noSpace g => exact absurd rfl ((hh _ List.mem_cons_self).2 g)
    | again => exact absurd (hh _ List.mem_cons_self).1 (by simp [SysEv.Harmless])
    | io => exact absurd (hh _ List.mem_cons_self).1 (by simp [SysEv.Harmless])
    | other => exact absurd (hh _ List.mem_cons_self).1 (by simp [SysEv.Harmless])

/-! ### writing -/

theorem flat_write_nil (f : Flat) : f.write [] = f := by simp [Flat.write, patch]
theorem flat_write_add (f : Flat) (a b : Bytes) : (f.write a).write b = f.write (a ++ b) := by
  simp [Flat.write, patch_append, Nat.add_assoc]

theorem take_add_drop (a : Bytes) (n k : Nat) (h : n ≤ a.length) : a.take n ++ (a.drop n).take k = a.take (n + k) := by
  rw [List.take_add]

theorem localWrite_spec : ∀ (evs : List SysEv) (f : Flat) (a : Bytes),
    (∀ rest ans f' evs', localWrite f evs a = .done (rest, ans) f' evs' →
      (∃ k, k ≤ a.length ∧ f' = f.write (a.take k) ∧ rest = a.drop k) ∧ (ans = none ↔ rest = []) ∧ (rest ≠ [] → evs'.length < evs.length) ∧
      (∃ pre, evs = pre ++ evs') ∧ SysEv.count evs ≤ SysEv.count evs' + (a.length - rest.length)) ∧
    (∃ k, k ≤ a.length ∧ (localWrite f evs a).state = f.write (a.take k)) ∧
    (∀ f', localWrite f evs a ≠ .failed .userAbort f') := by
  intro evs
  induction evs with
  | nil =>
    intro f a
    cases a with
    | nil =>
      refine ⟨?_, ⟨0, Nat.le_refl _, by simp [localWrite, IoRes.state, flat_write_nil]⟩, by simp [localWrite]⟩
      intro rest ans f' evs' h
      simp only [localWrite, IoRes.done.injEq, Prod.mk.injEq] at h
      obtain ⟨⟨rfl, rfl⟩, rfl, rfl⟩ := h
      exact ⟨⟨0, Nat.le_refl _, by simp [flat_write_nil], rfl⟩, by simp, by simp, ⟨[], rfl⟩, by simp [SysEv.count]⟩
    | cons b bs =>
      exact ⟨fun _ _ _ _ h => by simp [localWrite] at h, ⟨0, Nat.zero_le _, by simp [localWrite, IoRes.state, flat_write_nil]⟩, by simp [localWrite]⟩
  | cons ev evs ih =>
    intro f a
    cases a with
    | nil =>
      refine ⟨?_, ⟨0, Nat.le_refl _, by simp [localWrite, IoRes.state, flat_write_nil]⟩, by simp [localWrite]⟩
      intro rest ans f' evs' h
      simp only [localWrite, IoRes.done.injEq, Prod.mk.injEq] at h
      obtain ⟨⟨rfl, rfl⟩, rfl, rfl⟩ := h
      exact ⟨⟨0, Nat.le_refl _, by simp [flat_write_nil], rfl⟩, by simp, by simp, ⟨[], rfl⟩, by simp⟩
    | cons b bs =>
      cases ev with
      | moved m =>
        simp only [localWrite]
        have hle : min (if (b :: bs).length > ssizeMax / 2 then ssizeMax / 2 else (b :: bs).length) (m + 1) ≤ (b :: bs).length ∧
            min (if (b :: bs).length > ssizeMax / 2 then ssizeMax / 2 else (b :: bs).length) (m + 1) > 0 := by
          split
          · unfold ssizeMax at *; omega
          · simp only [List.length_cons]; omega
        generalize min (if (b :: bs).length > ssizeMax / 2 then ssizeMax / 2 else (b :: bs).length) (m + 1) = n at hle
        generalize b :: bs = a at hle
        obtain ⟨i1, ⟨k, hk, i2⟩, i3⟩ := ih (f.write (a.take n)) (a.drop n)
        refine ⟨?_, ⟨n + k, ?_, ?_⟩, i3⟩
        · intro rest ans f' evs' h
          obtain ⟨⟨k, hk, e1, e2⟩, e3, e4, ⟨pre, e5⟩, e6⟩ := i1 rest ans f' evs' h
          refine ⟨⟨n + k, ?_, ?_, ?_⟩, e3, ?_, ⟨.moved m :: pre, by simp [e5]⟩, ?_⟩
          · rw [List.length_drop] at hk; omega
          · rw [e1, flat_write_add, take_add_drop _ _ _ hle.1]
          · rw [e2, List.drop_drop]
          · intro hr; have := e4 hr; simp only [List.length_cons]; omega
          · have hc' : SysEv.count (.moved m :: evs) = SysEv.count evs + 1 := count_moved _ _
            rw [hc']
            rw [e2] at e6 ⊢
            simp only [List.length_drop] at *
            omega
        · rw [List.length_drop] at hk; omega
        · rw [i2, flat_write_add, take_add_drop _ _ _ hle.1]
      | intr =>
        simp only [localWrite]
        obtain ⟨i1, i2, i3⟩ := ih f (b :: bs)
        refine ⟨?_, i2, i3⟩
        intro rest ans f' evs' h
        obtain ⟨e1, e3, e4, ⟨pre, e5⟩, e6⟩ := i1 rest ans f' evs' h
        refine ⟨e1, e3, ?_, ⟨.intr :: pre, by simp [e5]⟩, ?_⟩
        · intro hr; have := e4 hr; simp only [List.length_cons]; omega
        · have hc' : SysEv.count (.intr :: evs) = SysEv.count evs := by simp [SysEv.count, SysEv.moves]
          rw [hc']; exact e6
      | noSpace g =>
        simp only [localWrite]
        refine ⟨?_, ⟨0, Nat.zero_le _, by simp [IoRes.state, flat_write_nil]⟩, by simp⟩
        intro rest ans f' evs' h
        simp only [IoRes.done.injEq, Prod.mk.injEq] at h
        obtain ⟨⟨rfl, rfl⟩, rfl, rfl⟩ := h
        exact ⟨⟨0, Nat.zero_le _, by simp [flat_write_nil], rfl⟩, by simp, by simp, ⟨[.noSpace g], rfl⟩, by simp [SysEv.count, SysEv.moves]⟩
      | again => exact ⟨fun _ _ _ _ h => by simp [localWrite] at h, ⟨0, Nat.zero_le _, by simp [localWrite, IoRes.state, flat_write_nil]⟩, by simp [localWrite]⟩
      | io => exact ⟨fun _ _ _ _ h => by simp [localWrite] at h, ⟨0, Nat.zero_le _, by simp [localWrite, IoRes.state, flat_write_nil]⟩, by simp [localWrite]⟩
      | other => exact ⟨fun _ _ _ _ h => by simp [localWrite] at h, ⟨0, Nat.zero_le _, by simp [localWrite, IoRes.state, flat_write_nil]⟩, by simp [localWrite]⟩

theorem localWrite_ends : ∀ (evs : List SysEv) (f : Flat) (a : Bytes), (∀ ev ∈ evs, ev.Harmless) → a.length ≤ SysEv.count evs →
    ∃ rest ans f' evs', localWrite f evs a = .done (rest, ans) f' evs' ∧ ans ≠ some false := by
  intro evs
  induction evs with
  | nil =>
    intro f a _ h
    have : a = [] := by simpa [SysEv.count] using h
    subst this
    exact ⟨_, _, _, _, rfl, by simp⟩
  | cons ev evs ih =>
    intro f a hh hc
    have hh' := fun e he => hh e (List.mem_cons_of_mem _ he)
    cases a with
    | nil => exact ⟨_, _, _, _, rfl, by simp⟩
    | cons b bs =>
      cases ev with
      | moved m =>
        simp only [localWrite]
        refine ih _ _ hh' ?_
        have hc' : SysEv.count (.moved m :: evs) = SysEv.count evs + 1 := count_moved _ _
        rw [hc'] at hc
        rw [List.length_drop]
        have : min (if (b :: bs).length > ssizeMax / 2 then ssizeMax / 2 else (b :: bs).length) (m + 1) > 0 := by
          split
          · unfold ssizeMax; omega
          · simp only [List.length_cons]; omega
        omega
      | intr =>
        simp only [localWrite]
        exact ih _ _ hh' (by simpa [SysEv.count, SysEv.moves] using hc)
      | noSpace g =>
        have := hh _ List.mem_cons_self
        simp only [SysEv.Harmless] at this
        subst this
        exact ⟨_, _, _, _, rfl, by simp⟩
      | again => exact absurd (hh _ List.mem_cons_self) (by simp [SysEv.Harmless])
      | io => exact absurd (hh _ List.mem_cons_self) (by simp [SysEv.Harmless])
      | other => exact absurd (hh _ List.mem_cons_self) (by simp [SysEv.Harmless])

theorem globalLoop_spec : ∀ (n : Nat) (w : FileW) (a : Bytes) (evs : List SysEv), w.diskFull = false →
    (∀ w' evs', globalLoop n w a evs = .done () w' evs' → w' = ⟨w.file.write a, false⟩) ∧
    (∃ k, k ≤ a.length ∧ (globalLoop n w a evs).state.file = w.file.write (a.take k)) ∧
    (∀ e w', globalLoop n w a evs = .failed e w' → (w'.diskFull = true ↔ e = .userAbort)) := by
  intro n
  induction n with
  | zero =>
    intro w a evs _
    exact ⟨fun _ _ h => by simp [globalLoop] at h, ⟨0, Nat.zero_le _, by simp [globalLoop, IoRes.state, flat_write_nil]⟩, fun _ _ h => by simp [globalLoop] at h⟩
  | succ n ih =>
    intro w a evs hw
    unfold globalLoop
    by_cases ha : a = []
    · rw [if_pos (Or.inl ha)]
      subst ha
      refine ⟨?_, ⟨0, Nat.le_refl _, by simp [IoRes.state, flat_write_nil]⟩, by simp⟩
      intro w' evs' h
      simp only [IoRes.done.injEq, true_and] at h
      rw [← h.1, flat_write_nil, ← hw]
    · rw [if_neg (by simp [ha, hw])]
      obtain ⟨s1, ⟨k, hk, s2⟩, s3⟩ := localWrite_spec evs w.file a
      cases hl : localWrite w.file evs a with
      | running f =>
        rw [hl] at s2
        exact ⟨fun _ _ h => by simp at h, ⟨k, hk, by simpa [IoRes.state] using s2⟩, fun _ _ h => by simp at h⟩
      | failed e f =>
        rw [hl] at s2
        refine ⟨fun _ _ h => by simp at h, ⟨k, hk, by simpa [IoRes.state] using s2⟩, ?_⟩
        intro e' w' h
        simp only [IoRes.failed.injEq] at h
        obtain ⟨rfl, rfl⟩ := h
        have : e ≠ .userAbort := fun he => s3 f (by rw [hl, he])
        simp [hw, this]
      | done r f evs' =>
        obtain ⟨rest, ans⟩ := r
        obtain ⟨⟨k, hk, e1, e2⟩, e3, -, -, -⟩ := s1 rest ans f evs' hl
        dsimp only
        by_cases hr : rest = []
        · rw [if_pos hr]
          have hka : a.take k = a := by
            have : (a.drop k).length = 0 := by rw [← e2, hr]; rfl
            rw [List.length_drop] at this
            exact List.take_of_length_le (by omega)
          refine ⟨?_, ⟨k, hk, by simpa [IoRes.state] using e1⟩, by simp⟩
          intro w' evs'' h
          simp only [IoRes.done.injEq, true_and] at h
          rw [← h.1, e1, hka, ← hw]
        · rw [if_neg hr]
          cases ans with
          | none => exact absurd (e3.mp rfl) hr
          | some g =>
            cases g with
            | false =>
              refine ⟨by simp, ⟨k, hk, by simpa [IoRes.state] using e1⟩, ?_⟩
              intro e' w' h
              simp only [IoRes.failed.injEq] at h
              obtain ⟨rfl, rfl⟩ := h
              simp
            | true =>
              dsimp only
              obtain ⟨i1, ⟨j, hj, i2⟩, i3⟩ := ih { w with file := f } rest evs' hw
              refine ⟨?_, ⟨k + j, ?_, ?_⟩, i3⟩
              · intro w' evs'' h
                rw [i1 w' evs'' h]
                dsimp only
                rw [e1, flat_write_add, e2, List.take_append_drop]
              · rw [e2, List.length_drop] at hj; omega
              · rw [i2]
                dsimp only
                rw [e1, flat_write_add, e2, take_add_drop _ _ _ hk]

theorem globalLoop_ends : ∀ (n : Nat) (w : FileW) (a : Bytes) (evs : List SysEv), evs.length < n → (∀ ev ∈ evs, ev.Harmless) → a.length ≤ SysEv.count evs →
    ∃ w' evs', globalLoop n w a evs = .done () w' evs' := by
  intro n
  induction n with
  | zero => intro w a evs h; omega
  | succ n ih =>
    intro w a evs hn hh hc
    unfold globalLoop
    by_cases ha : a = [] ∨ w.diskFull
    · rw [if_pos ha]; exact ⟨_, _, rfl⟩
    · rw [if_neg ha]
      obtain ⟨rest, ans, f', evs', hl, hans⟩ := localWrite_ends evs w.file a hh hc
      obtain ⟨⟨k, hk, e1, e2⟩, e3, e4, ⟨pre, e5⟩, e6⟩ := (localWrite_spec evs w.file a).1 rest ans f' evs' hl
      rw [hl]
      dsimp only
      by_cases hr : rest = []
      · rw [if_pos hr]; exact ⟨_, _, rfl⟩
      · rw [if_neg hr]
        cases ans with
        | none => exact absurd (e3.mp rfl) hr
        | some g =>
          cases g with
          | false => exact absurd rfl hans
          | true =>
            refine ih _ _ _ (by have := e4 hr; omega) (fun e he => hh e (by rw [e5]; simp [he])) ?_
            have : rest.length ≤ a.length := by rw [e2, List.length_drop]; omega
            omega

/-! ### positions -/

theorem skipLoop_in (lim : Nat) (hl : lim ≤ offMax) : ∀ (n : Nat) (f : Flat) (q : Nat), q < n → f.pos + q ≤ lim →
    skipLoop lim n f q = ({ f with pos := f.pos + q }, true) := by
  intro n f q hn hq
  cases n with
  | zero => omega
  | succ n =>
    unfold skipLoop
    have hmin : min q offMax = q := by omega
    simp only [hmin]
    by_cases h0 : q > 0
    · rw [if_pos h0]
      have : seekTo lim f ((f.pos : Int) + (q : Int)) = some { f with pos := f.pos + q } := by
        unfold seekTo; rw [if_pos (by omega)]; congr
      rw [this]
      dsimp only
      rw [Nat.sub_self]
      cases n with
      | zero => simp [skipLoop]
      | succ n => simp [skipLoop]
    · have : q = 0 := by omega
      subst this
      simp

theorem skipLoop_out (lim : Nat) : ∀ (n : Nat) (f : Flat) (q : Nat), q < n → f.pos + q > lim → f.pos ≤ lim →
    (skipLoop lim n f q).2 = false ∧ (skipLoop lim n f q).1.data = f.data := by
  intro n
  induction n with
  | zero => intro f q h; omega
  | succ n ih =>
    intro f q hn hq hp
    unfold skipLoop
    dsimp only
    have hd : min q offMax > 0 := by unfold offMax; omega
    rw [if_pos hd]
    by_cases hs : f.pos + min q offMax ≤ lim
    · have : seekTo lim f ((f.pos : Int) + ((min q offMax : Nat) : Int)) = some { f with pos := f.pos + min q offMax } := by
        unfold seekTo; rw [if_pos (by omega)]; congr
      rw [this]
      dsimp only
      exact ih { f with pos := f.pos + min q offMax } (q - min q offMax) (by omega) (by dsimp only; omega) hs
    · have : seekTo lim f ((f.pos : Int) + ((min q offMax : Nat) : Int)) = none := by
        unfold seekTo; rw [if_neg (by omega)]
      rw [this]
      exact ⟨rfl, rfl⟩

end Dar
