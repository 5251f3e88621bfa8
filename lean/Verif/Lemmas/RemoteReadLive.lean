import Verif.Lemmas.RemoteReadFull
namespace Dar.Lc
open Dar

/-- the thread waits for a free block when there is none -/
def Sub.wants : Sub → Prop
  | .feed _ _ _ _ => True
  | .fin2 => True
  | _ => False

structure Base (c : Cfg) (s : St) : Prop where
  md : s.md = true → s.q = [] ∧ s.sub = .gone
  late : s.sub.late → s.md = true ∨ s.dying = true
  len : s.q.length ≤ c.cap

def Phase (c : Cfg) (s : St) : Prop := match s.pc with
  | .idle => s.endm = true → s.md = true
  | .entry _ => s.endm = true → s.md = true
  | .sst _ _ => s.endm = true → s.md = true
  | .sstD _ _ => s.md = false ∧ s.endm = false
  | .stop _ => s.md = false ∧ s.endm = false
  | .stopF _ => s.md = false ∧ s.endm = true
  | .join _ => s.md = false ∧ (s.sub = .gone ∨ (s.endm = true ∧ (s.sub.wants → s.q.length < c.cap)))
  | .fetch _ => s.md = false ∧ s.endm = false ∧ (s.q ≠ [] ∨ ¬ s.sub.mute)
  | .threw _ => True
  | _ => s.md = false ∧ s.endm = false

def Inv3 (c : Cfg) (s : St) : Prop := (∃ e, s.pc = .threw e) ∨ (Base c s ∧ Phase c s)

theorem base_sub {c : Cfg} {k : Nat} {fail : Bool} {s s' : St} (h : subStep c k fail s = some s') (hB : Base c s) : Base c s' := by
  have hm : s.md = false := by
    cases hx : s.md with
    | false => rfl
    | true => have := (hB.md hx).2; simp only [subStep, this] at h; cases h
  have hm' : s'.md = false := (subStep_keeps h).md.trans hm
  have hlen : s'.q.length ≤ c.cap := by
    have hl := hB.len
    cases hx : s.sub <;> simp only [subStep, hx] at h
    case gone => cases h
    case feed =>
      split at h <;> cases h
      rename_i hlt; show (s.q ++ [_]).length ≤ _; rw [List.length_append]; exact hlt
    case fin2 =>
      split at h <;> cases h
      rename_i hlt; show (s.q ++ [_]).length ≤ _; rw [List.length_append]; exact hlt
    all_goals
      repeat' split at h
      all_goals first | (cases h; done) | (cases h; exact hl)
  refine ⟨(fun h => by rw [hm'] at h; cases h), (fun hl => Or.inr ?_), hlen⟩
  by_cases hs : s.sub.late
  · exact (subStep_keeps h).dying ((hB.late hs).resolve_left (by rw [hm]; intro h; cases h))
  · cases hx : s.sub <;> rw [hx] at hs <;> simp only [subStep, hx] at h <;> first | (exact absurd trivial hs) | skip
    case fin0 => cases h; rfl
    all_goals
      repeat' split at h
      all_goals first | (cases h; done) | (cases h; cases hl; done)

theorem phase_sub {c : Cfg} {k : Nat} {fail : Bool} {s s' : St} (h : subStep c k fail s = some s') (hP : Phase c s) : Phase c s' := by
  have K := subStep_keeps h
  unfold Phase at hP ⊢
  rw [K.pc, K.md, K.endm]
  cases hpc : s.pc with
  | fetch r =>
    rw [hpc] at hP
    refine ⟨hP.1, hP.2.1, ?_⟩
    have hen := hP.2.1
    rcases hP.2.2 with hq | hq
    · left; intro h'; have := K.q.length_le; rw [h'] at this
      exact hq (List.length_eq_zero_iff.mp (by simpa using this))
    · cases hx : s.sub <;> rw [hx] at hq <;> simp only [subStep, hx] at h <;> first | (exact absurd trivial hq) | skip
      case fin1 =>
        rw [if_neg (by rw [hen]; intro h; cases h)] at h
        cases h; right; intro h; cases h
      case fin2 =>
        split at h <;> cases h
        left; intro h; exact absurd h (by simp)
      all_goals
        repeat' split at h
        all_goals first | (cases h; done) | (cases h; right; intro h; cases h; done)
  | join k =>
    rw [hpc] at hP
    refine ⟨hP.1, ?_⟩
    rcases hP.2 with hg | ⟨hen, hw⟩
    · simp only [subStep, hg] at h; cases h
    · refine Or.inr ⟨hen, ?_⟩
      cases hx : s.sub <;> simp only [subStep, hx] at h
      case gone => cases h
      case push cur loc p rest =>
        rw [if_neg (by rw [hen]; intro h; cases h.1)] at h
        repeat' split at h
        all_goals (cases h; intro h; cases h)
      case fin1 =>
        rw [if_pos hen] at h
        cases h; intro h; cases h
      all_goals
        repeat' split at h
        all_goals first | (cases h; done) | (cases h; intro h; cases h; done)
  | idle => rw [hpc] at hP; exact hP
  | threw e => trivial
  | entry r => rw [hpc] at hP; exact hP
  | sst r f => rw [hpc] at hP; exact hP
  | sstD r f => rw [hpc] at hP; exact hP
  | stop k => rw [hpc] at hP; exact hP
  | stopF k => rw [hpc] at hP; exact hP
  | t0 r => rw [hpc] at hP; exact hP
  | t1 r => rw [hpc] at hP; exact hP
  | tail r => rw [hpc] at hP; exact hP
  | o0 r => rw [hpc] at hP; exact hP
  | o1 r => rw [hpc] at hP; exact hP

theorem runThread_inv3 {c : Cfg} {s : St} {pc : Pc} (hpc : pc = .idle ∨ (∃ r, pc = .t0 r) ∨ ∃ r, pc = .o0 r) : Inv3 c (runThread c s pc) := by
  rcases runThread_cases c s pc with ⟨_, h⟩ | h
  · rw [h]
    refine Or.inr ⟨⟨(fun h => by cases h), (fun h => ?_), Nat.zero_le _⟩, ?_⟩
    · cases h
    · rcases hpc with h | ⟨r, h⟩ | ⟨r, h⟩ <;> subst h
      · intro h; cases h
      · exact ⟨rfl, rfl⟩
      · exact ⟨rfl, rfl⟩
  · rw [h]; exact Or.inl ⟨_, rfl⟩

theorem afterSst_or (r : Rd) (f : Bool) : afterSst r f = .idle ∨ (∃ r', afterSst r f = .t0 r') ∨ ∃ r', afterSst r f = .o0 r' := by
  cases f
  · exact Or.inr (Or.inr ⟨r, rfl⟩)
  · exact Or.inr (Or.inl ⟨r, rfl⟩)

theorem mainStep_inv3 {c : Cfg} (hc : 0 < c.cap) {s s' : St} (h : mainStep c s = some s') (hI : Inv3 c s) : Inv3 c s' := by
  rcases hI with ⟨e, he⟩ | ⟨hB, hP⟩
  · simp only [mainStep, he] at h; cases h
  have hef : s.md = false → (s.endm = true → s.md = true) → s.endm = false := by
    intro h1 h2
    cases hx : s.endm with
    | false => rfl
    | true => have := h2 hx; rw [h1] at this; cases this
  have hafter : ∀ (r : Rd) (f : Bool), s.md = false → s.endm = false → Phase c { s with pc := afterSst r f } := by
    intro r f h1 h2; cases f <;> exact ⟨h1, h2⟩
  unfold Phase at hP
  cases hpc : s.pc with
  | idle => simp only [mainStep, hpc] at h; cases h
  | threw e => simp only [mainStep, hpc] at h; cases h
  | entry r =>
    rw [hpc] at hP
    simp only [mainStep, hpc] at h
    split at h
    · split at h
      · cases h; exact Or.inl ⟨_, rfl⟩
      · cases h; exact Or.inr ⟨⟨hB.1, hB.2, hB.3⟩, hP⟩
    · cases h; exact Or.inr ⟨⟨hB.1, hB.2, hB.3⟩, hP⟩
  | sst r f =>
    rw [hpc] at hP
    simp only [mainStep, hpc] at h
    split at h
    · rename_i hq
      cases h
      have hm : s.md = false := by
        cases hx : s.md with
        | false => rfl
        | true => exact absurd (hB.md hx).1 hq
      exact Or.inr ⟨⟨hB.1, hB.2, hB.3⟩, hafter r f hm (hef hm hP)⟩
    split at h
    · unfold toData at h
      repeat' split at h
      all_goals (cases h; exact runThread_inv3 (afterSst_or _ _))
    · rename_i hm
      have hm : s.md = false := Bool.eq_false_iff.mpr hm
      cases h; exact Or.inr ⟨⟨hB.1, hB.2, hB.3⟩, hm, hef hm hP⟩
  | sstD r f =>
    rw [hpc] at hP
    simp only [mainStep, hpc] at h
    split at h <;> cases h
    · exact Or.inr ⟨⟨hB.1, hB.2, hB.3⟩, hP⟩
    · exact Or.inr ⟨⟨hB.1, hB.2, hB.3⟩, hafter r f hP.1 hP.2⟩
  | stop k =>
    rw [hpc] at hP
    simp only [mainStep, hpc] at h
    split at h
    · cases h; exact Or.inr ⟨⟨hB.1, hB.2, hB.3⟩, hP.1, rfl⟩
    · rename_i hg
      cases h
      refine Or.inr ⟨⟨hB.1, hB.2, hB.3⟩, hP.1, Or.inl ?_⟩
      show s.sub = .gone
      cases hx : s.sub <;> first | rfl | (exact absurd (by rw [hx]; intro h; cases h) hg)
  | stopF k =>
    rw [hpc] at hP
    simp only [mainStep, hpc] at h
    have hm : s.md ≠ true := by rw [hP.1]; intro h; cases h
    split at h
    · rename_i hq
      cases h
      refine Or.inr ⟨⟨fun h => absurd h hm, hB.2, by show (s.q.drop 1).length ≤ _; rw [List.length_drop]; have := hB.3; omega⟩, hP.1, Or.inr ⟨hP.2, fun _ => ?_⟩⟩
      show (s.q.drop 1).length < c.cap
      rw [List.length_drop]; have := hB.3; omega
    · rename_i hq
      cases h
      exact Or.inr ⟨⟨hB.1, hB.2, hB.3⟩, hP.1, Or.inr ⟨hP.2, fun _ => Nat.lt_of_not_le hq⟩⟩
  | join k =>
    rw [hpc] at hP
    simp only [mainStep, hpc] at h
    split at h
    · rename_i hg
      cases he : s.exc with
      | some e => rw [he] at h; simp only at h; cases h; exact Or.inl ⟨_, rfl⟩
      | none =>
        rw [he] at h
        simp only at h
        cases k with
        | skip p => simp only at h; cases h; exact Or.inr ⟨⟨fun _ => ⟨rfl, hg⟩, fun _ => Or.inl rfl, Nat.zero_le _⟩, fun _ => rfl⟩
        | rel n r f => simp only at h; cases h; exact runThread_inv3 (afterSst_or _ _)
        | ahead n =>
          simp only at h
          have := runThread_inv3 (c := c) (s := { s with resume := 0, net := if c.ftp = true then 0 else n, exc := none }) (pc := .idle) (Or.inl rfl)
          generalize hx : runThread c { s with resume := 0, net := if c.ftp = true then 0 else n, exc := none } .idle = x at this
          have h' : some (if x.pc = .idle then { x with log := .ahead n :: x.log } else x) = some s' := by rw [← hx]; exact h
          clear h
          split at h'
          · rename_i hi
            cases h'
            rcases this with ⟨e, he⟩ | ⟨hb, hp⟩
            · rw [hi] at he; cases he
            · refine Or.inr ⟨⟨hb.1, hb.2, hb.3⟩, ?_⟩
              unfold Phase at hp ⊢
              rw [hi] at hp
              rw [show ({ x with log := .ahead n :: x.log } : St).pc = .idle from hi]
              exact hp
          · cases h'; exact this
    · cases h
  | t0 r =>
    rw [hpc] at hP
    simp only [mainStep, hpc] at h
    split at h
    · cases h; exact Or.inr ⟨⟨hB.1, hB.2, hB.3⟩, hP⟩
    split at h
    · rename_i hd
      cases h
      refine Or.inr ⟨⟨hB.1, hB.2, hB.3⟩, hP.1, hP.2, Or.inr ?_⟩
      show ¬ s.sub.mute
      intro hmu
      have : s.sub.late := by cases hx : s.sub <;> rw [hx] at hmu <;> first | trivial | (cases hmu; done)
      rcases hB.late this with h | h
      · rw [hP.1] at h; cases h
      · rw [hd] at h; cases h
    · cases h; exact Or.inr ⟨⟨hB.1, hB.2, hB.3⟩, hP⟩
  | t1 r =>
    rw [hpc] at hP
    simp only [mainStep, hpc] at h
    split at h
    · rename_i hq; cases h; exact Or.inr ⟨⟨hB.1, hB.2, hB.3⟩, hP.1, hP.2, Or.inl hq⟩
    · cases h; exact Or.inr ⟨⟨hB.1, hB.2, hB.3⟩, hP⟩
  | fetch r =>
    rw [hpc] at hP
    simp only [mainStep, hpc] at h
    have hm : s.md ≠ true := by rw [hP.1]; intro h; cases h
    cases hq : s.q with
    | nil => rw [hq] at h; simp only at h; cases h
    | cons b q =>
      rw [hq] at h
      simp only at h
      have hlen := hB.3
      rw [hq] at hlen
      split at h <;> cases h
      · exact Or.inr ⟨⟨fun h => absurd h hm, hB.2, Nat.le_of_succ_le hlen⟩, hP.1, hP.2.1⟩
      · exact Or.inr ⟨⟨fun h => absurd h hm, hB.2, hlen⟩, hP.1, hP.2.1⟩
  | tail r =>
    rw [hpc] at hP
    simp only [mainStep, hpc] at h
    split at h <;> cases h
    · exact Or.inr ⟨⟨hB.1, hB.2, hB.3⟩, fun h => absurd h (by show s.endm ≠ true; rw [hP.2]; intro h; cases h)⟩
    · exact Or.inr ⟨⟨hB.1, hB.2, hB.3⟩, hP⟩
  | o0 r =>
    rw [hpc] at hP
    simp only [mainStep, hpc] at h
    split at h
    · cases h; exact Or.inr ⟨⟨hB.1, hB.2, hB.3⟩, fun h => absurd h (by show s.endm ≠ true; rw [hP.2]; intro h; cases h)⟩
    split at h <;> cases h <;> exact Or.inr ⟨⟨hB.1, hB.2, hB.3⟩, hP⟩
  | o1 r =>
    rw [hpc] at hP
    simp only [mainStep, hpc] at h
    split at h
    · cases h; exact Or.inr ⟨⟨hB.1, hB.2, hB.3⟩, hP⟩
    · cases h; exact Or.inr ⟨⟨hB.1, hB.2, hB.3⟩, fun h => absurd h (by show s.endm ≠ true; rw [hP.2]; intro h; cases h)⟩

theorem callStep_inv3 {c : Cfg} {s : St} {k : Call} (hpc : s.pc = .idle) (hI : Inv3 c s) : Inv3 c (callStep c k s) := by
  rcases hI with ⟨e, he⟩ | ⟨hB, hP⟩
  · rw [hpc] at he; cases he
  unfold Phase at hP
  rw [hpc] at hP
  have hP : s.endm = true → s.md = true := hP
  have hidle : ∀ (x : St), x.pc = .idle → (x.endm = true → x.md = true) → Phase c x := by intro x h1 h2; unfold Phase; rw [h1]; exact h2
  have hst : ¬ s.md = true → s.md = false ∧ s.endm = false := fun h =>
    ⟨Bool.eq_false_iff.mpr h, Bool.eq_false_iff.mpr (fun he => h (hP he))⟩
  cases k with
  | read n => exact Or.inr ⟨⟨hB.1, hB.2, hB.3⟩, hP⟩
  | skip pos =>
    simp only [callStep]
    split
    · exact Or.inr ⟨⟨hB.1, hB.2, hB.3⟩, hidle _ hpc hP⟩
    split
    · rename_i hm
      exact Or.inr ⟨⟨fun _ => ⟨rfl, (hB.1 hm).2⟩, hB.2, Nat.zero_le _⟩, hidle _ hpc hP⟩
    · rename_i hm
      exact Or.inr ⟨⟨hB.1, hB.2, hB.3⟩, hst hm⟩
  | ahead n =>
    simp only [callStep]
    split
    · exact Or.inr ⟨⟨hB.1, hB.2, hB.3⟩, hidle _ hpc hP⟩
    split
    · have := runThread_inv3 (c := c) (s := { s with net := if c.ftp = true then 0 else n, resume := if (if c.ftp = true then 0 else n) = 0 then s.off else s.resume }) (pc := .idle) (Or.inl rfl)
      unfold toData
      generalize runThread c { s with net := if c.ftp = true then 0 else n, resume := if (if c.ftp = true then 0 else n) = 0 then s.off else s.resume } .idle = x at this
      split
      · rename_i hi
        rcases this with ⟨e, he⟩ | ⟨hb, hp⟩
        · rw [hi] at he; cases he
        · unfold Phase at hp
          rw [hi] at hp
          exact Or.inr ⟨⟨hb.1, hb.2, hb.3⟩, hidle _ hi hp⟩
      · exact this
    · rename_i hm
      split
      · exact Or.inr ⟨⟨hB.1, hB.2, hB.3⟩, hst hm⟩
      · exact Or.inr ⟨⟨hB.1, hB.2, hB.3⟩, hidle _ hpc hP⟩

theorem reach_inv3 {c : Cfg} {P : Call → Prop} (hc : 0 < c.cap) {s : St} (h : Reach c P s) : Inv3 c s := by
  induction h with
  | init => exact Or.inr ⟨⟨fun _ => ⟨rfl, rfl⟩, fun _ => Or.inl rfl, Nat.zero_le _⟩, fun h => by cases h⟩
  | step _ hs ih => cases hs with
    | call k hk' hi => exact callStep_inv3 hi ih
    | main h => exact mainStep_inv3 hc h ih
    | sub k f h =>
      rcases ih with ⟨e, he⟩ | ⟨hB, hP⟩
      · exact Or.inl ⟨e, (subStep_keeps h).pc.trans he⟩
      · exact Or.inr ⟨base_sub h hB, phase_sub h hP⟩

/-- the thread can go on unless it has ended or waits for a free block in a full pipe -/
theorem subStep_some {c : Cfg} {s : St} (hg : s.sub ≠ .gone) (hw : s.sub.wants → s.q.length < c.cap) : ∃ k s', subStep c k false s = some s' := by
  refine ⟨1, ?_⟩
  cases hx : s.sub with
  | gone => exact absurd hx hg
  | ready cur loc => exact ⟨_, by simp only [subStep, hx]; rfl⟩
  | xfer cur loc p =>
    simp only [subStep, hx]
    rw [if_neg (by intro h; cases h)]
    split
    · rename_i hlt; rw [if_pos ⟨Nat.one_pos, hlt⟩]; exact ⟨_, rfl⟩
    · repeat' split
      all_goals exact ⟨_, rfl⟩
  | push cur loc p rest => simp only [subStep, hx]; repeat' split
                           all_goals exact ⟨_, rfl⟩
  | feed cur loc p rest => rw [hx] at hw; simp only [subStep, hx]; rw [if_pos (hw trivial)]; exact ⟨_, rfl⟩
  | fin0 => exact ⟨_, by simp only [subStep, hx]; rfl⟩
  | fin1 => simp only [subStep, hx]; split <;> exact ⟨_, rfl⟩
  | fin2 => rw [hx] at hw; simp only [subStep, hx]; rw [if_pos (hw trivial)]; exact ⟨_, rfl⟩
  | fin3 => exact ⟨_, by simp only [subStep, hx]; rfl⟩

theorem progress {c : Cfg} {P : Call → Prop} (hc : 0 < c.cap) {s : St} (h : Reach c P s) (hi : s.pc ≠ .idle) (ht : ∀ e, s.pc ≠ .threw e) :
    (∃ s', mainStep c s = some s') ∨ ∃ k s', subStep c k false s = some s' := by
  rcases reach_inv3 hc h with ⟨e, he⟩ | ⟨hB, hP⟩
  · exact absurd he (ht e)
  unfold Phase at hP
  cases hpc : s.pc with
  | idle => exact absurd hpc hi
  | threw e => exact absurd hpc (ht e)
  | fetch r =>
    rw [hpc] at hP
    cases hq : s.q with
    | cons b q =>
      left
      simp only [mainStep, hpc, hq]
      split <;> exact ⟨_, rfl⟩
    | nil =>
      right
      rcases hP.2.2 with h | h
      · exact absurd hq h
      · exact subStep_some (by intro hg; rw [hg] at h; exact h trivial) (fun _ => by rw [hq]; exact hc)
  | join k =>
    rw [hpc] at hP
    by_cases hg : s.sub = .gone
    · left
      simp only [mainStep, hpc]
      rw [if_pos hg]
      cases s.exc <;> cases k <;> exact ⟨_, rfl⟩
    · right
      exact subStep_some hg (hP.2.resolve_left hg).2
  | entry r => left; simp only [mainStep, hpc]; repeat' split
               all_goals exact ⟨_, rfl⟩
  | sst r f => left; simp only [mainStep, hpc]; repeat' split
               all_goals exact ⟨_, rfl⟩
  | sstD r f => left; simp only [mainStep, hpc]; repeat' split
                all_goals exact ⟨_, rfl⟩
  | stop k => left; simp only [mainStep, hpc]; repeat' split
              all_goals exact ⟨_, rfl⟩
  | stopF k => left; simp only [mainStep, hpc]; repeat' split
               all_goals exact ⟨_, rfl⟩
  | t0 r => left; simp only [mainStep, hpc]; repeat' split
            all_goals exact ⟨_, rfl⟩
  | t1 r => left; simp only [mainStep, hpc]; repeat' split
            all_goals exact ⟨_, rfl⟩
  | tail r => left; simp only [mainStep, hpc]; repeat' split
              all_goals exact ⟨_, rfl⟩
  | o0 r => left; simp only [mainStep, hpc]; repeat' split
            all_goals exact ⟨_, rfl⟩
  | o1 r => left; simp only [mainStep, hpc]; repeat' split
            all_goals exact ⟨_, rfl⟩

end Dar.Lc
