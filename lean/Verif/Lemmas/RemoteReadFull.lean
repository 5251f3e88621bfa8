import Verif.Lemmas.RemoteRead
namespace Dar.Lc
open Dar

/-- the thread has nothing more to put in the pipe -/
def Sub.mute : Sub → Prop
  | .fin3 | .gone => True
  | _ => False

theorem late_step {c : Cfg} {k : Nat} {fail : Bool} {s s' : St} (h : subStep c k fail s = some s') (hl : s.sub.late) : s'.sub.late ∧ s'.exc = s.exc := by
  cases hs : s.sub <;> rw [hs] at hl <;> simp only [subStep, hs] at h <;> first | (cases hl; done) | skip
  · cases h
  · split at h <;> cases h <;> exact ⟨trivial, rfl⟩
  · split at h <;> cases h; exact ⟨trivial, rfl⟩
  · cases h; exact ⟨trivial, rfl⟩
theorem mute_step {c : Cfg} {k : Nat} {fail : Bool} {s s' : St} (h : subStep c k fail s = some s') (hl : s.sub.mute) : s'.sub.mute ∧ s'.q = s.q := by
  cases hs : s.sub <;> rw [hs] at hl <;> simp only [subStep, hs] at h <;> first | (cases hl; done) | skip
  · cases h
  · cases h; exact ⟨trivial, rfl⟩
theorem live_exc {c : Cfg} {k : Nat} {s s' : St} {pos : Nat} (h : subStep c k false s = some s') (hL : Live c pos s) (he : s.exc = none) : s'.exc = none := by
  have hst := hL.stop
  have hla := hL.late
  cases hs : s.sub <;> simp only [subStep, hs] at h
  case gone => cases h
  case push cur loc p rest =>
    rw [hs] at hla
    have hend : s.endm ≠ true := fun h => hla (hst h)
    split at h
    · cases h; exact he
    rename_i hn
    split at h
    · cases h; exact he
    · rename_i hr
      exact absurd ⟨Bool.eq_false_iff.mpr hend, hr⟩ hn
  all_goals
    repeat' split at h
    all_goals first | (cases h; done) | (cases h; exact he) | (cases h; contradiction)

def Good (c : Cfg) (log : List Done) (goal : Nat) (r : Rd) : Prop := min (posAfter log + r.size) c.size ≤ goal
def SzOk (c : Cfg) (log : List Done) (r : Rd) : Prop := r.size = r.n ∨ c.size ≤ posAfter log + r.size

def Calm (c : Cfg) (s : St) : Prop := match s.pc with
  | .idle => s.exc = none
  | .entry r => s.exc = none ∧ r.size = r.n ∧ r.maybe = false
  | .sst r f => s.exc = none ∧ SzOk c s.log r ∧ (f = true → r.maybe = false) ∧ (f = false → s.q = [] ∧ s.dying = true ∧ s.sub.mute ∧ s.md = false)
  | .sstD r f => s.exc = none ∧ SzOk c s.log r ∧ (f = true → r.maybe = false) ∧ (f = false → s.dying = true)
  | .stop (.rel need r f) => s.exc = none ∧ SzOk c s.log r ∧ (f = true → r.maybe = false) ∧ s.sub.late ∧ need = r.need
  | .stopF (.rel need r f) => s.exc = none ∧ SzOk c s.log r ∧ (f = true → r.maybe = false) ∧ s.sub.late ∧ need = r.need
  | .join (.rel need r f) => s.exc = none ∧ SzOk c s.log r ∧ (f = true → r.maybe = false) ∧ s.sub.late ∧ need = r.need
  | .stop (.ahead _) => s.exc = none ∧ s.sub.late
  | .stopF (.ahead _) => s.exc = none ∧ s.sub.late
  | .join (.ahead _) => s.exc = none ∧ s.sub.late
  | .stop (.skip _) => True
  | .stopF (.skip _) => True
  | .join (.skip _) => True
  | .t0 r => s.exc = none ∧ SzOk c s.log r ∧ s.md = false ∧ (r.maybe = true → Good c s.log s.goal r)
  | .fetch r => s.exc = none ∧ SzOk c s.log r ∧ s.md = false ∧ (r.maybe = true → Good c s.log s.goal r)
  | .t1 r => (s.exc = none ∧ SzOk c s.log r ∧ s.md = false ∧ (r.maybe = true → Good c s.log s.goal r)) ∧ s.dying = true ∧ s.sub.mute
  | .tail r => (s.exc = none ∧ SzOk c s.log r ∧ s.md = false ∧ (r.maybe = true → Good c s.log s.goal r)) ∧
      (r.got.length < r.size → s.q = [] ∧ s.dying = true ∧ s.sub.mute)
  | .o0 r => (s.exc = none ∧ SzOk c s.log r ∧ s.md = false ∧ (r.maybe = true → Good c s.log s.goal r)) ∧
      (r.got.length < r.size → c.size ≤ s.off ∨ Good c s.log s.goal r)
  | .o1 r => (s.exc = none ∧ SzOk c s.log r ∧ s.md = false ∧ (r.maybe = true → Good c s.log s.goal r)) ∧
      (r.got.length < r.size → c.size ≤ s.off ∨ Good c s.log s.goal r) ∧ s.sub = .gone
  | .threw _ => True

theorem stream_exc {c : Cfg} {k : Nat} {s s' : St} {pos : Nat} (h : subStep c k false s = some s') (hS : Stream c pos s) (he : s.exc = none) : s'.exc = none := by
  rcases hS with ⟨_, hg, _⟩ | ⟨_, hl⟩
  · simp only [subStep, hg] at h; cases h
  · exact live_exc h hl he

theorem subStep_calm {c : Cfg} {k : Nat} {s s' : St} (h : subStep c k false s = some s') (hP : PcOk c s) (hC : Calm c s) : Calm c s' := by
  have K := subStep_keeps h
  unfold PcOk at hP
  unfold Calm at hC ⊢
  rw [K.pc, K.log, K.off, K.md, K.goal]
  cases hpc : s.pc with
  | idle => rw [hpc] at hP hC; exact stream_exc h hP.2 hC
  | threw e => trivial
  | entry r => rw [hpc] at hP hC; exact ⟨stream_exc h hP.2.2 hC.1, hC.2⟩
  | sst r f =>
    rw [hpc] at hP hC
    refine ⟨stream_exc h hP.2.2.2 hC.1, hC.2.1, hC.2.2.1, fun hf => ?_⟩
    obtain ⟨a, b, d, e⟩ := hC.2.2.2 hf
    have := mute_step h d
    exact ⟨this.2.trans a, K.dying b, this.1, e⟩
  | sstD r f => rw [hpc] at hP hC; exact ⟨live_exc h hP.2.2.2 hC.1, hC.2.1, hC.2.2.1, fun hf => K.dying (hC.2.2.2 hf)⟩
  | stop k => rw [hpc] at hP hC; cases k with
    | skip p => trivial
    | rel n r f => have := late_step h hC.2.2.2.1; exact ⟨this.2.trans hC.1, hC.2.1, hC.2.2.1, this.1, hC.2.2.2.2⟩
    | ahead n => have := late_step h hC.2; exact ⟨this.2.trans hC.1, this.1⟩
  | stopF k => rw [hpc] at hP hC; cases k with
    | skip p => trivial
    | rel n r f => have := late_step h hC.2.2.2.1; exact ⟨this.2.trans hC.1, hC.2.1, hC.2.2.1, this.1, hC.2.2.2.2⟩
    | ahead n => have := late_step h hC.2; exact ⟨this.2.trans hC.1, this.1⟩
  | join k => rw [hpc] at hP hC; cases k with
    | skip p => trivial
    | rel n r f => have := late_step h hC.2.2.2.1; exact ⟨this.2.trans hC.1, hC.2.1, hC.2.2.1, this.1, hC.2.2.2.2⟩
    | ahead n => have := late_step h hC.2; exact ⟨this.2.trans hC.1, this.1⟩
  | t0 r => rw [hpc] at hP hC; exact ⟨stream_exc h hP.2 hC.1, hC.2⟩
  | t1 r => rw [hpc] at hP hC; exact ⟨⟨stream_exc h hP.2 hC.1.1, hC.1.2⟩, K.dying hC.2.1, (mute_step h hC.2.2).1⟩
  | fetch r => rw [hpc] at hP hC; exact ⟨stream_exc h hP.2 hC.1, hC.2⟩
  | tail r =>
    rw [hpc] at hP hC
    refine ⟨⟨stream_exc h hP.2 hC.1.1, hC.1.2⟩, fun hlt => ?_⟩
    obtain ⟨a, b, d⟩ := hC.2 hlt
    have := mute_step h d
    exact ⟨this.2.trans a, K.dying b, this.1⟩
  | o0 r => rw [hpc] at hP hC; exact ⟨⟨stream_exc h hP.2.2 hC.1.1, hC.1.2⟩, hC.2⟩
  | o1 r =>
    rw [hpc] at hP hC
    have hg := hC.2.2
    simp only [subStep, hg] at h; cases h

/-- where a thread newly run is to end -/
theorem launch_goal (c : Cfg) (s : St) (pc : Pc) : (launch c s pc).goal = if s.net = 0 then c.size else min (s.off + s.net) c.size := rfl

theorem runThread_good {c : Cfg} {s : St} {pc : Pc} (hp : pc = (runThread c s pc).pc) (hn : ∀ e, pc ≠ .threw e) :
    (runThread c s pc).goal = (if s.net = 0 then c.size else min (s.off + s.net) c.size) ∧ (runThread c s pc).md = false ∧ (runThread c s pc).exc = s.exc ∧
      (runThread c s pc).log = s.log ∧ (runThread c s pc).off = s.off := by
  rcases runThread_cases c s pc with ⟨_, h⟩ | h
  · rw [h]; exact ⟨rfl, rfl, rfl, rfl, rfl⟩
  · rw [h] at hp; exact absurd hp (hn _)
theorem runThread_pc (c : Cfg) (s : St) (pc : Pc) : (runThread c s pc).pc = pc ∨ (runThread c s pc).pc = .threw .bug := by
  rcases runThread_cases c s pc with ⟨_, h⟩ | h
  · rw [h]; exact Or.inl rfl
  · rw [h]; exact Or.inr rfl
theorem runThread_log (c : Cfg) (s : St) (pc : Pc) : (runThread c s pc).log = s.log := by
  rcases runThread_cases c s pc with ⟨_, h⟩ | h <;> rw [h] <;> rfl

def Inv2 (c : Cfg) (s : St) : Prop := Full c.file s.log ∧ Calm c s

theorem inv2_threw {c : Cfg} {s : St} {e : Err} (hf : Full c.file s.log) (h : s.pc = .threw e) : Inv2 c s :=
  ⟨hf, by unfold Calm; rw [h]; trivial⟩

theorem afterSst_calm {c : Cfg} {x : St} {r : Rd} {f : Bool} (hx : x.pc = afterSst r f) (he : x.exc = none) (hz : SzOk c x.log r) (hm : x.md = false)
    (hmay : f = true → r.maybe = false) (hg : f = false → Good c x.log x.goal r) : Calm c x := by
  unfold Calm
  rw [hx]
  cases f with
  | true => exact ⟨he, hz, hm, fun h => by rw [hmay rfl] at h; cases h⟩
  | false => exact ⟨⟨he, hz, hm, fun _ => hg rfl⟩, fun _ => Or.inr (hg rfl)⟩
theorem afterSst_ne (r : Rd) (f : Bool) (e : Err) : afterSst r f ≠ .threw e := by
  cases f <;> intro h <;> cases h

theorem mainStep_calm {c : Cfg} {s s' : St} (h : mainStep c s = some s') (hn : s.sub ≠ .fin1 ∧ s.sub ≠ .fin2) (hP : PcOk c s)
    (hI : Inv2 c s) : Inv2 c s' := by
  obtain ⟨hF, hC⟩ := hI
  unfold PcOk at hP
  unfold Calm at hC
  have hmute : ∀ {pos}, Stream c pos s → s.md = false → s.dying = true → s.sub.mute := by
    intro pos hS hm hd
    rcases hS with ⟨h, _⟩ | ⟨_, hL⟩
    · rw [hm] at h; cases h
    · have := hL.late hd
      cases hs : s.sub <;> rw [hs] at this hn <;> first | trivial | (cases this; done) | (exact absurd rfl hn.1) | (exact absurd rfl hn.2)
  cases hpc : s.pc with
  | idle => simp only [mainStep, hpc] at h; cases h
  | threw e => simp only [mainStep, hpc] at h; cases h
  | entry r =>
    rw [hpc] at hP hC
    obtain ⟨hR, ⟨hg, hd, hz⟩, hS⟩ := hP
    simp only [mainStep, hpc] at h
    split at h
    · rename_i hend
      split at h
      · cases h; exact inv2_threw hF rfl
      · cases h
        refine ⟨⟨Or.inr ?_, hF⟩, hC.1⟩
        show c.file.length ≤ posAfter s.log + 0
        have := hR.pos; rw [hg, hd] at this
        have this : posAfter s.log + 0 = s.off := this
        rw [this]; exact hend.2
    · cases h
      exact ⟨hF, hC.1, Or.inl hC.2.1, fun _ => hC.2.2, fun h => by cases h⟩
  | sst r f =>
    rw [hpc] at hP hC
    obtain ⟨hR, hB, hfr, hS⟩ := hP
    obtain ⟨he, hz, hmay, hq0⟩ := hC
    have hd := hB.delta
    simp only [mainStep, hpc] at h
    split at h
    · rename_i hq
      cases h
      refine ⟨hF, afterSst_calm rfl he hz ?_ hmay (fun hf => absurd (hq0 hf).1 hq)⟩
      rcases hS with ⟨_, _, h, _⟩ | h
      · exact absurd h hq
      · exact h.1
    split at h
    · rename_i hq hm
      have hft : f = true := by
        cases f with
        | true => rfl
        | false => have := (hq0 rfl).2.2.2; rw [hm] at this; cases this
      subst hft
      have key : ∀ (net : Nat) (r' : Rd), SzOk c s.log r' → r'.maybe = false → Inv2 c (toData c s net (afterSst r' true)) := by
        intro net r' hz' hm'
        unfold toData
        rcases runThread_pc c { s with net := net, resume := if net = 0 then s.off else s.resume } (afterSst r' true) with h1 | h1
        · obtain ⟨_, g2, g3, g4, _⟩ := runThread_good h1.symm (afterSst_ne r' true)
          exact ⟨by rw [g4]; exact hF, afterSst_calm h1 (by rw [g3]; exact he) (by rw [g4]; exact hz') g2 (fun _ => hm') (fun h => by cases h)⟩
        · exact inv2_threw (by rw [runThread_log]; exact hF) h1
      split at h
      · cases h; exact key 0 r hz (hmay rfl)
      split at h
      · rename_i hend
        cases h
        refine key 0 _ (Or.inr ?_) (hmay rfl)
        show c.size ≤ posAfter s.log + (c.size - s.off)
        have := hR.pos; rw [hfr rfl, hd] at this
        have : posAfter s.log = s.off := this
        omega
      · cases h; exact key _ r hz (hmay rfl)
    · cases h
      exact ⟨hF, he, hz, hmay, fun hf => (hq0 hf).2.1⟩
  | sstD r f =>
    rw [hpc] at hP hC
    obtain ⟨hR, hB, hm, hL⟩ := hP
    obtain ⟨he, hz, hmay, hq0⟩ := hC
    simp only [mainStep, hpc] at h
    split at h
    · rename_i hdy
      cases h
      exact ⟨hF, he, hz, hmay, hL.late hdy, rfl⟩
    · rename_i hdy
      cases h
      exact ⟨hF, afterSst_calm rfl he hz hm hmay (fun hf => absurd (hq0 hf) hdy)⟩
  | stop k =>
    rw [hpc] at hC
    simp only [mainStep, hpc] at h
    cases k with
    | skip p => split at h <;> cases h <;> exact ⟨hF, trivial⟩
    | rel n r f => split at h <;> cases h <;> exact ⟨hF, hC⟩
    | ahead n => split at h <;> cases h <;> exact ⟨hF, hC⟩
  | stopF k =>
    rw [hpc] at hC
    simp only [mainStep, hpc] at h
    cases k with
    | skip p => split at h <;> cases h <;> exact ⟨hF, trivial⟩
    | rel n r f => split at h <;> cases h <;> exact ⟨hF, hC⟩
    | ahead n => split at h <;> cases h <;> exact ⟨hF, hC⟩
  | join k =>
    rw [hpc] at hC hP
    have h0 := h
    simp only [mainStep, hpc] at h
    split at h
    · rename_i hg
      cases he : s.exc with
      | some e => rw [he] at h; simp only at h; cases h; exact inv2_threw hF rfl
      | none =>
        rw [he] at h
        simp only at h
        cases k with
        | skip p => simp only at h; cases h; exact ⟨hF, rfl⟩
        | rel n r f =>
          obtain ⟨hR, hB, _, _⟩ := hP
          obtain ⟨_, hz, hmay, _, hneed⟩ := hC
          have hm0 : mainStep c s = some (runThread c { s with resume := 0, net := if c.ftp = true then 0 else n } (afterSst r f)) := by
            simp only [mainStep, hpc]; rw [if_pos hg, he]
          rw [hm0] at h0
          cases h0
          rcases runThread_pc c { s with resume := 0, net := if c.ftp = true then 0 else n } (afterSst r f) with h1 | h1
          · obtain ⟨g1, g2, g3, g4, _⟩ := runThread_good h1.symm (afterSst_ne r f)
            refine ⟨by rw [g4]; exact hF, afterSst_calm h1 (by rw [g3]; exact he) (by rw [g4]; exact hz) g2 hmay (fun _ => ?_)⟩
            unfold Good
            rw [g1, g4]
            show min (posAfter s.log + r.size) c.size ≤ if (if c.ftp = true then 0 else n) = 0 then c.size else min (s.off + (if c.ftp = true then 0 else n)) c.size
            have h1 := hR.pos
            have h2 := hB.delta
            have h3 := hB.lt
            unfold Rd.need at hneed
            by_cases hft : c.ftp = true
            · rw [if_pos hft, if_pos rfl]; exact Nat.min_le_right _ _
            · rw [if_neg hft, if_neg (by omega)]; omega
          · exact inv2_threw (by rw [runThread_log]; exact hF) h1
        | ahead n =>
          have hm0 : mainStep c s = some (if (runThread c { s with resume := 0, net := if c.ftp = true then 0 else n } .idle).pc = .idle
              then { runThread c { s with resume := 0, net := if c.ftp = true then 0 else n } .idle with
                log := .ahead n :: (runThread c { s with resume := 0, net := if c.ftp = true then 0 else n } .idle).log }
              else runThread c { s with resume := 0, net := if c.ftp = true then 0 else n } .idle) := by
            simp only [mainStep, hpc]; rw [if_pos hg, he]
          rw [hm0] at h0
          rcases runThread_pc c { s with resume := 0, net := if c.ftp = true then 0 else n } .idle with h1 | h1
          · obtain ⟨g1, g2, g3, g4, _⟩ := runThread_good h1.symm (fun e h => by cases h)
            rw [if_pos h1] at h0
            cases h0
            refine ⟨by show Full c.file (runThread c _ _).log; rw [g4]; exact hF, ?_⟩
            unfold Calm
            have : (runThread c { s with resume := 0, net := if c.ftp = true then 0 else n } .idle).exc = none := by rw [g3]; exact he
            rw [show ({ runThread c { s with resume := 0, net := if c.ftp = true then 0 else n } .idle with
                log := .ahead n :: (runThread c { s with resume := 0, net := if c.ftp = true then 0 else n } .idle).log } : St).pc = .idle from h1]
            exact this
          · rw [if_neg (by rw [h1]; intro h; cases h)] at h0
            cases h0
            exact inv2_threw (by rw [runThread_log]; exact hF) h1
    · cases h
  | t0 r =>
    rw [hpc] at hP hC
    simp only [mainStep, hpc] at h
    split at h
    · rename_i hle
      cases h; exact ⟨hF, hC, fun hlt => by omega⟩
    split at h
    · cases h; exact ⟨hF, hC⟩
    · rename_i hdy
      cases h
      have hdy : s.dying = true := by cases hx : s.dying with | true => rfl | false => exact absurd hx hdy
      exact ⟨hF, hC, hdy, hmute hP.2 hC.2.2.1 hdy⟩
  | t1 r =>
    rw [hpc] at hC
    simp only [mainStep, hpc] at h
    split at h
    · cases h; exact ⟨hF, hC.1⟩
    · rename_i hq
      cases h
      exact ⟨hF, hC.1, fun _ => ⟨by cases hx : s.q with | nil => rfl | cons a b => exact absurd (by rw [hx]; intro h; cases h) hq, hC.2⟩⟩
  | fetch r =>
    rw [hpc] at hC
    simp only [mainStep, hpc] at h
    cases hq : s.q with
    | nil => rw [hq] at h; simp only at h; cases h
    | cons b q =>
      rw [hq] at h
      simp only at h
      split at h <;> cases h <;> exact ⟨hF, hC⟩
  | tail r =>
    rw [hpc] at hP hC
    obtain ⟨⟨he, hz, hm, hmay⟩, hq⟩ := hC
    simp only [mainStep, hpc] at h
    split at h
    · rename_i hcond
      cases h
      obtain ⟨a, b, d⟩ := hq hcond.1
      exact ⟨hF, he, hz, (fun h => by cases h), fun _ => ⟨a, b, d, hm⟩⟩
    · rename_i hcond
      cases h
      refine ⟨hF, ⟨he, hz, hm, hmay⟩, fun hlt => ?_⟩
      show c.size ≤ s.off + r.delta ∨ _
      by_cases h1 : c.size ≤ s.off + r.delta
      · exact Or.inl h1
      · by_cases h2 : r.maybe = true
        · exact Or.inr (hmay h2)
        · exact absurd ⟨hlt, Or.inr (Nat.lt_of_not_le h1), Bool.eq_false_iff.mpr h2⟩ hcond
  | o0 r =>
    rw [hpc] at hP hC
    obtain ⟨hR, hd, hS⟩ := hP
    simp only [mainStep, hpc] at h
    split at h
    · rename_i hle
      cases h
      refine ⟨⟨?_, hF⟩, hC.1.1⟩
      have hle2 := hR.le
      have heq : r.got.length = r.size := Nat.le_antisymm hle2 hle
      rcases hC.1.2.1 with hz | hz
      · exact Or.inl (heq.trans hz)
      · right; rw [heq]; exact hz
    split at h
    · cases h; exact ⟨hF, hC.1⟩
    · rename_i hg
      cases h
      exact ⟨hF, hC.1, hC.2, by cases hx : s.sub <;> first | rfl | (exact absurd (by rw [hx]; intro h; cases h) hg)⟩
  | o1 r =>
    rw [hpc] at hP hC
    obtain ⟨hR, hd, hS⟩ := hP
    simp only [mainStep, hpc] at h
    split at h
    · cases h; exact ⟨hF, hC.1⟩
    · rename_i hq
      cases h
      have hq : s.q = [] := by cases hx : s.q with | nil => rfl | cons a b => exact absurd (by rw [hx]; intro h; cases h) hq
      refine ⟨⟨?_, hF⟩, hC.1.1⟩
      have hpos := hR.pos
      by_cases hlt : r.got.length < r.size
      · right
        show c.size ≤ _
        rcases hC.2.1 hlt with h1 | h1
        · omega
        · rcases hS with ⟨h, _⟩ | ⟨_, hL⟩
          · rw [hC.1.2.2.1] at h; cases h
          · have hsub := hL.sub
            rw [hC.2.2] at hsub
            have hsub : s.exc = none → s.goal ≤ s.off + s.wave.length := hsub
            have hw : s.wave.length = 0 := by unfold St.wave; rw [hC.2.2, hq]; rfl
            have := hsub hC.1.1
            unfold Good at h1
            omega
      · have heq : r.got.length = r.size := by have := hR.le; omega
        rcases hC.1.2.1 with hz | hz
        · exact Or.inl (heq.trans hz)
        · right; rw [heq]; exact hz

theorem callStep_calm {c : Cfg} {s : St} {k : Call} (hpc : s.pc = .idle) (hP : PcOk c s) (hI : Inv2 c s) : Inv2 c (callStep c k s) := by
  obtain ⟨hF, hC⟩ := hI
  unfold PcOk at hP
  unfold Calm at hC
  rw [hpc] at hP hC
  have hidle : ∀ (x : St), x.pc = .idle → x.exc = none → Calm c x := by intro x h1 h2; unfold Calm; rw [h1]; exact h2
  have hC : s.exc = none := hC
  cases k with
  | read n => exact ⟨hF, hC, rfl, rfl⟩
  | skip pos =>
    simp only [callStep]
    split
    · exact ⟨hF, hidle _ hpc hC⟩
    split
    · exact ⟨hF, hidle _ hpc hC⟩
    · exact ⟨hF, trivial⟩
  | ahead n =>
    simp only [callStep]
    split
    · exact ⟨hF, hidle _ hpc hC⟩
    split
    · unfold toData
      rcases runThread_pc c { s with net := if c.ftp = true then 0 else n, resume := if (if c.ftp = true then 0 else n) = 0 then s.off else s.resume } .idle with h1 | h1
      · obtain ⟨g1, g2, g3, g4, _⟩ := runThread_good h1.symm (fun e h => by cases h)
        rw [if_pos h1]
        refine ⟨by show Full c.file (runThread c _ _).log; rw [g4]; exact hF, hidle _ h1 ?_⟩
        show (runThread c _ _).exc = none
        rw [g3]; exact hC
      · rw [if_neg (by rw [h1]; intro h; cases h)]
        exact inv2_threw (by rw [runThread_log]; exact hF) h1
    · rename_i hm
      split
      · rename_i hd
        refine ⟨hF, hC, ?_⟩
        rcases hP.2 with ⟨h, _⟩ | ⟨_, hL⟩
        · exact absurd h hm
        · exact hL.late hd
      · exact ⟨hF, hidle _ hpc hC⟩

theorem calm_reach {c : Cfg} {P : Call → Prop} {s : St} (h : CalmReach c P s) : Reach c P s := by
  induction h with
  | init => exact .init
  | step _ hs ih => cases hs with
    | call k hk hi _ => exact .step ih (.call k hk hi)
    | main h _ => exact .step ih (.main h)
    | sub k h => exact .step ih (.sub k false h)

theorem calm_inv {c : Cfg} (hk : c.known = true) (hc : 3 ≤ c.cap) {s : St} (h : CalmReach c (Asks c) s) : Inv2 c s := by
  induction h with
  | init => exact ⟨trivial, rfl⟩
  | step hr hs ih =>
    have hI := reach_inv hk hc (calm_reach hr)
    cases hs with
    | call k hk' hi _ => exact callStep_calm hi hI.2 ih
    | main h hn => exact mainStep_calm h hn hI.2 ih
    | sub k h => exact ⟨by rw [(subStep_keeps h).log]; exact ih.1, subStep_calm h hI.2 ih.2⟩

end Dar.Lc
