import Verif.Spec.RemoteRead
namespace Dar.Lc
open Dar

theorem slice_add (c : Cfg) (p a b : Nat) : c.slice p (a + b) = c.slice p a ++ c.slice (p + a) b := by
  unfold Cfg.slice; rw [List.take_add, List.drop_drop]
theorem slice_length (c : Cfg) (p k : Nat) (h : p + k ≤ c.size) : (c.slice p k).length = k := by
  unfold Cfg.slice Cfg.size at *; rw [List.length_take, List.length_drop]; omega
theorem slice_app {c : Cfg} {p : Nat} {a b : Bytes} (h : a ++ b = c.slice p (a ++ b).length) :
    a = c.slice p a.length ∧ b = c.slice (p + a.length) b.length := by
  rw [List.length_append, slice_add] at h
  have hl : (c.slice p a.length).length ≤ a.length := by
    unfold Cfg.slice; rw [List.length_take]; exact Nat.min_le_left _ _
  have hl2 : (c.slice (p + a.length) b.length).length ≤ b.length := by
    unfold Cfg.slice; rw [List.length_take]; exact Nat.min_le_left _ _
  have ht := congrArg List.length h
  rw [List.length_append, List.length_append] at ht
  exact List.append_inj h (by omega)
theorem slice_join {c : Cfg} {p : Nat} {a b : Bytes} (ha : a = c.slice p a.length) (hb : b = c.slice (p + a.length) b.length) :
    a ++ b = c.slice p (a ++ b).length := by
  rw [List.length_append, slice_add, ← ha, ← hb]

/-- what the callback still has to put in the pipe -/
def Sub.rest : Sub → Bytes
  | .push _ _ _ r => r
  | .feed _ _ _ r => r
  | _ => []
/-- the thread has set sub_is_dying -/
def Sub.late : Sub → Prop
  | .fin1 | .fin2 | .fin3 | .gone => True
  | _ => False

/-- `e` is the position after all that is in the pipe and in the callback -/
def SubOk (c : Cfg) (exc : Option Err) (goal e : Nat) : Sub → Prop
  | .ready cur loc => cur = e ∧ xferEnd c cur loc = goal
  | .xfer cur loc p => p = e ∧ xferEnd c cur loc = goal ∧ cur ≤ p
  | .push cur loc p _ => p = e ∧ xferEnd c cur loc = goal ∧ cur ≤ p
  | .feed cur loc p _ => p = e ∧ xferEnd c cur loc = goal ∧ cur ≤ p
  | _ => exc = none → goal ≤ e

/-- all that is on its way -/
def St.wave (s : St) : Bytes := s.q.flatten ++ s.sub.rest

structure Live (c : Cfg) (pos : Nat) (s : St) : Prop where
  data : s.wave = c.slice pos s.wave.length
  sub : SubOk c s.exc s.goal (pos + s.wave.length) s.sub
  stop : s.endm = true → s.dying = true
  late : s.dying = true → s.sub.late
  ftp : c.ftp = true → s.goal = c.size

/-- the pipe and the thread agree with a caller that has read up to `pos` -/
def Stream (c : Cfg) (pos : Nat) (s : St) : Prop :=
  (s.md = true ∧ s.sub = .gone ∧ s.q = [] ∧ s.exc = none) ∨ (s.md = false ∧ Live c pos s)

structure RdOk (c : Cfg) (log : List Done) (off : Nat) (r : Rd) : Prop where
  pos : posAfter log + r.got.length = off + r.delta
  got : r.got = c.slice (posAfter log) r.got.length
  le : r.got.length ≤ r.size
  n : r.size ≤ r.n
structure Busy (c : Cfg) (off : Nat) (r : Rd) : Prop where
  lt : r.got.length < r.size
  delta : r.delta = 0
  off : off < c.size

def StreamJ (c : Cfg) (pos : Nat) (s : St) : Prop := s.md = false ∧ (Live c pos s ∨ 2 ≤ s.q.length)

def PcOk (c : Cfg) (s : St) : Prop := match s.pc with
  | .idle => posAfter s.log = s.off ∧ Stream c s.off s
  | .entry r => RdOk c s.log s.off r ∧ (r.got = [] ∧ r.delta = 0 ∧ 0 < r.size) ∧ Stream c s.off s
  | .sst r f => RdOk c s.log s.off r ∧ Busy c s.off r ∧ (f = true → r.got = []) ∧ Stream c s.off s
  | .sstD r _ => RdOk c s.log s.off r ∧ Busy c s.off r ∧ s.md = false ∧ Live c s.off s
  | .stop (.rel need r _) => RdOk c s.log s.off r ∧ Busy c s.off r ∧ 0 < need ∧ s.dying = true ∧ s.md = false ∧ Live c s.off s
  | .stopF (.rel need r _) => RdOk c s.log s.off r ∧ Busy c s.off r ∧ 0 < need ∧ s.dying = true ∧ s.md = false ∧ Live c s.off s
  | .join (.rel need r _) => RdOk c s.log s.off r ∧ Busy c s.off r ∧ 0 < need ∧ StreamJ c s.off s
  | .stop (.ahead need) => posAfter s.log = s.off ∧ s.off < c.size ∧ (0 < need ∨ c.ftp = true) ∧ s.dying = true ∧ s.md = false ∧ Live c s.off s
  | .stopF (.ahead need) => posAfter s.log = s.off ∧ s.off < c.size ∧ (0 < need ∨ c.ftp = true) ∧ s.dying = true ∧ s.md = false ∧ Live c s.off s
  | .join (.ahead need) => posAfter s.log = s.off ∧ s.off < c.size ∧ (0 < need ∨ c.ftp = true) ∧ StreamJ c s.off s
  | .stop (.skip _) => s.md = false
  | .stopF (.skip _) => s.md = false
  | .join (.skip _) => s.md = false
  | .t0 r => RdOk c s.log s.off r ∧ Stream c (s.off + r.delta) s
  | .t1 r => RdOk c s.log s.off r ∧ Stream c (s.off + r.delta) s
  | .fetch r => RdOk c s.log s.off r ∧ Stream c (s.off + r.delta) s
  | .tail r => RdOk c s.log s.off r ∧ Stream c (s.off + r.delta) s
  | .o0 r => RdOk c s.log s.off r ∧ r.delta = 0 ∧ Stream c s.off s
  | .o1 r => RdOk c s.log s.off r ∧ r.delta = 0 ∧ Stream c s.off s
  | .threw _ => True

/-- a step of the thread changes only these -/
structure SubKeeps (s s' : St) : Prop where
  pc : s'.pc = s.pc
  log : s'.log = s.log
  off : s'.off = s.off
  md : s'.md = s.md
  endm : s'.endm = s.endm
  goal : s'.goal = s.goal
  net : s'.net = s.net
  resume : s'.resume = s.resume
  dying : s.dying = true → s'.dying = true
  q : s.q <+: s'.q

theorem subStep_keeps {c : Cfg} {k : Nat} {fail : Bool} {s s' : St} (h : subStep c k fail s = some s') : SubKeeps s s' := by
  have hp := List.prefix_refl s.q
  have ha : ∀ x, s.q <+: s.q ++ x := fun x => List.prefix_append _ _
  cases hs : s.sub <;> simp only [subStep, hs] at h
  case gone => cases h
  all_goals
    repeat' split at h
    all_goals
      first
      | (cases h; done)
      | (cases h; exact ⟨rfl, rfl, rfl, rfl, rfl, rfl, rfl, rfl, fun h => h, by first | exact hp | exact ha _⟩)
      | (cases h; exact ⟨rfl, rfl, rfl, rfl, rfl, rfl, rfl, rfl, fun _ => rfl, hp⟩)

theorem xferEnd_le (c : Cfg) (cur loc : Nat) : xferEnd c cur loc ≤ c.size := by
  unfold xferEnd; split
  · exact Nat.le_refl _
  · exact Nat.min_le_right _ _

theorem subStep_live {c : Cfg} {k : Nat} {fail : Bool} {s s' : St} {pos : Nat} (h : subStep c k fail s = some s') (hL : Live c pos s) : Live c pos s' := by
  have hd := hL.data
  have hb := hL.sub
  have hst := hL.stop
  have hla := hL.late
  have hf := hL.ftp
  unfold St.wave at hd hb
  cases hs : s.sub with
  | gone => simp only [subStep, hs] at h; cases h
  | ready cur loc =>
    simp only [subStep, hs] at h; cases h
    simp only [hs, Sub.rest, SubOk, Sub.late] at hd hb hla
    exact ⟨hd, ⟨hb.1, hb.2, Nat.le_refl _⟩, hst, fun h => hla h, hf⟩
  | xfer cur loc p =>
    simp only [subStep, hs] at h
    simp only [hs, Sub.rest, SubOk, Sub.late] at hd hb hla
    obtain ⟨h1, h2, h3⟩ := hb
    split at h
    · cases h; exact ⟨hd, (fun h => by cases h), hst, fun h => hla h, hf⟩
    split at h
    · split at h
      · rename_i hk
        cases h
        have hz := xferEnd_le c cur loc
        have hl : (c.slice p k).length = k := slice_length c p k (by omega)
        rw [List.append_nil] at hd h1
        refine ⟨?_, ⟨?_, h2, by omega⟩, hst, fun h => hla h, hf⟩
        · show s.q.flatten ++ c.slice p k = _
          refine slice_join hd ?_
          rw [← h1, hl]
        · show p + k = pos + (s.q.flatten ++ c.slice p k).length
          rw [List.length_append, hl]; omega
      · cases h
    · rename_i hp
      split at h
      · cases h; exact ⟨hd, (fun _ => by show s.goal ≤ pos + (s.q.flatten ++ []).length; omega), hst, fun h => hla h, hf⟩
      split at h
      · rename_i hloc hr
        cases h
        refine ⟨hd, ⟨h1, ?_⟩, hst, fun h => hla h, hf⟩
        unfold xferEnd at h2 ⊢
        rw [if_neg hloc] at h2
        rw [if_neg hr.2.2]
        show min (p + (loc - (p - cur))) c.size = s.goal
        omega
      · cases h; exact ⟨hd, (fun _ => by show s.goal ≤ pos + (s.q.flatten ++ []).length; omega), hst, fun h => hla h, hf⟩
  | push cur loc p rest =>
    simp only [subStep, hs] at h
    simp only [hs, Sub.rest, SubOk, Sub.late] at hd hb hla
    have hend : s.endm = true → False := fun h => hla (hst h)
    split at h
    · cases h; exact ⟨hd, hb, hst, fun h => hla h, hf⟩
    rename_i he
    split at h
    · rename_i hr; subst hr
      cases h; exact ⟨hd, hb, hst, fun h => hla h, hf⟩
    · rename_i hr
      exact absurd ⟨by cases hx : s.endm with | false => rfl | true => exact absurd hx (fun h => hend h), hr⟩ he
  | feed cur loc p rest =>
    simp only [subStep, hs] at h
    simp only [hs, Sub.rest, SubOk, Sub.late] at hd hb hla
    split at h
    · cases h
      have he : (s.q ++ [rest.take c.blk]).flatten ++ rest.drop c.blk = s.q.flatten ++ rest := by
        rw [List.flatten_append, List.append_assoc]; simp
      refine ⟨?_, ?_, hst, fun h => hla h, hf⟩
      · show (s.q ++ [rest.take c.blk]).flatten ++ rest.drop c.blk = c.slice pos ((s.q ++ [rest.take c.blk]).flatten ++ rest.drop c.blk).length
        rw [he]; exact hd
      · show p = pos + ((s.q ++ [rest.take c.blk]).flatten ++ rest.drop c.blk).length ∧ _
        rw [he]; exact hb
    · cases h
  | fin0 =>
    simp only [subStep, hs] at h; cases h
    simp only [hs, Sub.rest, SubOk] at hd hb
    exact ⟨hd, hb, fun _ => rfl, fun _ => trivial, hf⟩
  | fin1 =>
    simp only [subStep, hs] at h
    simp only [hs, Sub.rest, SubOk] at hd hb
    split at h <;> cases h <;> exact ⟨hd, hb, hst, fun _ => trivial, hf⟩
  | fin2 =>
    simp only [subStep, hs] at h
    simp only [hs, Sub.rest, SubOk] at hd hb
    split at h
    · cases h
      have he : (s.q ++ [[]]).flatten ++ [] = s.q.flatten ++ ([] : Bytes) := by rw [List.flatten_append]; simp
      refine ⟨?_, ?_, hst, fun _ => trivial, hf⟩
      · show (s.q ++ [[]]).flatten ++ [] = c.slice pos ((s.q ++ [[]]).flatten ++ []).length
        rw [he]; exact hd
      · show s.exc = none → s.goal ≤ pos + ((s.q ++ [[]]).flatten ++ []).length
        rw [he]; exact hb
    · cases h
  | fin3 =>
    simp only [subStep, hs] at h; cases h
    simp only [hs, Sub.rest, SubOk] at hd hb
    exact ⟨hd, hb, hst, fun _ => trivial, hf⟩

theorem subStep_stream {c : Cfg} {k : Nat} {fail : Bool} {s s' : St} {pos : Nat} (h : subStep c k fail s = some s') (hS : Stream c pos s) : Stream c pos s' := by
  rcases hS with ⟨_, hg, _⟩ | ⟨hm, hl⟩
  · simp only [subStep, hg] at h; cases h
  · exact Or.inr ⟨(subStep_keeps h).md.trans hm, subStep_live h hl⟩

theorem subStep_pcOk {c : Cfg} {k : Nat} {fail : Bool} {s s' : St} (h : subStep c k fail s = some s') (hP : PcOk c s) : PcOk c s' := by
  have K := subStep_keeps h
  have hst : ∀ {pos}, Stream c pos s → Stream c pos s' := fun hS => subStep_stream h hS
  have hli : ∀ {pos}, Live c pos s → Live c pos s' := fun hS => subStep_live h hS
  have hj : ∀ {pos}, StreamJ c pos s → StreamJ c pos s' := fun hS => ⟨K.md.trans hS.1, hS.2.elim (fun h => Or.inl (hli h)) (fun h => Or.inr (Nat.le_trans h K.q.length_le))⟩
  unfold PcOk at hP ⊢
  rw [K.pc, K.log, K.off, K.md]
  cases hpc : s.pc with
  | idle => rw [hpc] at hP; exact ⟨hP.1, hst hP.2⟩
  | threw e => trivial
  | entry r => rw [hpc] at hP; exact ⟨hP.1, hP.2.1, hst hP.2.2⟩
  | sst r f => rw [hpc] at hP; exact ⟨hP.1, hP.2.1, hP.2.2.1, hst hP.2.2.2⟩
  | sstD r f => rw [hpc] at hP; exact ⟨hP.1, hP.2.1, hP.2.2.1, hli hP.2.2.2⟩
  | stop k => rw [hpc] at hP; cases k with
    | skip p => exact hP
    | rel n r f => exact ⟨hP.1, hP.2.1, hP.2.2.1, K.dying hP.2.2.2.1, hP.2.2.2.2.1, hli hP.2.2.2.2.2⟩
    | ahead n => exact ⟨hP.1, hP.2.1, hP.2.2.1, K.dying hP.2.2.2.1, hP.2.2.2.2.1, hli hP.2.2.2.2.2⟩
  | stopF k => rw [hpc] at hP; cases k with
    | skip p => exact hP
    | rel n r f => exact ⟨hP.1, hP.2.1, hP.2.2.1, K.dying hP.2.2.2.1, hP.2.2.2.2.1, hli hP.2.2.2.2.2⟩
    | ahead n => exact ⟨hP.1, hP.2.1, hP.2.2.1, K.dying hP.2.2.2.1, hP.2.2.2.2.1, hli hP.2.2.2.2.2⟩
  | join k => rw [hpc] at hP; cases k with
    | skip p => exact hP
    | rel n r f => exact ⟨hP.1, hP.2.1, hP.2.2.1, hj hP.2.2.2⟩
    | ahead n => exact ⟨hP.1, hP.2.1, hP.2.2.1, hj hP.2.2.2⟩
  | t0 r => rw [hpc] at hP; exact ⟨hP.1, hst hP.2⟩
  | t1 r => rw [hpc] at hP; exact ⟨hP.1, hst hP.2⟩
  | fetch r => rw [hpc] at hP; exact ⟨hP.1, hst hP.2⟩
  | tail r => rw [hpc] at hP; exact ⟨hP.1, hst hP.2⟩
  | o0 r => rw [hpc] at hP; exact ⟨hP.1, hP.2.1, hst hP.2.2⟩
  | o1 r => rw [hpc] at hP; exact ⟨hP.1, hP.2.1, hst hP.2.2⟩

theorem runThread_cases (c : Cfg) (s : St) (pc : Pc) :
    ((s.q = [] ∨ s.q = [[]]) ∧ runThread c s pc = launch c s pc) ∨ runThread c s pc = { s with pc := .threw .bug } := by
  unfold runThread
  split
  · rename_i h; exact Or.inl ⟨Or.inl h, rfl⟩
  · rename_i h; exact Or.inl ⟨Or.inr h, rfl⟩
  · exact Or.inr rfl

theorem launch_live {c : Cfg} {s : St} {pc : Pc} (hn : s.net = 0 → s.resume = s.off) (hf : c.ftp = true → s.net = 0) :
    Live c s.off (launch c s pc) := by
  unfold launch
  refine ⟨?_, ?_, ?_, ?_, ?_⟩
  · show ([] : Bytes) = c.slice s.off 0
    rw [Cfg.slice, List.take_zero]
  · show (if s.net = 0 then s.resume else s.off) = s.off + 0 ∧ xferEnd c (if s.net = 0 then s.resume else s.off) s.net = if s.net = 0 then c.size else min (s.off + s.net) c.size
    unfold xferEnd
    by_cases h : s.net = 0
    · rw [if_pos h, if_pos h, if_pos h]; exact ⟨hn h, rfl⟩
    · rw [if_neg h, if_neg h]; exact ⟨rfl, rfl⟩
  · intro h; cases h
  · intro h; cases h
  · intro h; show (if s.net = 0 then c.size else _) = _; rw [if_pos (hf h)]

/-- toData leads to `pc` with the thread running, or to an exception -/
theorem toData_cases {c : Cfg} {s : St} {net : Nat} {pc : Pc} (hf : c.ftp = true → net = 0) :
    ((toData c s net pc).pc = .threw .bug ∧ (toData c s net pc).log = s.log) ∨
    ((toData c s net pc).pc = pc ∧ (toData c s net pc).log = s.log ∧ (toData c s net pc).off = s.off ∧ Stream c s.off (toData c s net pc)) := by
  unfold toData
  rcases runThread_cases c { s with net := net, resume := if net = 0 then s.off else s.resume } pc with ⟨_, h⟩ | h
  · rw [h]
    refine Or.inr ⟨rfl, rfl, rfl, Or.inr ⟨rfl, ?_⟩⟩
    refine launch_live (s := { s with net := net, resume := if net = 0 then s.off else s.resume }) ?_ hf
    intro h; show (if net = 0 then s.off else s.resume) = s.off; rw [if_pos h]
  · rw [h]; exact Or.inl ⟨rfl, rfl⟩

/-- relaunching the thread -/
theorem rerun_cases {c : Cfg} {s : St} {need : Nat} {pc : Pc} (he : s.exc = none) (hg : s.sub = .gone) (hj : StreamJ c s.off s) (hn : 0 < need ∨ c.ftp = true)
    (ho : s.off < c.size) (x : St) (hx : x = runThread c { s with resume := 0, net := if c.ftp = true then 0 else need } pc) :
    (x.pc = .threw .bug ∧ x.log = s.log) ∨ (x.pc = pc ∧ x.log = s.log ∧ x.off = s.off ∧ Stream c s.off x) := by
  subst hx
  rcases runThread_cases c { s with resume := 0, net := if c.ftp = true then 0 else need } pc with ⟨hq, h⟩ | h
  · rw [h]
    have hq : s.q = [] ∨ s.q = [[]] := hq
    have hlive : Live c s.off s := by
      rcases hj.2 with h | h
      · exact h
      · rcases hq with hq | hq <;> rw [hq] at h <;> simp at h
    have hff : ¬ c.ftp = true := by
      intro hf
      have hg2 := hlive.ftp hf
      have hs := hlive.sub
      rw [hg] at hs
      have hs : s.exc = none → s.goal ≤ s.off + s.wave.length := hs
      have hw : s.wave.length = 0 := by
        unfold St.wave; rw [hg]
        rcases hq with hq | hq <;> rw [hq] <;> rfl
      have := hs he
      omega
    refine Or.inr ⟨rfl, rfl, rfl, Or.inr ⟨rfl, ?_⟩⟩
    refine launch_live (s := { s with resume := 0, net := if c.ftp = true then 0 else need }) ?_ (fun h => absurd h hff)
    intro h
    have h : (if c.ftp = true then 0 else need) = 0 := h
    rw [if_neg hff] at h
    rcases hn with hn | hn
    · omega
    · exact absurd hn hff
  · rw [h]; exact Or.inl ⟨rfl, rfl⟩

theorem Live.re {c : Cfg} {pos : Nat} {s : St} (hL : Live c pos s) (off : Nat) (pc : Pc) (log : List Done) : Live c pos { s with off := off, pc := pc, log := log } :=
  ⟨hL.1, hL.2, hL.3, hL.4, hL.5⟩
theorem Stream.re {c : Cfg} {pos : Nat} {s : St} (hS : Stream c pos s) (off : Nat) (pc : Pc) (log : List Done) : Stream c pos { s with off := off, pc := pc, log := log } :=
  hS.elim (fun h => Or.inl h) (fun h => Or.inr ⟨h.1, h.2.re off pc log⟩)

def Inv (c : Cfg) (s : St) : Prop := Faithful c.file s.log ∧ PcOk c s

theorem inv_threw {c : Cfg} {s : St} {e : Err} (hf : Faithful c.file s.log) (h : s.pc = .threw e) : Inv c s :=
  ⟨hf, by unfold PcOk; rw [h]; trivial⟩

theorem rdOk_done {c : Cfg} {log : List Done} {off : Nat} {r : Rd} (hR : RdOk c log off r) (hf : Faithful c.file log) :
    Faithful c.file (.read r.n r.got :: log) :=
  ⟨hR.got, Nat.le_trans hR.le hR.n, hf⟩

theorem mainStep_inv {c : Cfg} (hk : c.known = true) (hc : 3 ≤ c.cap) {s s' : St} (h : mainStep c s = some s') (hI : Inv c s) : Inv c s' := by
  obtain ⟨hF, hP⟩ := hI
  unfold PcOk at hP
  cases hpc : s.pc with
  | idle => simp only [mainStep, hpc] at h; cases h
  | threw e => simp only [mainStep, hpc] at h; cases h
  | entry r =>
    rw [hpc] at hP
    obtain ⟨hR, ⟨hg, hd, hz⟩, hS⟩ := hP
    simp only [mainStep, hpc] at h
    split at h
    · split at h
      · cases h; exact inv_threw hF rfl
      · cases h
        refine ⟨⟨?_, Nat.zero_le _, hF⟩, ?_, hS.re _ _ _⟩
        · rw [List.length_nil, List.take_zero]
        · show posAfter s.log + 0 = s.off
          have := hR.pos; rw [hg, hd] at this; exact this
    · rename_i hno
      cases h
      refine ⟨hF, hR, ⟨?_, hd, ?_⟩, fun _ => hg, hS.re _ _ _⟩
      · rw [hg]; exact hz
      · exact Nat.lt_of_not_le (fun h => hno ⟨hk, h⟩)
  | sst r f =>
    rw [hpc] at hP
    obtain ⟨hR, hB, hfr, hS⟩ := hP
    have hd := hB.delta
    have hafter : ∀ (x : St) (r' : Rd), RdOk c x.log x.off r' → r'.delta = 0 → Stream c x.off x → x.pc = afterSst r' f → PcOk c x := by
      intro x r' hR hd hS hx
      unfold PcOk
      rw [hx]
      cases f with
      | true => refine ⟨hR, ?_⟩; rw [hd]; exact hS.re _ _ _
      | false => exact ⟨hR, hd, hS⟩
    simp only [mainStep, hpc] at h
    split at h
    · cases h; exact ⟨hF, hafter _ r hR hd (hS.re _ _ _) rfl⟩
    split at h
    · rename_i hq hm
      have he : s.exc = none := by
        rcases hS with ⟨_, _, _, he⟩ | ⟨hm', _⟩
        · exact he
        · rw [hm] at hm'; cases hm'
      have key : ∀ (net : Nat) (r' : Rd), RdOk c s.log s.off r' → r'.delta = 0 → (c.ftp = true → net = 0) → Inv c (toData c s net (afterSst r' f)) := by
        intro net r' hR' hd' hn
        rcases toData_cases (c := c) (s := s) (net := net) (pc := afterSst r' f) hn with ⟨h1, h2⟩ | ⟨h1, h2, h3, h4⟩
        · exact inv_threw (by rw [h2]; exact hF) h1
        · exact ⟨by rw [h2]; exact hF, hafter _ r' (by rw [h2, h3]; exact hR') hd' (by rw [h3]; exact h4) h1⟩
      split at h
      · cases h; exact key 0 r hR hd (fun _ => rfl)
      split at h
      · rename_i hend
        cases h
        refine key 0 _ ?_ ?_ (fun _ => rfl)
        · cases f with
          | false => exact hR
          | true =>
            have hg := hfr rfl
            refine ⟨hR.pos, hR.got, ?_, ?_⟩
            · show r.got.length ≤ c.size - s.off
              rw [hg]; exact Nat.zero_le _
            · show c.size - s.off ≤ r.n
              have := hR.n
              have h2 := hend.2
              unfold Rd.need at h2
              omega
        · cases f <;> exact hd
      · rename_i hnf _
        cases h; exact key _ r hR hd (fun h => absurd h hnf)
    · rename_i hq hm
      cases h
      have hl : s.md = false ∧ Live c s.off s := by
        rcases hS with ⟨hm', _⟩ | h
        · exact absurd hm' hm
        · exact h
      exact ⟨hF, hR, hB, hl.1, hl.2.re _ _ _⟩
  | sstD r f =>
    rw [hpc] at hP
    obtain ⟨hR, hB, hm, hL⟩ := hP
    simp only [mainStep, hpc] at h
    split at h
    · rename_i hdy
      cases h
      refine ⟨hF, hR, hB, ?_, hdy, hm, hL.1, hL.2, hL.3, hL.4, hL.5⟩
      have := hB.lt; unfold Rd.need; omega
    · cases h
      refine ⟨hF, ?_⟩
      have hL' : Live c s.off { s with pc := afterSst r f } := ⟨hL.1, hL.2, hL.3, hL.4, hL.5⟩
      unfold PcOk
      cases f with
      | true => refine ⟨hR, ?_⟩; rw [hB.delta]; exact Or.inr ⟨hm, hL'⟩
      | false => exact ⟨hR, hB.delta, Or.inr ⟨hm, hL'⟩⟩
  | stop k =>
    rw [hpc] at hP
    simp only [mainStep, hpc] at h
    cases k with
    | skip p => split at h <;> cases h <;> exact ⟨hF, hP⟩
    | rel n r f =>
      obtain ⟨h1, h2, h3, h4, h5, hL⟩ := hP
      split at h <;> cases h
      · exact ⟨hF, h1, h2, h3, h4, h5, hL.1, hL.2, fun _ => h4, hL.4, hL.5⟩
      · exact ⟨hF, h1, h2, h3, h5, Or.inl ⟨hL.1, hL.2, hL.3, hL.4, hL.5⟩⟩
    | ahead n =>
      obtain ⟨h1, h2, h3, h4, h5, hL⟩ := hP
      split at h <;> cases h
      · exact ⟨hF, h1, h2, h3, h4, h5, hL.1, hL.2, fun _ => h4, hL.4, hL.5⟩
      · exact ⟨hF, h1, h2, h3, h5, Or.inl ⟨hL.1, hL.2, hL.3, hL.4, hL.5⟩⟩
  | stopF k =>
    rw [hpc] at hP
    simp only [mainStep, hpc] at h
    have hdrop : c.cap ≤ s.q.length → 2 ≤ (s.q.drop 1).length := by intro h; rw [List.length_drop]; omega
    cases k with
    | skip p => split at h <;> cases h <;> exact ⟨hF, hP⟩
    | rel n r f =>
      obtain ⟨h1, h2, h3, h4, h5, hL⟩ := hP
      split at h
      · rename_i hq; cases h; exact ⟨hF, h1, h2, h3, h5, Or.inr (hdrop hq)⟩
      · cases h; exact ⟨hF, h1, h2, h3, h5, Or.inl ⟨hL.1, hL.2, hL.3, hL.4, hL.5⟩⟩
    | ahead n =>
      obtain ⟨h1, h2, h3, h4, h5, hL⟩ := hP
      split at h
      · rename_i hq; cases h; exact ⟨hF, h1, h2, h3, h5, Or.inr (hdrop hq)⟩
      · cases h; exact ⟨hF, h1, h2, h3, h5, Or.inl ⟨hL.1, hL.2, hL.3, hL.4, hL.5⟩⟩
  | join k =>
    rw [hpc] at hP
    have h0 := h
    simp only [mainStep, hpc] at h
    split at h
    · rename_i hg
      cases he : s.exc with
      | some e => rw [he] at h; simp only at h; cases h; exact inv_threw hF rfl
      | none =>
        rw [he] at h
        simp only at h
        cases k with
        | skip p =>
          simp only at h
          cases h
          exact ⟨hF, rfl, Or.inl ⟨rfl, hg, rfl, rfl⟩⟩
        | rel n r f =>
          simp only at h
          obtain ⟨h1, h2, h3, hJ⟩ := hP
          have hx := (Option.some.inj h).symm
          rcases rerun_cases he hg hJ (Or.inl h3) h2.off s' (by rw [← Option.some.inj h, he]; rfl) with ⟨a, b⟩ | ⟨a, b, e, d⟩
          · exact inv_threw (by rw [b]; exact hF) a
          · refine ⟨by rw [b]; exact hF, ?_⟩
            unfold PcOk
            rw [a]
            cases f with
            | true =>
              show RdOk c s'.log s'.off r ∧ Stream c (s'.off + r.delta) s'
              rw [b, e, h2.delta]; exact ⟨h1, d⟩
            | false =>
              show RdOk c s'.log s'.off r ∧ r.delta = 0 ∧ Stream c s'.off s'
              rw [b, e]; exact ⟨h1, h2.delta, d⟩
        | ahead n =>
          obtain ⟨h1, h2, h3, hJ⟩ := hP
          have hm0 : mainStep c s = some (if (runThread c { s with resume := 0, net := if c.ftp = true then 0 else n } .idle).pc = .idle
              then { runThread c { s with resume := 0, net := if c.ftp = true then 0 else n } .idle with
                log := .ahead n :: (runThread c { s with resume := 0, net := if c.ftp = true then 0 else n } .idle).log }
              else runThread c { s with resume := 0, net := if c.ftp = true then 0 else n } .idle) := by
            simp only [mainStep, hpc]; rw [if_pos hg, he]
          rw [hm0] at h0
          have hr := rerun_cases (pc := .idle) he hg hJ h3 h2 _ rfl
          generalize runThread c { s with resume := 0, net := if c.ftp = true then 0 else n } .idle = x at h0 hr
          rcases hr with ⟨a, b⟩ | ⟨a, b, e, d⟩
          · rw [if_neg (by rw [a]; intro h; cases h)] at h0
            cases h0
            exact inv_threw (by rw [b]; exact hF) a
          · rw [if_pos a] at h0
            cases h0
            refine ⟨by show Faithful c.file x.log; rw [b]; exact hF, ?_⟩
            have : PcOk c { x with pc := .idle, log := .ahead n :: x.log } := by
              refine ⟨?_, ?_⟩
              · show posAfter x.log = x.off
                rw [b, e]; exact h1
              · have := d.re x.off .idle (.ahead n :: x.log)
                rw [← e] at this; exact this
            rw [← a] at this
            exact this
    · cases h
  | t0 r =>
    rw [hpc] at hP
    simp only [mainStep, hpc] at h
    split at h
    · cases h; exact ⟨hF, hP.1, hP.2.re _ _ _⟩
    split at h <;> cases h <;> exact ⟨hF, hP.1, hP.2.re _ _ _⟩
  | t1 r =>
    rw [hpc] at hP
    simp only [mainStep, hpc] at h
    split at h <;> cases h <;> exact ⟨hF, hP.1, hP.2.re _ _ _⟩
  | fetch r =>
    rw [hpc] at hP
    obtain ⟨hR, hS⟩ := hP
    simp only [mainStep, hpc] at h
    cases hq : s.q with
    | nil => rw [hq] at h; simp only at h; cases h
    | cons b q =>
      rw [hq] at h
      simp only at h
      have hL : s.md = false ∧ Live c (s.off + r.delta) s := by
        rcases hS with ⟨_, _, h, _⟩ | h
        · rw [hq] at h; cases h
        · exact h
      obtain ⟨hm, hL⟩ := hL
      -- taking the first bytes
      have key : ∀ (x y : Bytes) (q' : List Bytes) (pc : Pc), x ++ y = s.wave → q'.flatten ++ s.sub.rest = y → r.got.length + x.length ≤ r.size →
          pc = .t0 { r with got := r.got ++ x, delta := r.delta + x.length } → Inv c { s with q := q', pc := pc } := by
        intro x y q' pc hw hy hsz hpc'
        subst hpc'
        have hd := hL.data
        rw [← hw] at hd
        obtain ⟨hx, hy2⟩ := slice_app hd
        refine ⟨hF, ⟨?_, ?_, ?_, hR.n⟩, Or.inr ⟨hm, ?_, ?_, hL.3, hL.4, hL.5⟩⟩
        · show posAfter s.log + (r.got ++ x).length = s.off + (r.delta + x.length)
          rw [List.length_append]; have := hR.pos; omega
        · show r.got ++ x = c.slice (posAfter s.log) (r.got ++ x).length
          refine slice_join hR.got ?_
          rw [hR.pos]; exact hx
        · show (r.got ++ x).length ≤ r.size
          rw [List.length_append]; exact hsz
        · show q'.flatten ++ s.sub.rest = c.slice (s.off + (r.delta + x.length)) (q'.flatten ++ s.sub.rest).length
          rw [hy, ← Nat.add_assoc]; exact hy2
        · show SubOk c s.exc s.goal (s.off + (r.delta + x.length) + (q'.flatten ++ s.sub.rest).length) s.sub
          have := hL.sub
          rw [← hw, List.length_append] at this
          rw [hy, ← Nat.add_assoc, Nat.add_assoc (s.off + r.delta)]; exact this
      have hw : s.wave = b ++ (q.flatten ++ s.sub.rest) := by unfold St.wave; rw [hq, List.flatten_cons, List.append_assoc]
      split at h
      · rename_i hle
        cases h
        exact key b _ q _ hw.symm rfl (by have := hR.le; omega) rfl
      · rename_i hle
        cases h
        have hl : (b.take (r.size - r.got.length)).length = r.size - r.got.length := by rw [List.length_take]; omega
        refine key (b.take (r.size - r.got.length)) (b.drop (r.size - r.got.length) ++ (q.flatten ++ s.sub.rest)) _ _ ?_ ?_ ?_ ?_
        · rw [hw, ← List.append_assoc, List.take_append_drop]
        · rw [List.flatten_cons, List.append_assoc]
        · rw [hl]; have := hR.le; omega
        · rw [hl]
  | tail r =>
    rw [hpc] at hP
    obtain ⟨hR, hS⟩ := hP
    have hL' : ∀ (pc : Pc), Stream c (s.off + r.delta) { s with off := s.off + r.delta, pc := pc } := by
      intro pc
      rcases hS with h | ⟨h, hL⟩
      · exact Or.inl h
      · exact Or.inr ⟨h, hL.1, hL.2, hL.3, hL.4, hL.5⟩
    simp only [mainStep, hpc] at h
    split at h
    · rename_i hcond
      cases h
      refine ⟨hF, ⟨hR.pos, hR.got, hR.le, hR.n⟩, ⟨hcond.1, rfl, ?_⟩, (fun h => by cases h), hL' _⟩
      rcases hcond.2.1 with h | h
      · rw [hk] at h; cases h
      · exact h
    · cases h
      exact ⟨hF, ⟨hR.pos, hR.got, hR.le, hR.n⟩, rfl, hL' _⟩
  | o0 r =>
    rw [hpc] at hP
    obtain ⟨hR, hd, hS⟩ := hP
    simp only [mainStep, hpc] at h
    have hdone : Inv c { s with pc := .idle, log := .read r.n r.got :: s.log } := by
      refine ⟨rdOk_done hR hF, ?_, hS.re _ _ _⟩
      show posAfter s.log + r.got.length = s.off
      have := hR.pos; omega
    have ht0 : Inv c { s with pc := .t0 r } := by
      refine ⟨hF, hR, ?_⟩
      show Stream c (s.off + r.delta) _
      rw [hd]; exact hS.re _ _ _
    split at h
    · cases h; exact hdone
    split at h
    · cases h; exact ht0
    · cases h; exact ⟨hF, hR, hd, hS.re _ _ _⟩
  | o1 r =>
    rw [hpc] at hP
    obtain ⟨hR, hd, hS⟩ := hP
    simp only [mainStep, hpc] at h
    split at h
    · cases h
      refine ⟨hF, hR, ?_⟩
      show Stream c (s.off + r.delta) _
      rw [hd]; exact hS.re _ _ _
    · cases h
      refine ⟨rdOk_done hR hF, ?_, hS.re _ _ _⟩
      show posAfter s.log + r.got.length = s.off
      have := hR.pos; omega

theorem callStep_inv {c : Cfg} (hk : c.known = true) {s : St} {k : Call} (ha : Asks c k) (hpc : s.pc = .idle) (hI : Inv c s) : Inv c (callStep c k s) := by
  obtain ⟨hF, hP⟩ := hI
  unfold PcOk at hP
  rw [hpc] at hP
  obtain ⟨hp, hS⟩ := hP
  have hpI : ∀ (x : St), x.pc = .idle → posAfter x.log = x.off → Stream c x.off x → PcOk c x := by
    intro x h1 h2 h3; unfold PcOk; rw [h1]; exact ⟨h2, h3⟩
  cases k with
  | read n =>
    refine ⟨hF, ⟨?_, ?_, Nat.zero_le _, Nat.le_refl _⟩, ⟨rfl, rfl, ha⟩, hS.re _ _ _⟩
    · show posAfter s.log + 0 = s.off + 0
      rw [hp]
    · show ([] : Bytes) = c.slice _ 0
      rw [Cfg.slice, List.take_zero]
  | skip pos =>
    simp only [callStep]
    split
    · rename_i h; exact ⟨hF, hpI _ hpc h (hS.re s.off s.pc _)⟩
    split
    · rename_i hm
      refine ⟨hF, hpI _ hpc rfl ?_⟩
      rcases hS with ⟨_, h1, h2, h3⟩ | h
      · exact Or.inl ⟨hm, h1, rfl, h3⟩
      · rw [hm] at h; cases h.1
    · rename_i hm
      refine ⟨hF, ?_⟩
      show s.md = false
      exact Bool.eq_false_iff.mpr hm
  | ahead n =>
    simp only [callStep]
    split
    · exact ⟨hF, hpI _ hpc hp (hS.re s.off s.pc _)⟩
    rename_i hoff
    have hoff : s.off < c.size := Nat.lt_of_not_le (fun h => hoff ⟨hk, h⟩)
    split
    · rename_i hm
      have he : s.exc = none := by
        rcases hS with ⟨_, _, _, he⟩ | ⟨hm', _⟩
        · exact he
        · rw [hm] at hm'; cases hm'
      have hr := toData_cases (c := c) (s := s) (net := if c.ftp = true then 0 else n) (pc := .idle) (fun h => by rw [if_pos h])
      generalize toData c s (if c.ftp = true then 0 else n) .idle = x at hr
      rcases hr with ⟨a, b⟩ | ⟨a, b, e, d⟩
      · rw [if_neg (by rw [a]; intro h; cases h)]
        exact inv_threw (by rw [b]; exact hF) a
      · rw [if_pos a]
        refine ⟨by show Faithful c.file x.log; rw [b]; exact hF, hpI _ a ?_ ?_⟩
        · show posAfter x.log = x.off
          rw [b, e]; exact hp
        · have := d.re x.off x.pc (.ahead n :: x.log)
          rw [← e] at this; exact this
    · rename_i hm
      have hL : s.md = false ∧ Live c s.off s := by
        rcases hS with ⟨h, _⟩ | h
        · exact absurd h hm
        · exact h
      split
      · rename_i hd
        exact ⟨hF, hp, hoff, ha, hd, hL.1, hL.2.re _ _ _⟩
      · exact ⟨hF, hpI _ hpc hp (hS.re s.off s.pc _)⟩

theorem reach_inv {c : Cfg} (hk : c.known = true) (hc : 3 ≤ c.cap) {s : St} (h : Reach c (Asks c) s) : Inv c s := by
  induction h with
  | init => exact ⟨trivial, rfl, Or.inl ⟨rfl, rfl, rfl, rfl⟩⟩
  | step _ hs ih => cases hs with
    | call k hk' hi => exact callStep_inv hk hk' hi ih
    | main h => exact mainStep_inv hk hc h ih
    | sub k f h => exact ⟨by rw [(subStep_keeps h).log]; exact ih.1, subStep_pcOk h ih.2⟩

end Dar.Lc
