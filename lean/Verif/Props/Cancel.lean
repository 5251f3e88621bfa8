import Verif.Model.Cancel
import Mathlib.Tactic.Ring
import Mathlib.Tactic.Tauto
/- C43: thread cancellation. -/
namespace Dar

/-! ## Specification -/

/-- What matters for one thread: whether it blocks the delayed cancellations, whether it has been asked to cancel, and
the request not yet delivered (immediate or not, user value). -/
structure ThSpec where
  blocked : Bool
  asked : Bool
  due : Option (Bool × Nat)
  deriving DecidableEq

/-- Live objects with their threads, threads, associations. -/
structure CSpec where
  live : List (Nat × Nat)
  th : Nat → ThSpec
  asso : List (Nat × Nat)

/-- The operations of the interface. -/
inductive COp where
  | create (id t : Nat)
  | destroy (id : Nat)
  | cancel (t : Nat) (imm : Bool) (flag : Nat)
  | status (t : Nat)
  | clear (t : Nat)
  | associate (a b : Nat)
  | removeFor (a : Nat)
  | removeTo (b : Nat)
  | dead (t : Nat)
  | check (id : Nat)
  | block (id : Nat) (mode : Bool)
  deriving DecidableEq

/-- What the caller observes: nothing, a boolean, or the cancellation exception. -/
inductive COut where
  | nothing
  | bool (b : Bool)
  | threw (imm : Bool) (flag : Nat)
  deriving DecidableEq

def ThSpec.fresh : ThSpec := ⟨false, false, none⟩

/-- the thread of an object -/
def CSpec.thread (a : CSpec) (id : Nat) : Nat := ((a.live.find? (fun x => x.1 = id)).map (·.2)).getD 0

/-- A check point: the request due is delivered, once, unless it is a delayed one and the thread blocks these. -/
def CSpec.checkPoint (a : CSpec) (t : Nat) : CSpec × COut :=
  match (a.th t).due with
  | some (imm, flag) =>
    if imm || !(a.th t).blocked then ({ a with th := fun u => if u = t then { a.th t with due := none } else a.th u }, .threw imm flag)
    else (a, .nothing)
  | none => (a, .nothing)

def CSpec.step (a : CSpec) : COp → CSpec × COut
  | .create id t => ({ a with live := a.live ++ [(id, t)] }, .nothing)
  | .destroy id =>
    let l := a.live.filter (fun x => x.1 ≠ id)
    ({ a with live := l, th := fun u => if u = a.thread id ∧ ∀ x ∈ l, x.2 ≠ u then ThSpec.fresh else a.th u }, .nothing)
  | .cancel t imm flag =>
    ({ a with th := fun u => if u = t ∨ (t, u) ∈ a.asso then { a.th u with asked := true, due := some (imm, flag) } else a.th u }, .nothing)
  | .status t => (a, .bool (a.th t).asked)
  | .clear t =>
    ({ a with th := fun u => if u = t ∨ (t, u) ∈ a.asso then { a.th u with asked := false, due := none } else a.th u }, .nothing)
  | .associate x y => ({ a with asso := a.asso ++ [(x, y)] }, .nothing)
  | .removeFor x => ({ a with asso := a.asso.filter (fun p => p.1 ≠ x) }, .nothing)
  | .removeTo y => ({ a with asso := a.asso.filter (fun p => p.2 ≠ y) }, .nothing)
  | .dead t =>
    ({ a with asso := a.asso.filter (fun p => p.1 ≠ t ∧ p.2 ≠ t), th := fun u => if u = t ∧ ∀ x ∈ a.live, x.2 ≠ t then ThSpec.fresh else a.th u }, .nothing)
  | .check id => a.checkPoint (a.thread id)
  | .block id mode =>
    let a' := { a with th := fun u => if u = a.thread id then { a.th u with blocked := mode } else a.th u }
    if mode then (a', .nothing) else a'.checkPoint (a.thread id)

/-- The calls a program may make: new objects are new, the other calls are made on existing objects. -/
def CSpec.Legal (a : CSpec) : COp → Prop
  | .create id _ => id ∉ a.live.map (·.1)
  | .destroy id => id ∈ a.live.map (·.1)
  | .check id => id ∈ a.live.map (·.1)
  | .block id _ => id ∈ a.live.map (·.1)
  | _ => True

def CSpec.LegalAll (a : CSpec) : List COp → Prop
  | [] => True
  | o :: os => a.Legal o ∧ (a.step o).1.LegalAll os

def CSpec.run (a : CSpec) : List COp → CSpec × List COut
  | [] => (a, [])
  | o :: os => let r := (a.step o).1.run os; (r.1, (a.step o).2 :: r.2)

/-! ## The code -/

def cOut : Option (Bool × Nat) → COut
  | none => .nothing
  | some p => .threw p.1 p.2

def CState.step (s : CState) : COp → Res (CState × COut)
  | .create id t => .ok (s.create id t, .nothing)
  | .destroy id => (s.destroy id).map fun r => (r, .nothing)
  | .cancel t imm flag => .ok (s.cancel t imm flag, .nothing)
  | .status t => .ok (s, .bool (s.status t))
  | .clear t => .ok ((s.clear t).1, .nothing)
  | .associate x y => .ok (s.associate x y, .nothing)
  | .removeFor x => .ok (s.removeFor x, .nothing)
  | .removeTo y => .ok (s.removeTo y, .nothing)
  | .dead t => .ok (s.dead t, .nothing)
  | .check id => (s.check id).map fun r => (r.1, cOut r.2)
  | .block id mode => (s.block id mode).map fun r => (r.1, cOut r.2)

def CState.run (s : CState) : List COp → Res (CState × List COut)
  | [] => .ok (s, [])
  | o :: os =>
    match s.step o with
    | .error e => .error e
    | .ok (s', x) =>
      match s'.run os with
      | .error e => .error e
      | .ok (s2, xs) => .ok (s2, x :: xs)

/-! ## Proof -/

def CState.look (s : CState) (t : Nat) : Option CFields :=
  match s.info.find? (fun x => x.2.tid = t) with
  | some x => some x.2
  | none => s.preborn.find? (fun x => x.tid = t)

def absF : Option CFields → ThSpec
  | none => .fresh
  | some x => ⟨x.blockDelayed, x.cancellation, if x.cancellation && !x.thrown then some (x.immediate, x.flag) else none⟩

structure CInv (s : CState) : Prop where
  uniq : ∀ x ∈ s.info, ∀ y ∈ s.info, x.2.tid = y.2.tid → x.2 = y.2
  ids : (s.info.map (·.1)).Nodup
  pre : ∀ x ∈ s.preborn, x.blockDelayed = false ∧ x.cancellation = true ∧ x.thrown = false ∧ ∀ y ∈ s.info, y.2.tid ≠ x.tid
  pren : (s.preborn.map (·.tid)).Nodup

structure CRel (s : CState) (a : CSpec) : Prop where
  live : a.live = s.info.map (fun x => (x.1, x.2.tid))
  asso : a.asso = s.asso
  th : ∀ t, a.th t = absF (s.look t)
  inv : CInv s

theorem look_mem (s : CState) (h : CInv s) (x : Nat × CFields) (hx : x ∈ s.info) : s.look x.2.tid = some x.2 := by
  unfold CState.look
  cases hf : s.info.find? (fun y => y.2.tid = x.2.tid) with
  | none => have := List.find?_eq_none.1 hf x hx; simp at this
  | some y =>
    have h1 := List.mem_of_find?_eq_some hf
    have h2 := List.find?_some hf
    simp at h2
    exact congrArg some (h.uniq y h1 x hx h2)

theorem look_noobj (s : CState) (t : Nat) (h : ∀ x ∈ s.info, x.2.tid ≠ t) : s.look t = s.preborn.find? (fun x => x.tid = t) := by
  unfold CState.look
  rw [List.find?_eq_none.2 (by intro x hx; simpa using h x hx)]

theorem obj_or (s : CState) (t : Nat) : (∃ x ∈ s.info, x.2.tid = t) ∨ ∀ x ∈ s.info, x.2.tid ≠ t := by
  by_cases h : ∃ x ∈ s.info, x.2.tid = t
  · exact Or.inl h
  · right; intro x hx he; exact h ⟨x, hx, he⟩

theorem look_tid (s : CState) (t : Nat) (x : CFields) (h : s.look t = some x) : x.tid = t := by
  unfold CState.look at h
  cases hf : s.info.find? (fun y => y.2.tid = t) with
  | none => rw [hf] at h; have := List.find?_some h; simpa using this
  | some y => rw [hf] at h; cases h; have := List.find?_some hf; simpa using this

theorem find_upd (l : List (Nat × CFields)) (t u : Nat) (f : CFields → CFields) (hf : ∀ x, (f x).tid = x.tid) :
    (l.map fun x => if x.2.tid = t then (x.1, f x.2) else x).find? (fun x => x.2.tid = u) =
      (l.find? (fun x => x.2.tid = u)).map (fun x => if x.2.tid = t then (x.1, f x.2) else x) := by
  rw [List.find?_map]
  congr 1
  congr 1
  funext x
  simp only [Function.comp]
  by_cases h : x.2.tid = t
  · simp [h, hf]
  · simp [h]

theorem look_upd (s : CState) (t u : Nat) (f : CFields → CFields) (hf : ∀ x, (f x).tid = x.tid) :
    (s.upd t f).look u = if u = t ∧ ∃ x ∈ s.info, x.2.tid = t then (s.look u).map f else s.look u := by
  unfold CState.look
  have hm : (s.upd t f).info.find? (fun x => x.2.tid = u) = (s.info.find? (fun x => x.2.tid = u)).map (fun x => if x.2.tid = t then (x.1, f x.2) else x) := find_upd _ _ _ _ hf
  rw [hm]
  cases h : s.info.find? (fun x => x.2.tid = u) with
  | none =>
    have h1 := List.find?_eq_none.1 h
    rw [if_neg (by rintro ⟨rfl, x, hx, he⟩; have := h1 x hx; simp at this; exact this he)]
    rfl
  | some x =>
    have h2 := List.find?_some h
    simp at h2
    show some (if x.2.tid = t then (x.1, f x.2) else x).2 = _
    by_cases hu : u = t
    · rw [if_pos (h2.trans hu), if_pos ⟨hu, x, List.mem_of_find?_eq_some h, h2.trans hu⟩]; rfl
    · rw [if_neg (by rw [h2]; exact hu), if_neg (by rintro ⟨e, _⟩; exact hu e)]

theorem inv_upd (s : CState) (t : Nat) (f : CFields → CFields) (hf : ∀ x, (f x).tid = x.tid) (h : CInv s) : CInv (s.upd t f) := by
  have hm : ∀ x ∈ (s.upd t f).info, ∃ y ∈ s.info, x = (if y.2.tid = t then (y.1, f y.2) else y) ∧ x.2.tid = y.2.tid := by
    intro x hx
    obtain ⟨y, hy, rfl⟩ := List.mem_map.1 hx
    refine ⟨y, hy, rfl, ?_⟩
    split <;> simp [hf]
  refine ⟨?_, ?_, ?_, h.pren⟩
  · intro x hx y hy he
    obtain ⟨x', hx', ex, tx⟩ := hm x hx
    obtain ⟨y', hy', ey, ty⟩ := hm y hy
    have e' : x'.2 = y'.2 := h.uniq x' hx' y' hy' (by rw [← tx, ← ty]; exact he)
    rw [ex, ey]
    by_cases h1 : x'.2.tid = t
    · rw [if_pos h1, if_pos (by rw [← e']; exact h1), e']
    · rw [if_neg h1, if_neg (by rw [← e']; exact h1), e']
  · have : (s.upd t f).info.map (·.1) = s.info.map (·.1) := by
      unfold CState.upd
      rw [List.map_map]
      apply List.map_congr_left
      intro x _
      simp only [Function.comp]
      split <;> rfl
    rw [this]; exact h.ids
  · intro x hx
    obtain ⟨a, b, c, d⟩ := h.pre x hx
    refine ⟨a, b, c, fun y hy => ?_⟩
    obtain ⟨y', hy', _, ty⟩ := hm y hy
    rw [ty]; exact d y' hy'

theorem live_upd (s : CState) (t : Nat) (f : CFields → CFields) (hf : ∀ x, (f x).tid = x.tid) :
    (s.upd t f).info.map (fun x => (x.1, x.2.tid)) = s.info.map (fun x => (x.1, x.2.tid)) := by
  unfold CState.upd
  rw [List.map_map]
  apply List.map_congr_left
  intro x _
  simp only [Function.comp]
  split <;> simp [hf]

theorem find_filter_ne (l : List CFields) (t u : Nat) :
    (l.filter (fun x => x.tid ≠ t)).find? (fun y => y.tid = u) = if u = t then none else l.find? (fun y => y.tid = u) := by
  induction l with
  | nil => simp
  | cons x l ih =>
    by_cases h1 : x.tid = t
    · rw [List.filter_cons_of_neg (by simp [h1]), ih]
      by_cases hu : u = t
      · rw [if_pos hu, if_pos hu]
      · rw [if_neg hu, if_neg hu, List.find?_cons_of_neg (by simp [h1]; exact Ne.symm hu)]
    · rw [List.filter_cons_of_pos (by simp [h1])]
      by_cases h2 : x.tid = u
      · rw [List.find?_cons_of_pos (by simp [h2]), if_neg (by rw [← h2]; exact h1), List.find?_cons_of_pos (by simp [h2])]
      · rw [List.find?_cons_of_neg (by simp [h2]), ih, List.find?_cons_of_neg (by simp [h2])]

theorem eraseP_nodup_ne (l : List CFields) (t : Nat) (h : (l.map (·.tid)).Nodup) : ∀ y ∈ l.eraseP (fun x => x.tid = t), y.tid ≠ t := by
  induction l with
  | nil => simp
  | cons x l ih =>
    rw [List.map_cons, List.nodup_cons] at h
    by_cases hx : x.tid = t
    · rw [List.eraseP_cons_of_pos (by simp [hx])]
      intro y hy e
      exact h.1 (List.mem_map.2 ⟨y, hy, e.trans hx.symm⟩)
    · rw [List.eraseP_cons_of_neg (by simp [hx])]
      intro y hy
      rcases List.mem_cons.1 hy with e | hy
      · rw [e]; exact hx
      · exact ih h.2 y hy

theorem find_eraseP_ne (l : List CFields) (t u : Nat) (hu : u ≠ t) :
    (l.eraseP (fun x => x.tid = t)).find? (fun y => y.tid = u) = l.find? (fun y => y.tid = u) := by
  induction l with
  | nil => rfl
  | cons x l ih =>
    by_cases hx : x.tid = t
    · rw [List.eraseP_cons_of_pos (by simp [hx]), List.find?_cons_of_neg (by simp [hx]; exact Ne.symm hu)]
    · rw [List.eraseP_cons_of_neg (by simp [hx])]
      by_cases h2 : x.tid = u
      · rw [List.find?_cons_of_pos (by simp [h2]), List.find?_cons_of_pos (by simp [h2])]
      · rw [List.find?_cons_of_neg (by simp [h2]), ih, List.find?_cons_of_neg (by simp [h2])]

theorem eraseP_eq_filter (l : List (Nat × CFields)) (id : Nat) (h : (l.map (·.1)).Nodup) :
    l.eraseP (fun x => x.1 = id) = l.filter (fun x => x.1 ≠ id) := by
  induction l with
  | nil => rfl
  | cons x l ih =>
    rw [List.map_cons, List.nodup_cons] at h
    by_cases hx : x.1 = id
    · rw [List.eraseP_cons_of_pos (by simp [hx]), List.filter_cons_of_neg (by simp [hx])]
      symm
      rw [List.filter_eq_self]
      intro y hy
      simp only [decide_eq_true_eq, ne_eq]
      intro e
      exact h.1 (List.mem_map.2 ⟨y, hy, e.trans hx.symm⟩)
    · rw [List.eraseP_cons_of_neg (by simp [hx]), List.filter_cons_of_pos (by simp [hx]), ih h.2]

theorem nodup_fst_eq (l : List (Nat × CFields)) (h : (l.map (·.1)).Nodup) (x y : Nat × CFields) (hx : x ∈ l) (hy : y ∈ l) (e : x.1 = y.1) : x = y := by
  induction l with
  | nil => cases hx
  | cons z l ih =>
    rw [List.map_cons, List.nodup_cons] at h
    rcases List.mem_cons.1 hx with h1 | h1 <;> rcases List.mem_cons.1 hy with h2 | h2
    · rw [h1, h2]
    · exact absurd (List.mem_map.2 ⟨y, h2, by rw [← e, h1]⟩) h.1
    · exact absurd (List.mem_map.2 ⟨x, h1, by rw [e, h2]⟩) h.1
    · exact ih h.2 h1 h2

theorem addPreborn_find (l : List CFields) (x : CFields) (u : Nat) :
    (addPreborn l x).find? (fun y => y.tid = u) = if u = x.tid then some x else l.find? (fun y => y.tid = u) := by
  induction l with
  | nil =>
    unfold addPreborn
    by_cases h : u = x.tid
    · subst h; simp
    · rw [if_neg h]; simp [Ne.symm h]
  | cons y r ih =>
    unfold addPreborn
    by_cases h : y.tid = x.tid
    · rw [if_pos h]
      by_cases hu : u = x.tid
      · subst hu; simp
      · rw [if_neg hu, List.find?_cons_of_neg (by simpa using Ne.symm hu), List.find?_cons_of_neg (by simpa [h] using Ne.symm hu)]
    · rw [if_neg h]
      by_cases hy : y.tid = u
      · rw [List.find?_cons_of_pos (by simpa using hy), List.find?_cons_of_pos (by simpa using hy), if_neg (by rw [← hy]; exact h)]
      · rw [List.find?_cons_of_neg (by simpa using hy), List.find?_cons_of_neg (by simpa using hy), ih]

theorem addPreborn_mem (l : List CFields) (x y : CFields) (h : y ∈ addPreborn l x) : y = x ∨ y ∈ l := by
  induction l with
  | nil => simp [addPreborn] at h; exact Or.inl h
  | cons z r ih =>
    unfold addPreborn at h
    by_cases hz : z.tid = x.tid
    · rw [if_pos hz] at h
      rcases List.mem_cons.1 h with h | h
      · exact Or.inl h
      · exact Or.inr (List.mem_cons_of_mem _ h)
    · rw [if_neg hz] at h
      rcases List.mem_cons.1 h with h | h
      · exact Or.inr (by rw [h]; exact List.mem_cons_self)
      · rcases ih h with h | h
        · exact Or.inl h
        · exact Or.inr (List.mem_cons_of_mem _ h)

theorem addPreborn_nodup (l : List CFields) (x : CFields) (h : (l.map (·.tid)).Nodup) : ((addPreborn l x).map (·.tid)).Nodup := by
  induction l with
  | nil => simp [addPreborn]
  | cons z r ih =>
    rw [List.map_cons, List.nodup_cons] at h
    unfold addPreborn
    by_cases hz : z.tid = x.tid
    · rw [if_pos hz, List.map_cons, List.nodup_cons, ← hz]; exact h
    · rw [if_neg hz, List.map_cons, List.nodup_cons]
      refine ⟨fun hm => ?_, ih h.2⟩
      obtain ⟨y, hy, e⟩ := List.mem_map.1 hm
      rcases addPreborn_mem r x y hy with h' | h'
      · subst h'; exact hz e.symm
      · exact h.1 (by rw [← e]; exact List.mem_map.2 ⟨y, h', rfl⟩)

theorem cancelOne_rel (s : CState) (a : CSpec) (h : CRel s a) (t : Nat) (imm : Bool) (flag : Nat) :
    CRel (s.cancelOne t imm flag) { a with th := fun u => if u = t then { a.th u with asked := true, due := some (imm, flag) } else a.th u } := by
  unfold CState.cancelOne CState.setFor
  dsimp only
  have hf : ∀ x : CFields, ({ x with immediate := imm, cancellation := true, thrown := false, flag := flag } : CFields).tid = x.tid := fun _ => rfl
  rcases obj_or s t with ho | ho
  · rw [if_pos (by obtain ⟨x, hx, e⟩ := ho; exact List.any_eq_true.2 ⟨x, hx, by simpa using e⟩)]
    refine ⟨by rw [live_upd _ _ _ hf]; exact h.live, h.asso, fun u => ?_, inv_upd _ _ _ hf h.inv⟩
    rw [look_upd _ _ _ _ hf]
    by_cases hu : u = t
    · subst hu
      rw [if_pos ⟨rfl, ho⟩]
      simp only [if_true]
      obtain ⟨x, hx, e⟩ := ho
      rw [h.th, ← e, look_mem s h.inv x hx]
      simp [absF]
    · rw [if_neg (by rintro ⟨e, _⟩; exact hu e)]
      simp only [if_neg hu]
      exact h.th u
  · rw [if_neg (by intro hc; obtain ⟨x, hx, e⟩ := List.any_eq_true.1 hc; exact ho x hx (by simpa using e))]
    have hsame : ∀ f, s.upd t f = s := by
      intro f
      unfold CState.upd
      have : (s.info.map fun x => if x.2.tid = t then (x.1, f x.2) else x) = s.info := by
        conv_rhs => rw [← List.map_id s.info]
        apply List.map_congr_left
        intro x hx
        rw [if_neg (ho x hx)]; rfl
      rw [this]
    rw [hsame]
    refine ⟨h.live, h.asso, fun u => ?_, ⟨h.inv.uniq, h.inv.ids, ?_, addPreborn_nodup _ _ h.inv.pren⟩⟩
    · rcases obj_or s u with hu | hu
      · obtain ⟨x, hx, e⟩ := hu
        have hne : u ≠ t := by intro e'; exact ho x hx (e.trans e')
        simp only [if_neg hne]
        rw [h.th]
        congr 1
        unfold CState.look
        cases hfi : s.info.find? (fun x => x.2.tid = u) with
        | none => have := List.find?_eq_none.1 hfi x hx; simp at this; exact absurd e this
        | some y => rfl
      · rw [look_noobj _ _ (by exact hu), addPreborn_find]
        by_cases hut : u = t
        · subst hut
          simp only [if_true]
          rw [h.th, look_noobj _ _ hu]
          cases hfi : s.preborn.find? (fun x => x.tid = u) with
          | none => simp [absF, ThSpec.fresh]
          | some y =>
            have := h.inv.pre y (List.mem_of_find?_eq_some hfi)
            simp [absF, this.1]
        · simp only [if_neg hut]
          rw [h.th, look_noobj _ _ hu]
    · intro x hx
      rcases addPreborn_mem _ _ _ hx with e | hx
      · subst e; exact ⟨rfl, rfl, rfl, ho⟩
      · exact h.inv.pre x hx

theorem CRel.conv {s : CState} {a b : CSpec} (h : CRel s a) (h1 : a.live = b.live) (h2 : ∀ u, a.th u = b.th u) (h3 : a.asso = b.asso) : CRel s b :=
  ⟨h1.symm.trans h.live, h3.symm.trans h.asso, fun t => (h2 t).symm.trans (h.th t), h.inv⟩

theorem cancelAll_rel (imm : Bool) (flag : Nat) (us : List Nat) : ∀ (s : CState) (a : CSpec), CRel s a →
    CRel (us.foldl (fun s u => s.cancelOne u imm flag) s) { a with th := fun u => if u ∈ us then { a.th u with asked := true, due := some (imm, flag) } else a.th u } := by
  induction us with
  | nil => intro s a h; simpa using h
  | cons v us ih =>
    intro s a h
    have := ih _ _ (cancelOne_rel s a h v imm flag)
    rw [List.foldl_cons]
    refine CRel.conv this rfl (fun u => ?_) rfl
    dsimp only
    by_cases h1 : u ∈ us <;> by_cases h2 : u = v <;> simp [h1, h2]

theorem clearOne_rel (s : CState) (a : CSpec) (h : CRel s a) (t : Nat) (ret : Bool) :
    CRel (s.clearOne t ret).1 { a with th := fun u => if u = t then { a.th u with asked := false, due := none } else a.th u } := by
  unfold CState.clearOne CState.setFor
  dsimp only
  have hf : ∀ x : CFields, ({ x with immediate := false, cancellation := false, thrown := false, flag := 0 } : CFields).tid = x.tid := fun _ => rfl
  rcases obj_or s t with ho | ho
  · rw [if_pos (by obtain ⟨x, hx, e⟩ := ho; exact List.any_eq_true.2 ⟨x, hx, by simpa using e⟩)]
    refine ⟨by rw [live_upd _ _ _ hf]; exact h.live, h.asso, fun u => ?_, inv_upd _ _ _ hf h.inv⟩
    rw [look_upd _ _ _ _ hf]
    by_cases hu : u = t
    · subst hu
      rw [if_pos ⟨rfl, ho⟩]
      simp only [if_true]
      obtain ⟨x, hx, e⟩ := ho
      rw [h.th, ← e, look_mem s h.inv x hx]
      simp [absF]
    · rw [if_neg (by rintro ⟨e, _⟩; exact hu e)]
      simp only [if_neg hu]
      exact h.th u
  · rw [if_neg (by intro hc; obtain ⟨x, hx, e⟩ := List.any_eq_true.1 hc; exact ho x hx (by simpa using e))]
    have hsame : ∀ f, s.upd t f = s := by
      intro f
      unfold CState.upd
      have : (s.info.map fun x => if x.2.tid = t then (x.1, f x.2) else x) = s.info := by
        conv_rhs => rw [← List.map_id s.info]
        apply List.map_congr_left
        intro x hx
        rw [if_neg (ho x hx)]; rfl
      rw [this]
    rw [hsame]
    unfold removePreborn
    refine ⟨h.live, h.asso, fun u => ?_, ⟨h.inv.uniq, h.inv.ids, fun x hx => h.inv.pre x (List.mem_filter.1 hx).1, ?_⟩⟩
    · rcases obj_or s u with hu | hu
      · obtain ⟨x, hx, e⟩ := hu
        have hne : u ≠ t := by intro e'; exact ho x hx (e.trans e')
        simp only [if_neg hne]
        rw [h.th]
        congr 1
        unfold CState.look
        cases hfi : s.info.find? (fun x => x.2.tid = u) with
        | none => have := List.find?_eq_none.1 hfi x hx; simp at this; exact absurd e this
        | some y => rfl
      · rw [look_noobj _ _ (by exact hu)]
        show _ = absF ((s.preborn.filter (fun x => x.tid ≠ t)).find? _)
        rw [find_filter_ne]
        by_cases hut : u = t
        · subst hut
          simp only [if_true]
          rw [h.th, look_noobj _ _ hu]
          cases hfi : s.preborn.find? (fun x => x.tid = u) with
          | none => simp [absF, ThSpec.fresh]
          | some y =>
            have := h.inv.pre y (List.mem_of_find?_eq_some hfi)
            simp [absF, this.1, ThSpec.fresh]
        · simp only [if_neg hut]
          rw [h.th, look_noobj _ _ hu]
    · exact List.Nodup.sublist (List.Sublist.map _ List.filter_sublist) h.inv.pren

theorem clearAll_rel (us : List Nat) : ∀ (r : CState × Bool) (a : CSpec), CRel r.1 a →
    CRel (us.foldl (fun r u => r.1.clearOne u r.2) r).1 { a with th := fun u => if u ∈ us then { a.th u with asked := false, due := none } else a.th u } := by
  induction us with
  | nil => intro s a h; simpa using h
  | cons v us ih =>
    intro s a h
    have := ih _ _ (clearOne_rel s.1 a h v s.2)
    rw [List.foldl_cons]
    refine CRel.conv this rfl (fun u => ?_) rfl
    dsimp only
    by_cases h1 : u ∈ us <;> by_cases h2 : u = v <;> simp [h1, h2]

theorem own_of_live (s : CState) (a : CSpec) (h : CRel s a) (id : Nat) (hl : id ∈ a.live.map (·.1)) :
    ∃ x ∈ s.info, x.1 = id ∧ s.own id = some x.2 ∧ a.thread id = x.2.tid ∧ s.look x.2.tid = some x.2 := by
  rw [h.live, List.map_map] at hl
  obtain ⟨y, hy, e⟩ := List.mem_map.1 hl
  have e : y.1 = id := e
  cases hf : s.info.find? (fun x => x.1 = id) with
  | none => have := List.find?_eq_none.1 hf y hy; simp at this; exact absurd e this
  | some x =>
    have hx := List.mem_of_find?_eq_some hf
    have he := List.find?_some hf
    simp at he
    refine ⟨x, hx, he, ?_, ?_, look_mem s h.inv x hx⟩
    · unfold CState.own; rw [hf]; rfl
    · unfold CSpec.thread
      rw [h.live, List.find?_map]
      rw [show ((fun x : Nat × Nat => decide (x.1 = id)) ∘ fun x : Nat × CFields => (x.1, x.2.tid)) = (fun x => decide (x.1 = id)) from rfl, hf]
      rfl

theorem checkPoint_rel (s : CState) (a : CSpec) (h : CRel s a) (id : Nat) (x : Nat × CFields) (hx : x ∈ s.info) (ho : s.own id = some x.2) :
    ∃ s' o, s.check id = .ok (s', o) ∧ cOut o = (a.checkPoint x.2.tid).2 ∧ CRel s' (a.checkPoint x.2.tid).1 := by
  have hth := h.th x.2.tid
  rw [look_mem s h.inv x hx] at hth
  unfold CState.check CState.peek
  rw [ho]
  dsimp only
  unfold CSpec.checkPoint
  cases hc : (x.2.cancellation && !x.2.thrown) with
  | false =>
    have : (a.th x.2.tid).due = none := by rw [hth]; simp only [absF, hc]; rfl
    rw [this]
    exact ⟨s, none, rfl, rfl, h⟩
  | true =>
    have hd : (a.th x.2.tid).due = some (x.2.immediate, x.2.flag) := by rw [hth]; simp only [absF, hc]; rfl
    have hb : (a.th x.2.tid).blocked = x.2.blockDelayed := by rw [hth]; rfl
    rw [hd, hb]
    dsimp only
    cases hi : (x.2.immediate || !x.2.blockDelayed) with
    | false => rw [if_neg (by simp)]; exact ⟨s, none, rfl, rfl, h⟩
    | true =>
      rw [if_pos rfl]
      simp only [Bool.and_self]
      unfold CState.commit
      rw [ho]
      dsimp only
      have hnt : x.2.thrown = false := by
        cases ht : x.2.thrown with
        | false => rfl
        | true => rw [ht] at hc; simp at hc
      rw [if_pos (List.any_eq_true.2 ⟨x, List.mem_filter.2 ⟨hx, by simp⟩, by simp [hnt]⟩)]
      have hf : ∀ y : CFields, ({ y with thrown := true } : CFields).tid = y.tid := fun _ => rfl
      refine ⟨_, _, rfl, rfl, ⟨by rw [live_upd _ _ _ hf]; exact h.live, h.asso, fun u => ?_, inv_upd _ _ _ hf h.inv⟩⟩
      rw [look_upd _ _ _ _ hf]
      dsimp only
      by_cases hu : u = x.2.tid
      · subst hu
        rw [if_pos rfl, if_pos ⟨rfl, x, hx, rfl⟩, look_mem s h.inv x hx, hth]
        simp [absF]
      · rw [if_neg hu, if_neg (by rintro ⟨e, _⟩; exact hu e)]
        exact h.th u

theorem cstep_rel (s : CState) (a : CSpec) (h : CRel s a) (o : COp) (hl : a.Legal o) :
    ∃ s', s.step o = .ok (s', (a.step o).2) ∧ CRel s' (a.step o).1 := by
  cases o with
  | create id t =>
    refine ⟨_, rfl, ?_⟩
    have hnew : id ∉ s.info.map (·.1) := by
      intro hm
      have hl : id ∉ a.live.map (·.1) := hl
      rw [h.live, List.map_map] at hl
      exact hl hm
    have key : ∀ (x : CFields) (p : List CFields), s.look t = some x ∨ (s.look t = none ∧ x = ⟨t, false, true, false, false, 0⟩) → x.tid = t →
        (∀ y ∈ p, y ∈ s.preborn ∧ y.tid ≠ t) → (p.map (·.tid)).Nodup → (∀ u, u ≠ t → p.find? (fun y => y.tid = u) = s.preborn.find? (fun y => y.tid = u)) →
        CRel ⟨s.info ++ [(id, x)], p, s.asso⟩ { a with live := a.live ++ [(id, t)] } := by
      intro x p hx ht hp hpn hpf
      have hxo : ∀ y ∈ s.info, y.2.tid = t → y.2 = x := by
        intro y hy e
        have := look_mem s h.inv y hy
        rw [e] at this
        rcases hx with hx | hx
        · rw [hx] at this; exact (Option.some.inj this).symm
        · rw [hx.1] at this; cases this
      refine ⟨?_, h.asso, fun u => ?_, ⟨?_, ?_, ?_, hpn⟩⟩
      · rw [h.live, List.map_append]; simp [ht]
      · rw [h.th]
        by_cases hu : u = t
        · subst hu
          have : CState.look ⟨s.info ++ [(id, x)], p, s.asso⟩ u = some x := by
            unfold CState.look
            dsimp only
            rw [List.find?_append]
            cases hf : s.info.find? (fun y => y.2.tid = u) with
            | none => simp [ht]
            | some y =>
              have e := List.find?_some hf
              simp at e
              exact congrArg some (hxo y (List.mem_of_find?_eq_some hf) e)
          rw [this]
          rcases hx with hx | ⟨hx, e⟩
          · rw [hx]
          · rw [hx, e]; rfl
        · congr 1
          unfold CState.look
          dsimp only
          rw [List.find?_append]
          cases hf : s.info.find? (fun y => y.2.tid = u) with
          | none =>
            rw [List.find?_cons_of_neg (by simp [ht]; exact Ne.symm hu)]
            exact (hpf u hu).symm
          | some y => rfl
      · intro y hy z hz e
        rcases List.mem_append.1 hy with hy | hy <;> rcases List.mem_append.1 hz with hz | hz
        · exact h.inv.uniq y hy z hz e
        · simp at hz; subst hz; exact hxo y hy (e.trans ht)
        · simp at hy; subst hy; exact (hxo z hz (e.symm.trans ht)).symm
        · simp at hy hz; rw [hy, hz]
      · rw [List.map_append, List.nodup_append]
        refine ⟨h.inv.ids, by simp, ?_⟩
        intro i hi j hj e
        simp at hj; subst hj; subst e; exact hnew hi
      · intro y hy
        obtain ⟨hy1, hy2⟩ := hp y hy
        obtain ⟨b1, b2, b3, b4⟩ := h.inv.pre y hy1
        refine ⟨b1, b2, b3, fun z hz => ?_⟩
        rcases List.mem_append.1 hz with hz | hz
        · exact b4 z hz
        · simp at hz; subst hz; rw [ht]; exact Ne.symm hy2
    show CRel (s.create id t) _
    unfold CState.create
    cases hf : s.info.find? (fun y => y.2.tid = t) with
    | some x =>
      have hx := List.mem_of_find?_eq_some hf
      have e := List.find?_some hf
      simp at e
      refine key x.2 s.preborn (Or.inl (by rw [← e]; exact look_mem s h.inv x hx)) e ?_ h.inv.pren (fun _ _ => rfl)
      intro y hy
      refine ⟨hy, fun e' => (h.inv.pre y hy).2.2.2 x hx (e.trans e'.symm)⟩
    | none =>
      have hno : ∀ y ∈ s.info, y.2.tid ≠ t := by intro y hy; have := List.find?_eq_none.1 hf y hy; simpa using this
      dsimp only
      cases hp : s.preborn.find? (fun y => y.tid = t) with
      | none =>
        dsimp only
        refine key _ s.preborn (Or.inr ⟨by rw [look_noobj _ _ hno]; exact hp, rfl⟩) rfl ?_ h.inv.pren (fun _ _ => rfl)
        intro y hy
        have := List.find?_eq_none.1 hp y hy
        exact ⟨hy, by simpa using this⟩
      | some x =>
        dsimp only
        have e := List.find?_some hp
        simp at e
        have hsub : (s.preborn.eraseP (fun y => y.tid = t)).Sublist s.preborn := List.eraseP_sublist
        refine key x _ (Or.inl (by rw [look_noobj _ _ hno]; exact hp)) e ?_ (List.Nodup.sublist (hsub.map _) h.inv.pren) ?_
        · intro y hy
          refine ⟨hsub.mem hy, ?_⟩
          exact eraseP_nodup_ne s.preborn t h.inv.pren y hy
        · intro u hu
          exact find_eraseP_ne s.preborn t u hu
  | destroy id =>
    obtain ⟨x, hx, hid, ho, hth, hlk⟩ := own_of_live s a h id hl
    have hst : s.destroy id = .ok { s with info := s.info.eraseP (fun x => x.1 = id) } := by
      unfold CState.destroy
      rw [if_pos (List.any_eq_true.2 ⟨x, hx, by simpa using hid⟩)]
    refine ⟨_, by show (s.destroy id).map _ = _; rw [hst]; rfl, ?_⟩
    have hsub : (s.info.eraseP (fun x => x.1 = id)).Sublist s.info := List.eraseP_sublist
    have hfil : (s.info.eraseP (fun x => x.1 = id)) = s.info.filter (fun x => x.1 ≠ id) := eraseP_eq_filter s.info id h.inv.ids
    have hlive : a.live.filter (fun x => x.1 ≠ id) = (s.info.eraseP (fun x => x.1 = id)).map (fun x => (x.1, x.2.tid)) := by
      rw [hfil, h.live, List.filter_map]; rfl
    have hinv : CInv { s with info := s.info.eraseP (fun x => x.1 = id) } := by
      refine ⟨fun y hy z hz e => h.inv.uniq y (hsub.mem hy) z (hsub.mem hz) e, List.Nodup.sublist (hsub.map _) h.inv.ids, ?_, h.inv.pren⟩
      intro y hy
      obtain ⟨b1, b2, b3, b4⟩ := h.inv.pre y hy
      exact ⟨b1, b2, b3, fun z hz => b4 z (hsub.mem hz)⟩
    refine ⟨hlive, h.asso, fun u => ?_, hinv⟩
    show (if u = a.thread id ∧ ∀ x ∈ a.live.filter (fun x : Nat × Nat => decide (x.1 ≠ id)), x.2 ≠ u then ThSpec.fresh else a.th u) = _
    simp only [hlive]
    rcases obj_or { s with info := s.info.eraseP (fun x => x.1 = id) } u with hu | hu
    · obtain ⟨y, hy, e⟩ := hu
      have hy : y ∈ s.info.eraseP (fun x => x.1 = id) := hy
      rw [if_neg (by rintro ⟨_, hall⟩; exact hall _ (List.mem_map.2 ⟨y, hy, rfl⟩) e)]
      rw [h.th, ← e, look_mem _ hinv y hy, look_mem s h.inv y (hsub.mem hy)]
    · by_cases hut : u = a.thread id
      · rw [if_pos ⟨hut, by intro z hz; obtain ⟨y, hy, rfl⟩ := List.mem_map.1 hz; exact hu y hy⟩]
        rw [look_noobj _ _ hu]
        cases hf : s.preborn.find? (fun y => y.tid = u) with
        | none => rfl
        | some y =>
          have e := List.find?_some hf
          simp at e
          exact absurd (hth.symm.trans (hut.symm.trans e.symm)) ((h.inv.pre y (List.mem_of_find?_eq_some hf)).2.2.2 x hx)
      · rw [if_neg (by rintro ⟨e, _⟩; exact hut e), h.th, look_noobj _ _ hu, look_noobj]
        intro y hy e
        refine hu y ?_ e
        show y ∈ s.info.eraseP (fun x => x.1 = id)
        rw [hfil]
        refine List.mem_filter.2 ⟨hy, ?_⟩
        simp only [decide_eq_true_eq, ne_eq]
        intro e'
        apply hut
        have : y = x := nodup_fst_eq s.info h.inv.ids y x hy hx (e'.trans hid.symm)
        rw [hth, ← this, e]
  | cancel t imm flag =>
    refine ⟨_, rfl, ?_⟩
    have h1 := cancelOne_rel s a h t imm flag
    have h2 := cancelAll_rel imm flag (s.targets t) _ _ h1
    refine CRel.conv h2 rfl (fun u => ?_) rfl
    have ht : u ∈ s.targets t ↔ (t, u) ∈ a.asso := by
      unfold CState.targets; rw [h.asso]; simp
    show (if u ∈ s.targets t then _ else _) = if u = t ∨ (t, u) ∈ a.asso then _ else _
    dsimp only
    by_cases h1 : (t, u) ∈ a.asso <;> by_cases h2 : u = t
    · rw [if_pos (ht.2 h1), if_pos (Or.inl h2), if_pos h2]
    · rw [if_pos (ht.2 h1), if_pos (Or.inr h1), if_neg h2]
    · rw [if_neg (fun h => h1 (ht.1 h)), if_pos (Or.inl h2), if_pos h2]
    · rw [if_neg (fun h => h1 (ht.1 h)), if_neg h2, if_neg (fun hh => hh.elim h2 h1)]
  | status t =>
    refine ⟨s, ?_, h⟩
    show Except.ok (s, COut.bool (s.status t)) = Except.ok (s, COut.bool (a.th t).asked)
    have : s.status t = (a.th t).asked := by
      rw [h.th]
      unfold CState.status CState.look
      cases s.info.find? (fun x => x.2.tid = t) with
      | some x => rfl
      | none =>
        dsimp only
        cases s.preborn.find? (fun x => x.tid = t) with
        | some x => rfl
        | none => rfl
    rw [this]
  | clear t =>
    refine ⟨_, rfl, ?_⟩
    have h1 := clearOne_rel s a h t false
    have h2 := clearAll_rel (s.targets t) _ _ h1
    refine CRel.conv h2 rfl (fun u => ?_) rfl
    have ht : u ∈ s.targets t ↔ (t, u) ∈ a.asso := by
      unfold CState.targets; rw [h.asso]; simp
    show (if u ∈ s.targets t then _ else _) = if u = t ∨ (t, u) ∈ a.asso then _ else _
    dsimp only
    by_cases h1 : (t, u) ∈ a.asso <;> by_cases h2 : u = t
    · rw [if_pos (ht.2 h1), if_pos (Or.inl h2), if_pos h2]
    · rw [if_pos (ht.2 h1), if_pos (Or.inr h1), if_neg h2]
    · rw [if_neg (fun h => h1 (ht.1 h)), if_pos (Or.inl h2), if_pos h2]
    · rw [if_neg (fun h => h1 (ht.1 h)), if_neg h2, if_neg (fun hh => hh.elim h2 h1)]
  | associate x y => exact ⟨_, rfl, ⟨h.live, by show a.asso ++ _ = s.asso ++ _; rw [h.asso], h.th, ⟨h.inv.uniq, h.inv.ids, h.inv.pre, h.inv.pren⟩⟩⟩
  | removeFor x => exact ⟨_, rfl, ⟨h.live, by show a.asso.filter _ = s.asso.filter _; rw [h.asso], h.th, ⟨h.inv.uniq, h.inv.ids, h.inv.pre, h.inv.pren⟩⟩⟩
  | removeTo x => exact ⟨_, rfl, ⟨h.live, by show a.asso.filter _ = s.asso.filter _; rw [h.asso], h.th, ⟨h.inv.uniq, h.inv.ids, h.inv.pre, h.inv.pren⟩⟩⟩
  | dead t =>
    refine ⟨_, rfl, ?_⟩
    show CRel (s.dead t) _
    unfold CState.dead CState.removeTo CState.removeFor removePreborn
    refine ⟨h.live, ?_, fun u => ?_, ⟨h.inv.uniq, h.inv.ids, fun x hx => h.inv.pre x (List.mem_filter.1 hx).1, List.Nodup.sublist (List.Sublist.map _ List.filter_sublist) h.inv.pren⟩⟩
    · show a.asso.filter _ = (s.asso.filter _).filter _
      rw [h.asso, List.filter_filter]
      congr 1
      funext p
      simp [Bool.and_comm]
    · show (if u = t ∧ ∀ x ∈ a.live, x.2 ≠ t then ThSpec.fresh else a.th u) = _
      rcases obj_or s u with hu | hu
      · obtain ⟨x, hx, e⟩ := hu
        have hx' : (x.1, x.2.tid) ∈ a.live := by rw [h.live]; exact List.mem_map.2 ⟨x, hx, rfl⟩
        rw [if_neg (by rintro ⟨e', hall⟩; exact hall _ hx' (e.trans e')), h.th]
        congr 1
        unfold CState.look
        cases hfi : s.info.find? (fun x => x.2.tid = u) with
        | none => have := List.find?_eq_none.1 hfi x hx; simp at this; exact absurd e this
        | some y => rfl
      · rw [look_noobj _ _ (by exact hu)]
        show _ = absF ((s.preborn.filter (fun x => x.tid ≠ t)).find? _)
        rw [find_filter_ne]
        by_cases hut : u = t
        · subst hut
          rw [if_pos ⟨rfl, by rw [h.live]; intro z hz; obtain ⟨y, hy, rfl⟩ := List.mem_map.1 hz; exact hu y hy⟩]
          rw [if_pos rfl]; rfl
        · rw [if_neg (by rintro ⟨e, _⟩; exact hut e), h.th, look_noobj _ _ hu, if_neg hut]
  | check id =>
    obtain ⟨x, hx, hid, ho, hth, hlk⟩ := own_of_live s a h id hl
    obtain ⟨s', o, h1, h2, h3⟩ := checkPoint_rel s a h id x hx ho
    refine ⟨s', ?_, ?_⟩
    · show (s.check id).map _ = .ok (s', (a.checkPoint (a.thread id)).2)
      rw [h1, hth, ← h2]; rfl
    · show CRel s' (a.checkPoint (a.thread id)).1
      rw [hth]; exact h3
  | block id mode =>
    obtain ⟨x, hx, hid, ho, hth, hlk⟩ := own_of_live s a h id hl
    have hf : ∀ y : CFields, ({ y with blockDelayed := mode } : CFields).tid = y.tid := fun _ => rfl
    have hrel : CRel (s.upd x.2.tid fun y => { y with blockDelayed := mode }) { a with th := fun u => if u = a.thread id then { a.th u with blocked := mode } else a.th u } := by
      refine ⟨by rw [live_upd _ _ _ hf]; exact h.live, h.asso, fun u => ?_, inv_upd _ _ _ hf h.inv⟩
      rw [look_upd _ _ _ _ hf]
      dsimp only
      rw [hth]
      by_cases hu : u = x.2.tid
      · subst hu
        rw [if_pos rfl, if_pos ⟨rfl, x, hx, rfl⟩, h.th, hlk]
        rfl
      · rw [if_neg hu, if_neg (by rintro ⟨e, _⟩; exact hu e)]
        exact h.th u
    cases mode with
    | true =>
      refine ⟨_, ?_, hrel⟩
      show (s.block id true).map _ = _
      unfold CState.block
      rw [ho]
      rfl
    | false =>
      have hx' : (x.1, { x.2 with blockDelayed := false }) ∈ (s.upd x.2.tid fun y => { y with blockDelayed := false }).info := by
        refine List.mem_map.2 ⟨x, hx, ?_⟩
        rw [if_pos rfl]
      have ho' : (s.upd x.2.tid fun y => { y with blockDelayed := false }).own id = some { x.2 with blockDelayed := false } := by
        unfold CState.own at ho ⊢
        show ((s.info.map _).find? _).map _ = _
        rw [List.find?_map]
        have : ((fun y : Nat × CFields => decide (y.1 = id)) ∘ fun y : Nat × CFields => if y.2.tid = x.2.tid then (y.1, { y.2 with blockDelayed := false }) else y) = fun y => decide (y.1 = id) := by
          funext y; simp only [Function.comp]; split <;> rfl
        rw [this]
        cases hfi : s.info.find? (fun y => y.1 = id) with
        | none => rw [hfi] at ho; cases ho
        | some y => rw [hfi] at ho; cases y; simp at ho; subst ho; simp
      obtain ⟨s', o, h1, h2, h3⟩ := checkPoint_rel _ _ hrel id _ hx' ho'
      refine ⟨s', ?_, ?_⟩
      · show (s.block id false).map _ = .ok (s', _)
        unfold CState.block
        rw [ho]
        dsimp only
        rw [if_neg (by simp), h1]
        show Except.ok (s', cOut o) = _
        rw [h2]
        show _ = Except.ok (s', (CSpec.checkPoint _ (a.thread id)).2)
        rw [hth]
      · show CRel s' (CSpec.checkPoint _ (a.thread id)).1
        rw [hth]; rw [hth] at h3; exact h3

/-- the library as loaded: no object, no request, no association -/
def CState.init : CState := ⟨[], [], []⟩
def CSpec.init : CSpec := ⟨[], fun _ => .fresh, []⟩

theorem init_rel : CRel CState.init CSpec.init :=
  ⟨rfl, rfl, fun _ => rfl, ⟨(by intro x hx; cases hx), List.nodup_nil, (by intro x hx; cases hx), List.nodup_nil⟩⟩

theorem crun_rel (os : List COp) : ∀ (s : CState) (a : CSpec), CRel s a → a.LegalAll os →
    ∃ s', s.run os = .ok (s', (a.run os).2) ∧ CRel s' (a.run os).1 := by
  induction os with
  | nil => exact fun s a h _ => ⟨s, rfl, h⟩
  | cons o os ih =>
    intro s a h hl
    obtain ⟨s1, r1, h1⟩ := cstep_rel s a h o hl.1
    obtain ⟨s2, r2, h2⟩ := ih s1 _ h1 hl.2
    refine ⟨s2, ?_, h2⟩
    unfold CState.run
    rw [r1]
    dsimp only
    rw [r2]
    rfl

/-- C43: for every sequence of calls, made from any threads (each call is one critical section), the code behaves as
specified: a request is due to the thread asked and to the threads associated to it, a check point delivers it once with
its value, unless it is delayed and the thread blocks those, in which case the unblocking delivers it; a request made
before the thread has any object is kept for its first one; nothing else raises. -/
theorem C43_refines (os : List COp) (hl : CSpec.init.LegalAll os) :
    ∃ s', CState.init.run os = .ok (s', (CSpec.init.run os).2) := by
  obtain ⟨s', h, _⟩ := crun_rel os _ _ init_rel hl
  exact ⟨s', h⟩

/-- the call does not concern thread `t` -/
def CSpec.Apart (a : CSpec) (t : Nat) : COp → Prop
  | .cancel u _ _ => u ≠ t ∧ (u, t) ∉ a.asso
  | .clear u => u ≠ t ∧ (u, t) ∉ a.asso
  | .destroy id => a.thread id ≠ t
  | .check id => a.thread id ≠ t
  | .block id _ => a.thread id ≠ t
  | .dead u => u ≠ t
  | _ => True

def CSpec.ApartAll (a : CSpec) (t : Nat) : List COp → Prop
  | [] => True
  | o :: os => a.Apart t o ∧ (a.step o).1.ApartAll t os

theorem checkPoint_other (a : CSpec) (u t : Nat) (h : u ≠ t) : (a.checkPoint u).1.th t = a.th t := by
  unfold CSpec.checkPoint
  cases (a.th u).due with
  | none => rfl
  | some p =>
    dsimp only
    split
    · exact if_neg (Ne.symm h)
    · rfl

theorem apart_step (a : CSpec) (t : Nat) (o : COp) (h : a.Apart t o) : (a.step o).1.th t = a.th t := by
  cases o with
  | create id u => rfl
  | destroy id => exact if_neg (by rintro ⟨e, _⟩; exact h e.symm)
  | cancel u imm flag => exact if_neg (by rintro (e | e); exacts [h.1 e.symm, h.2 e])
  | status u => rfl
  | clear u => exact if_neg (by rintro (e | e); exacts [h.1 e.symm, h.2 e])
  | associate x y => rfl
  | removeFor x => rfl
  | removeTo x => rfl
  | dead u => exact if_neg (by rintro ⟨e, _⟩; exact h e.symm)
  | check id => exact checkPoint_other a _ t h
  | block id mode =>
    have hb : (if t = a.thread id then { a.th t with blocked := mode } else a.th t) = a.th t := if_neg (Ne.symm h)
    cases mode with
    | true => exact hb
    | false => exact (checkPoint_other _ _ t h).trans hb

theorem apart_run (t : Nat) (os : List COp) : ∀ (a : CSpec), a.ApartAll t os → (a.run os).1.th t = a.th t := by
  induction os with
  | nil => exact fun _ _ => rfl
  | cons o os ih => exact fun a h => (ih _ h.2).trans (apart_step a t o h.1)

theorem spec_run_append (xs ys : List COp) : ∀ a : CSpec, a.run (xs ++ ys) = (((a.run xs).1.run ys).1, (a.run xs).2 ++ ((a.run xs).1.run ys).2) := by
  induction xs with
  | nil => exact fun a => rfl
  | cons x xs ih =>
    intro a
    show (((a.step x).1.run (xs ++ ys)).1, (a.step x).2 :: ((a.step x).1.run (xs ++ ys)).2) = _
    rw [ih]; rfl

/-- C43 (delivery): whatever happened before, after a request for thread `t` and any calls that do not concern `t`, the
next check point of `t` raises the exception with the value of that request, unless it is a delayed one and `t` blocks
these; and once raised the following check point raises nothing. -/
theorem C43_delivered (hist mid : List COp) (t id : Nat) (imm : Bool) (flag : Nat)
    (hl : CSpec.init.LegalAll (hist ++ .cancel t imm flag :: mid ++ [.check id, .check id]))
    (ha : ((CSpec.init.run hist).1.step (.cancel t imm flag)).1.ApartAll t mid)
    (ht : (CSpec.init.run (hist ++ .cancel t imm flag :: mid)).1.thread id = t) :
    ∃ s' outs, CState.init.run (hist ++ .cancel t imm flag :: mid ++ [.check id, .check id]) =
      .ok (s', outs ++ [if imm || !((CSpec.init.run hist).1.th t).blocked then .threw imm flag else .nothing, .nothing]) := by
  obtain ⟨s', h⟩ := C43_refines _ hl
  generalize hA : (CSpec.init.run (hist ++ .cancel t imm flag :: mid)).1 = A at ht
  refine ⟨s', (CSpec.init.run (hist ++ .cancel t imm flag :: mid)).2, h.trans ?_⟩
  rw [spec_run_append _ [COp.check id, COp.check id], hA]
  have hth : A.th t = { (CSpec.init.run hist).1.th t with asked := true, due := some (imm, flag) } := by
    rw [← hA, spec_run_append]
    show (CSpec.run ((CSpec.init.run hist).1.step (.cancel t imm flag)).1 mid).1.th t = _
    rw [apart_run t mid _ ha]
    exact if_pos (Or.inl rfl)
  have hB : A.run [.check id, .check id] = (((A.checkPoint t).1.checkPoint t).1, [(A.checkPoint t).2, ((A.checkPoint t).1.checkPoint t).2]) := by
    have hlive : (A.checkPoint t).1.live = A.live := by
      unfold CSpec.checkPoint
      cases (A.th t).due with
      | none => rfl
      | some p => dsimp only; split <;> rfl
    have e : (A.checkPoint t).1.thread id = t := by
      unfold CSpec.thread at ht ⊢
      rw [hlive]; exact ht
    show (((A.checkPoint (A.thread id)).1.checkPoint ((A.checkPoint (A.thread id)).1.thread id)).1, [(A.checkPoint (A.thread id)).2, ((A.checkPoint (A.thread id)).1.checkPoint ((A.checkPoint (A.thread id)).1.thread id)).2]) = _
    rw [ht, e]
  rw [hB]
  generalize (CSpec.init.run hist).1.th t = T at hth ⊢
  have key : (A.checkPoint t).2 = (if imm || !T.blocked then .threw imm flag else .nothing) ∧ ((A.checkPoint t).1.checkPoint t).2 = .nothing := by
    have hd : (A.th t).due = some (imm, flag) := by rw [hth]
    have hb : (A.th t).blocked = T.blocked := by rw [hth]
    by_cases hc : (imm || !T.blocked) = true
    · have h1 : A.checkPoint t = ({ A with th := fun u => if u = t then { A.th t with due := none } else A.th u }, .threw imm flag) := by
        unfold CSpec.checkPoint
        rw [hd]
        dsimp only
        rw [hb, if_pos hc]
      rw [h1, if_pos hc]
      refine ⟨rfl, ?_⟩
      unfold CSpec.checkPoint
      simp
    · have h1 : A.checkPoint t = (A, .nothing) := by
        unfold CSpec.checkPoint
        rw [hd]
        dsimp only
        rw [hb, if_neg hc]
      rw [h1, if_neg hc]
      exact ⟨rfl, by rw [h1]⟩
  rw [key.1, key.2]

/-- C43 (held, then delivered): a delayed request arriving while the thread blocks them is delivered by the unblocking. -/
theorem C43_unblocked (hist mid : List COp) (t id : Nat) (flag : Nat) (imm : Bool)
    (hl : CSpec.init.LegalAll (hist ++ .cancel t imm flag :: mid ++ [.block id false]))
    (ha : ((CSpec.init.run hist).1.step (.cancel t imm flag)).1.ApartAll t mid)
    (ht : (CSpec.init.run (hist ++ .cancel t imm flag :: mid)).1.thread id = t) :
    ∃ s' outs, CState.init.run (hist ++ .cancel t imm flag :: mid ++ [.block id false]) = .ok (s', outs ++ [.threw imm flag]) := by
  obtain ⟨s', h⟩ := C43_refines _ hl
  generalize hA : (CSpec.init.run (hist ++ .cancel t imm flag :: mid)).1 = A at ht
  refine ⟨s', (CSpec.init.run (hist ++ .cancel t imm flag :: mid)).2, h.trans ?_⟩
  rw [spec_run_append _ [COp.block id false], hA]
  have hth : A.th t = { (CSpec.init.run hist).1.th t with asked := true, due := some (imm, flag) } := by
    rw [← hA, spec_run_append]
    show (CSpec.run ((CSpec.init.run hist).1.step (.cancel t imm flag)).1 mid).1.th t = _
    rw [apart_run t mid _ ha]
    exact if_pos (Or.inl rfl)
  have : (A.run [.block id false]).2 = [.threw imm flag] := by
    show [(CSpec.checkPoint { A with th := fun u => if u = A.thread id then { A.th u with blocked := false } else A.th u } (A.thread id)).2] = _
    unfold CSpec.checkPoint
    rw [ht]
    simp [hth]
  rw [this]

/-- C43 (isolation): as long as nobody asks for thread `t` (directly or for a thread associated to it), none of its check
points raises anything, whatever is asked to the others. -/
theorem C43_isolated (hist : List COp) (t : Nat) (o : COp) (id : Nat) (hl : CSpec.init.LegalAll (hist ++ [o]))
    (hc : ∀ u imm flag, COp.cancel u imm flag ∈ hist → u ≠ t) (hn : ∀ u, COp.associate u t ∉ hist)
    (ho : o = .check id ∨ ∃ m, o = .block id m) (ht : (CSpec.init.run hist).1.thread id = t) :
    ∃ s' outs, CState.init.run (hist ++ [o]) = .ok (s', outs ++ [.nothing]) := by
  obtain ⟨s', h⟩ := C43_refines _ hl
  have hinv : ∀ (os : List COp) (a : CSpec), (∀ u imm flag, COp.cancel u imm flag ∈ os → u ≠ t) → (∀ u, COp.associate u t ∉ os) →
      (a.th t).due = none ∧ (∀ u, (u, t) ∉ a.asso) → ((a.run os).1.th t).due = none := by
    intro os
    induction os with
    | nil => exact fun a _ _ h => h.1
    | cons x os ih =>
      intro a h1 h2 h3
      refine ih _ (fun u i f hm => h1 u i f (List.mem_cons_of_mem _ hm)) (fun u hm => h2 u (List.mem_cons_of_mem _ hm)) ?_
      have hcp : ∀ (b : CSpec) (v : Nat), (b.th t).due = none → ((b.checkPoint v).1.th t).due = none := by
        intro b v hb
        unfold CSpec.checkPoint
        cases hv : (b.th v).due with
        | none => exact hb
        | some p =>
          dsimp only
          split
          · dsimp only
            by_cases e : t = v
            · rw [if_pos e]
            · rw [if_neg e]; exact hb
          · exact hb
      have hcq : ∀ (b : CSpec) (v : Nat), (b.checkPoint v).1.asso = b.asso := by
        intro b v
        unfold CSpec.checkPoint
        cases (b.th v).due with
        | none => rfl
        | some p => dsimp only; split <;> rfl
      cases x with
      | create i u => exact h3
      | destroy i =>
        refine ⟨?_, h3.2⟩
        show (ite _ _ _ : ThSpec).due = none
        split
        · rfl
        · exact h3.1
      | cancel u imm flag =>
        refine ⟨?_, h3.2⟩
        show (ite _ _ _ : ThSpec).due = none
        rw [if_neg (by rintro (e | e); exacts [h1 u imm flag List.mem_cons_self e.symm, h3.2 u e])]
        exact h3.1
      | status u => exact h3
      | clear u =>
        refine ⟨?_, h3.2⟩
        show (ite _ _ _ : ThSpec).due = none
        split
        · rfl
        · exact h3.1
      | associate p q =>
        refine ⟨h3.1, fun u hm => ?_⟩
        rcases List.mem_append.1 hm with hm | hm
        · exact h3.2 u hm
        · simp at hm; exact h2 p (by rw [hm.2]; exact List.mem_cons_self)
      | removeFor p => exact ⟨h3.1, fun u hm => h3.2 u (List.mem_filter.1 hm).1⟩
      | removeTo p => exact ⟨h3.1, fun u hm => h3.2 u (List.mem_filter.1 hm).1⟩
      | dead u =>
        refine ⟨?_, fun v hm => h3.2 v (List.mem_filter.1 hm).1⟩
        show (ite _ _ _ : ThSpec).due = none
        split
        · rfl
        · exact h3.1
      | check i => exact ⟨hcp a _ h3.1, fun u hm => h3.2 u (by rw [show (a.step (.check i)).1.asso = a.asso from hcq _ _] at hm; exact hm)⟩
      | block i m =>
        have hb : ((if t = a.thread i then { a.th t with blocked := m } else a.th t) : ThSpec).due = none := by
          split
          · exact h3.1
          · exact h3.1
        cases m with
        | true => exact ⟨hb, h3.2⟩
        | false => exact ⟨hcp _ _ hb, fun u hm => h3.2 u (by rw [show (a.step (.block i false)).1.asso = a.asso from hcq _ _] at hm; exact hm)⟩
  have hd := hinv hist CSpec.init hc hn ⟨rfl, by intro u hm; cases hm⟩
  refine ⟨s', (CSpec.init.run hist).2, h.trans ?_⟩
  rw [spec_run_append]
  generalize (CSpec.init.run hist).1 = A at ht hd
  generalize (CSpec.init.run hist).2 = outs
  have : (A.run [o]).2 = [.nothing] := by
    show [(A.step o).2] = _
    rcases ho with rfl | ⟨m, rfl⟩
    · show [(A.checkPoint (A.thread id)).2] = _
      rw [ht]; unfold CSpec.checkPoint; rw [hd]
    · cases m with
      | true => rfl
      | false =>
        show [(CSpec.checkPoint _ (A.thread id)).2] = _
        rw [ht]; unfold CSpec.checkPoint; simp [hd]
  rw [this]

/-- the hypotheses are met: thread 7 blocks, gets a delayed request 42 while thread 8 works; held at its check point,
delivered by the unblocking -/
theorem C43_example : ∃ s', CState.init.run [.create 1 7, .create 2 8, .block 1 true, .create 3 7, .cancel 7 false 42, .check 2, .check 3, .status 7, .block 3 false, .check 1] =
    .ok (s', [.nothing, .nothing, .nothing, .nothing, .nothing, .nothing, .nothing, .bool true, .threw false 42, .nothing]) := ⟨_, rfl⟩

/-- without association the value returned by clear_pending_request says whether the thread had been asked to cancel -/
theorem C43_clear_result (os : List COp) (hl : CSpec.init.LegalAll os) (t : Nat) (h : ∀ u, (t, u) ∉ (CSpec.init.run os).1.asso) :
    ∃ s' outs, CState.init.run os = .ok (s', outs) ∧ (s'.clear t).2 = ((CSpec.init.run os).1.th t).asked := by
  obtain ⟨s', hr, hrel⟩ := crun_rel os _ _ init_rel hl
  refine ⟨s', _, hr, ?_⟩
  have ht : s'.targets t = [] := by
    unfold CState.targets
    rw [← hrel.asso]
    rw [List.filter_eq_nil_iff.2 (by intro p hp; simp only [decide_eq_true_eq]; intro e; exact h p.2 (by rw [← e]; exact hp))]
    rfl
  unfold CState.clear
  rw [ht, List.foldl_nil, hrel.th]
  unfold CState.clearOne CState.setFor
  dsimp only
  rcases obj_or s' t with ho | ho
  · rw [if_pos (by obtain ⟨x, hx, e⟩ := ho; exact List.any_eq_true.2 ⟨x, hx, by simpa using e⟩)]
    dsimp only
    obtain ⟨x, hx, e⟩ := ho
    rw [← e, look_mem s' hrel.inv x hx]
    cases hg : (s'.info.filter (fun y => y.2.tid = x.2.tid)).getLast? with
    | none =>
      rw [List.getLast?_eq_none_iff] at hg
      have hm : x ∈ s'.info.filter (fun y => y.2.tid = x.2.tid) := List.mem_filter.2 ⟨hx, by simp⟩
      rw [hg] at hm; cases hm
    | some y =>
      have hy := List.mem_filter.1 (List.mem_of_getLast? hg)
      have hy2 : y.2.tid = x.2.tid := by simpa using hy.2
      show y.2.cancellation = x.2.cancellation
      rw [hrel.inv.uniq y hy.1 x hx hy2]
  · rw [if_neg (by intro hc; obtain ⟨x, hx, e⟩ := List.any_eq_true.1 hc; exact ho x hx (by simpa using e))]
    rw [look_noobj _ _ ho]
    unfold removePreborn
    dsimp only
    show (match (s'.preborn.filter (fun x => x.tid = t)).getLast? with | none => false | some x => x.cancellation) = _
    cases hg : (s'.preborn.filter (fun x => x.tid = t)).getLast? with
    | none =>
      rw [List.getLast?_eq_none_iff, List.filter_eq_nil_iff] at hg
      rw [List.find?_eq_none.2 hg]; rfl
    | some y =>
      have hy := List.mem_filter.1 (List.mem_of_getLast? hg)
      cases hf : s'.preborn.find? (fun x => x.tid = t) with
      | none => have := List.find?_eq_none.1 hf y hy.1; exact absurd hy.2 this
      | some z =>
        exact (hrel.inv.pre y hy.1).2.1.trans (hrel.inv.pre z (List.mem_of_find?_eq_some hf)).2.1.symm

/-- Counterexample: with an association, the value returned by clear_pending_request is the one of the last associated
thread: the request of thread 1 was pending, false is returned. -/
theorem C43_clear_association_counterexample :
    ∃ s outs, CState.init.run [.create 1 1, .create 2 2, .cancel 1 true 5, .associate 1 2] = .ok (s, outs) ∧ s.status 1 = true ∧ (s.clear 1).2 = false := ⟨_, _, rfl, rfl, rfl⟩

/-- Counterexample: the associations are documented as transitive (thread_cancellation.hpp:137-139), they are not: 1 is associated to
2 and 2 to 3, a request for 1 does not reach 3. -/
theorem C43_transitive_counterexample :
    ∃ s, CState.init.run [.create 1 1, .create 2 2, .create 3 3, .associate 1 2, .associate 2 3, .cancel 1 true 5, .check 2, .check 3] =
      .ok (s, [.nothing, .nothing, .nothing, .nothing, .nothing, .nothing, .threw true 5, .nothing]) := ⟨_, rfl⟩

/-- Counterexample: a pending request is forgotten when the last object of the thread disappears before a check point, as
well as the blocking of the delayed requests. -/
theorem C43_forgotten_counterexample :
    ∃ s, CState.init.run [.create 1 7, .cancel 7 true 5, .destroy 1, .create 2 7, .check 2, .status 7] =
      .ok (s, [.nothing, .nothing, .nothing, .nothing, .nothing, .bool false]) := ⟨_, rfl⟩

/-! ## The unlocked test of check_self_cancellation -/

/-- C43 (the check point in two steps): when the calls of other threads made between the test (without mutex) and the end
of a check point leave the status of the object and of its thread as they were, the outcome is the one of a check point
made at once. -/
theorem C43_check_split (s s' : CState) (id : Nat) (b : Bool) (hp : s.peek id = .ok b) (ho : s'.own id = s.own id) :
    (if b then s'.commit id else .ok (s', none)) = s'.check id := by
  have hp' : s'.peek id = .ok b := by unfold CState.peek at hp ⊢; rw [ho]; exact hp
  unfold CState.check
  rw [hp']
  cases b <;> rfl

/-- Counterexample: a request cleared between the unlocked test and the end of the check point is delivered all the same
(with a user value of 0). -/
theorem C43_race_counterexample :
    ∃ s outs, CState.init.run [.create 1 7, .cancel 7 true 5] = .ok (s, outs) ∧ s.peek 1 = .ok true ∧
      (((s.clear 7).1.commit 1).map (·.2)) = .ok (some (false, 0)) ∧ (((s.clear 7).1.check 1).map (·.2)) = .ok none := ⟨_, _, rfl, rfl, rfl, rfl⟩

end Dar
