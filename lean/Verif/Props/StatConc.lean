import Verif.Model.StatConc
import Mathlib.Tactic.Ring
import Mathlib.Data.List.Induction
/- C46: the counters updated by several threads. -/
namespace Dar

/-- what the calls of a list add to the counter v -/
def addedTo (v : Nat) (l : List StOp) : Nat :=
  (l.map fun | .add w n => if w = v then n else 0 | .sub _ _ => 0).sum
/-- the call is an addition -/
def StOp.isAdd : StOp → Bool
  | .add _ _ => true
  | .sub _ _ => false
/-- the sum of f over the threads 0 to n - 1 -/
def sumThreads (n : Nat) (f : Nat → Nat) : Nat := ((List.range n).map f).sum

theorem sumThreads_succ (n : Nat) (f : Nat → Nat) : sumThreads (n + 1) f = sumThreads n f + f n := by
  unfold sumThreads
  rw [List.range_succ, List.map_append, List.sum_append]
  simp
theorem sumThreads_congr (n : Nat) {f g : Nat → Nat} (h : ∀ i, i < n → f i = g i) : sumThreads n f = sumThreads n g := by
  induction n with
  | zero => rfl
  | succ n ih => rw [sumThreads_succ, sumThreads_succ, ih (fun i hi => h i (by omega)), h n (by omega)]
theorem sumThreads_one (n i : Nat) (hi : i < n) {f g : Nat → Nat} (h : ∀ j, j ≠ i → f j = g j) : sumThreads n f + g i = sumThreads n g + f i := by
  induction n with
  | zero => omega
  | succ n ih =>
    rw [sumThreads_succ, sumThreads_succ]
    by_cases hn : i = n
    · subst hn
      rw [sumThreads_congr i (fun j hj => h j (by omega))]
      omega
    · have := ih (by omega)
      have := h n (fun e => hn e.symm)
      omega

/-- what a thread has still to add to a counter -/
def StTh.todo (t : StTh) (v : Nat) : Nat := match t.ph with | .written => addedTo v t.ops.tail | _ => addedTo v t.ops

/-- the invariant -/
structure StInv (n : Nat) (tot : Nat → Nat) (s : StSys) : Prop where
  far : ∀ i, n ≤ i → s.th i = ⟨[], .out⟩
  adds : ∀ i, ∀ op ∈ (s.th i).ops, op.isAdd = true
  sum : ∀ v, s.val v + sumThreads n (fun i => (s.th i).todo v) = tot v
  held : ∀ i, (s.th i).ph ≠ .out → s.mutex = some i
  owner : ∀ i, s.mutex = some i → (s.th i).ph ≠ .out ∧ (s.th i).ops ≠ []
  seen : ∀ i x op l, s.th i = ⟨op :: l, .read x⟩ → x = s.val op.var

theorem addedTo_cons (v : Nat) (op : StOp) (l : List StOp) : addedTo v (op :: l) = addedTo v [op] + addedTo v l := by
  unfold addedTo
  simp

theorem inv_step {n : Nat} {tot : Nat → Nat} {s s' : StSys} (hi : StInv n tot s) (h : StStep true s s') : StInv n tot s' := by
  have only : ∀ i j, (s.th i).ph ≠ .out → (s.th j).ph ≠ .out → j = i := by
    intro i j h1 h2
    have := hi.held i h1
    rw [hi.held j h2] at this
    exact Option.some.inj this
  have small : ∀ i op l ph, s.th i = ⟨op :: l, ph⟩ → i < n := by
    intro i op l ph h1
    by_contra hc
    rw [hi.far i (by omega)] at h1
    cases h1
  have keep : ∀ (i : Nat) (t : StTh), i < n → ∀ v, sumThreads n (fun j => ((s.setTh i t).th j).todo v) + (s.th i).todo v = sumThreads n (fun j => (s.th j).todo v) + t.todo v := by
    intro i t hl v
    have := sumThreads_one n i hl (f := fun j => ((s.setTh i t).th j).todo v) (g := fun j => (s.th j).todo v) (fun j hj => by simp only [StSys.setTh, if_neg hj])
    simp only [StSys.setTh, if_true] at this ⊢
    exact this
  cases h with
  | enter i op l h1 h2 =>
    have hlt := small i op l _ h1
    have hm := h2 rfl
    have nobody : ∀ j, (s.th j).ph = .out := by
      intro j
      by_contra hc
      have := hi.held j hc
      rw [hm] at this; cases this
    refine ⟨fun j hj => ?_, fun j => ?_, fun v => ?_, fun j hj => ?_, fun j hj => ?_, fun j x op' l' hj => ?_⟩
    · show (if j = i then _ else s.th j) = _
      rw [if_neg (by omega)]; exact hi.far j hj
    · show ∀ op' ∈ (if j = i then (⟨op :: l, .entered⟩ : StTh) else s.th j).ops, _
      split
      · have := hi.adds i; rw [h1] at this; exact this
      · exact hi.adds j
    · have h3 := keep i ⟨op :: l, .entered⟩ hlt v
      have h4 := hi.sum v
      rw [h1] at h3
      simp only [StTh.todo] at h3 h4 ⊢
      show s.val v + _ = _
      simp only [StSys.setTh] at h3 ⊢
      omega
    · show some i = some j
      by_cases hji : j = i
      · rw [hji]
      · have : ((if j = i then (⟨op :: l, .entered⟩ : StTh) else s.th j)).ph ≠ .out := hj
        rw [if_neg hji] at this
        exact absurd (nobody j) this
    · have : some i = some j := hj
      cases this
      show ((if i = i then (⟨op :: l, .entered⟩ : StTh) else s.th i)).ph ≠ .out ∧ ((if i = i then (⟨op :: l, .entered⟩ : StTh) else s.th i)).ops ≠ []
      rw [if_pos rfl]
      exact ⟨(by intro h; cases h), (by intro h; cases h)⟩
    · have : (if j = i then (⟨op :: l, .entered⟩ : StTh) else s.th j) = ⟨op' :: l', .read x⟩ := hj
      split at this
      · cases this
      · have h5 := nobody j; rw [this] at h5; cases h5
  | load i op l h1 =>
    have hlt := small i op l _ h1
    have hown := hi.held i (by rw [h1]; intro h; cases h)
    refine ⟨fun j hj => ?_, fun j => ?_, fun v => ?_, fun j hj => ?_, fun j hj => ?_, fun j x op' l' hj => ?_⟩
    · show (if j = i then _ else s.th j) = _
      rw [if_neg (by omega)]; exact hi.far j hj
    · show ∀ op' ∈ (if j = i then (⟨op :: l, .read (s.val op.var)⟩ : StTh) else s.th j).ops, _
      split
      · have := hi.adds i; rw [h1] at this; exact this
      · exact hi.adds j
    · have h3 := keep i ⟨op :: l, .read (s.val op.var)⟩ hlt v
      have h4 := hi.sum v
      rw [h1] at h3
      simp only [StTh.todo] at h3 h4 ⊢
      show s.val v + _ = _
      simp only [StSys.setTh] at h3 ⊢
      omega
    · have : ((if j = i then (⟨op :: l, .read (s.val op.var)⟩ : StTh) else s.th j)).ph ≠ .out := hj
      show s.mutex = some j
      by_cases hji : j = i
      · rw [hji]; exact hown
      · rw [if_neg hji] at this; exact hi.held j this
    · have h5 : s.mutex = some j := hj
      rw [hown] at h5
      cases h5
      show ((if i = i then (⟨op :: l, .read (s.val op.var)⟩ : StTh) else s.th i)).ph ≠ .out ∧ ((if i = i then (⟨op :: l, .read (s.val op.var)⟩ : StTh) else s.th i)).ops ≠ []
      rw [if_pos rfl]
      exact ⟨(by intro h; cases h), (by intro h; cases h)⟩
    · have : (if j = i then (⟨op :: l, .read (s.val op.var)⟩ : StTh) else s.th j) = ⟨op' :: l', .read x⟩ := hj
      split at this
      · cases this; rfl
      · exact hi.seen j x op' l' this
  | store i op l x y h1 h2 =>
    have hlt := small i op l _ h1
    have hown := hi.held i (by rw [h1]; intro h; cases h)
    have hx := hi.seen i x op l h1
    refine ⟨fun j hj => ?_, fun j => ?_, fun v => ?_, fun j hj => ?_, fun j hj => ?_, fun j x' op' l' hj => ?_⟩
    · show (if j = i then _ else s.th j) = _
      rw [if_neg (by omega)]; exact hi.far j hj
    · show ∀ op' ∈ (if j = i then (⟨op :: l, .written⟩ : StTh) else s.th j).ops, _
      split
      · have := hi.adds i; rw [h1] at this; exact this
      · exact hi.adds j
    · have h3 := keep i ⟨op :: l, .written⟩ hlt v
      have h4 := hi.sum v
      rw [h1] at h3
      simp only [StTh.todo, List.tail_cons] at h3 h4 ⊢
      rw [addedTo_cons v op l] at h3
      show (if v = op.var then y else s.val v) + _ = _
      have ha : op.isAdd = true := by
        have := hi.adds i op; rw [h1] at this; exact this (List.mem_cons_self)
      have hval : (if v = op.var then y else s.val v) = s.val v + addedTo v [op] := by
        cases op with
        | sub v' n' => cases ha
        | add v' n' =>
          simp only [StOp.apply, Option.some.injEq] at h2
          simp only [StOp.var] at hx ⊢
          unfold addedTo
          by_cases hv : v = v'
          · subst hv
            simp
            omega
          · have hv' : ¬ v' = v := fun h => hv h.symm
            simp [hv, hv']
      rw [hval]
      simp only [StSys.setVal, StSys.setTh] at h3 ⊢
      omega
    · have : ((if j = i then (⟨op :: l, .written⟩ : StTh) else s.th j)).ph ≠ .out := hj
      show s.mutex = some j
      by_cases hji : j = i
      · rw [hji]; exact hown
      · rw [if_neg hji] at this; exact hi.held j this
    · have h5 : s.mutex = some j := hj
      rw [hown] at h5
      cases h5
      show ((if i = i then (⟨op :: l, .written⟩ : StTh) else s.th i)).ph ≠ .out ∧ ((if i = i then (⟨op :: l, .written⟩ : StTh) else s.th i)).ops ≠ []
      rw [if_pos rfl]
      exact ⟨(by intro h; cases h), (by intro h; cases h)⟩
    · have : (if j = i then (⟨op :: l, .written⟩ : StTh) else s.th j) = ⟨op' :: l', .read x'⟩ := hj
      split at this
      · cases this
      · next hji =>
        have := only i j (by rw [h1]; intro h; cases h) (by rw [this]; intro h; cases h)
        exact absurd this hji
  | throws i op l x h1 h2 =>
    exfalso
    have ha : op.isAdd = true := by
      have := hi.adds i op; rw [h1] at this; exact this (List.mem_cons_self)
    cases op with
    | sub v' n' => cases ha
    | add v' n' => cases h2
  | leave i op l h1 =>
    have hlt := small i op l _ h1
    have hown := hi.held i (by rw [h1]; intro h; cases h)
    refine ⟨fun j hj => ?_, fun j => ?_, fun v => ?_, fun j hj => ?_, fun j hj => ?_, fun j x op' l' hj => ?_⟩
    · show (if j = i then _ else s.th j) = _
      rw [if_neg (by omega)]; exact hi.far j hj
    · show ∀ op' ∈ (if j = i then (⟨l, .out⟩ : StTh) else s.th j).ops, _
      split
      · have := hi.adds i; rw [h1] at this; exact fun o ho => this o (List.mem_cons_of_mem _ ho)
      · exact hi.adds j
    · have h3 := keep i ⟨l, .out⟩ hlt v
      have h4 := hi.sum v
      rw [h1] at h3
      simp only [StTh.todo, List.tail_cons] at h3 h4 ⊢
      show s.val v + _ = _
      simp only [StSys.setTh] at h3 ⊢
      omega
    · exfalso
      have : ((if j = i then (⟨l, .out⟩ : StTh) else s.th j)).ph ≠ .out := hj
      by_cases hji : j = i
      · rw [if_pos hji] at this; exact this rfl
      · rw [if_neg hji] at this
        exact hji (only i j (by rw [h1]; intro h; cases h) this)
    · have : (none : Option Nat) = some j := hj
      cases this
    · have : (if j = i then (⟨l, .out⟩ : StTh) else s.th j) = ⟨op' :: l', .read x⟩ := hj
      split at this
      · cases this
      · next hji =>
        have := only i j (by rw [h1]; intro h; cases h) (by rw [this]; intro h; cases h)
        exact absurd this hji

theorem inv_run {n : Nat} {tot : Nat → Nat} {s s' : StSys} (hi : StInv n tot s) (h : StRun true s s') : StInv n tot s' := by
  induction h with
  | refl => exact hi
  | step _ h2 ih => exact inv_step ih h2

theorem inv_start (val : Nat → Nat) (prog : Nat → List StOp) (n : Nat) (hn : ∀ i, n ≤ i → prog i = []) (hp : ∀ i, ∀ op ∈ prog i, op.isAdd = true) :
    StInv n (fun v => val v + sumThreads n (fun i => addedTo v (prog i))) (StSys.start val prog) := by
  refine ⟨fun i hi => ?_, hp, fun v => rfl, fun i hi => absurd rfl hi, fun i hi => ?_, fun i x op l h => ?_⟩
  · simp only [StSys.start, hn i hi]
  · cases hi
  · simp only [StSys.start, StTh.mk.injEq] at h; cases h.2

/-- C46: n threads make any calls adding to the counters of one object built with locking, in any interleaving of their steps: when all have finished, each counter is its initial
value plus everything that was added. -/
theorem C46_concurrent_exact (val : Nat → Nat) (prog : Nat → List StOp) (n : Nat) (hn : ∀ i, n ≤ i → prog i = []) (hp : ∀ i, ∀ op ∈ prog i, op.isAdd = true)
    (s : StSys) (h : StRun true (StSys.start val prog) s) (hend : ∀ i, (s.th i).ops = []) (v : Nat) :
    s.val v = val v + sumThreads n (fun i => addedTo v (prog i)) := by
  have hi := inv_run (inv_start val prog n hn hp) h
  have := hi.sum v
  rw [sumThreads_congr n (g := fun _ => 0) (fun i _ => ?_)] at this
  · have z : sumThreads n (fun _ => 0) = 0 := by
      clear this hn hi
      induction n with
      | zero => rfl
      | succ n ih => rw [sumThreads_succ, ih]
    omega
  · simp only [StTh.todo, hend i]
    cases (s.th i).ph <;> rfl

/-- C46: meanwhile no counter is ever above that value nor below its initial value, and the threads are never all blocked: as long as one has something to do, one of them can make a step. -/
theorem C46_concurrent_progress (val : Nat → Nat) (prog : Nat → List StOp) (n : Nat) (hn : ∀ i, n ≤ i → prog i = []) (hp : ∀ i, ∀ op ∈ prog i, op.isAdd = true)
    (s : StSys) (h : StRun true (StSys.start val prog) s) :
    (∀ v, s.val v ≤ val v + sumThreads n (fun i => addedTo v (prog i))) ∧ ((∃ i, (s.th i).ops ≠ []) → ∃ s', StStep true s s') := by
  have hi := inv_run (inv_start val prog n hn hp) h
  refine ⟨fun v => by have := hi.sum v; omega, fun ⟨i, ho⟩ => ?_⟩
  have go : ∀ j op l, s.th j = ⟨op :: l, (s.th j).ph⟩ → (s.th j).ph ≠ .out → ∃ s', StStep true s s' := by
    intro j op l h1 h2
    cases hph : (s.th j).ph with
    | out => exact absurd hph h2
    | entered => rw [hph] at h1; exact ⟨_, .load s j op l h1⟩
    | read x =>
      rw [hph] at h1
      cases hap : op.apply x with
      | none => exact ⟨_, .throws s j op l x h1 hap⟩
      | some y => exact ⟨_, .store s j op l x y h1 hap⟩
    | written => rw [hph] at h1; exact ⟨_, .leave s j op l h1⟩
  cases hm : s.mutex with
  | some j =>
    obtain ⟨h1, h2⟩ := hi.owner j hm
    cases hops : (s.th j).ops with
    | nil => exact absurd hops h2
    | cons op l => exact go j op l (by rw [← hops]) h1
  | none =>
    cases hops : (s.th i).ops with
    | nil => exact absurd hops ho
    | cons op l =>
      by_cases hph : (s.th i).ph = .out
      · exact ⟨_, .enter s i op l (by rw [← hops, ← hph]) (fun _ => hm)⟩
      · exact go i op l (by rw [← hops]) hph

/-- the additions are visible: two threads, one counter, and a complete run exists -/
theorem C46_concurrent_example : ∃ s, StRun true (StSys.start (fun _ => 0) (fun i => if i < 2 then [.add 0 1] else [])) s ∧ (∀ i, (s.th i).ops = []) ∧ s.val 0 = 2 := by
  refine ⟨_, .step (.step (.step (.step (.step (.step (.step (.step (.refl _) (.enter _ 0 (.add 0 1) [] rfl (fun _ => rfl))) (.load _ 0 (.add 0 1) [] rfl)) (.store _ 0 (.add 0 1) [] 0 1 rfl rfl))
    (.leave _ 0 (.add 0 1) [] rfl)) (.enter _ 1 (.add 0 1) [] rfl (fun _ => rfl))) (.load _ 1 (.add 0 1) [] rfl)) (.store _ 1 (.add 0 1) [] 1 2 rfl rfl)) (.leave _ 1 (.add 0 1) [] rfl), fun i => ?_, rfl⟩
  match i with
  | 0 => rfl
  | 1 => rfl
  | i + 2 => rfl

/-- C46, counterexample: with the functions of an object built without locking (also those of an object built by the move constructor, which are never replaced by the locked ones
although the object says that it locks, statistics.hpp:74 and statistics.cpp:129-148), an addition can be lost. -/
theorem C46_unlocked_counterexample : ∃ s, StRun false (StSys.start (fun _ => 0) (fun i => if i < 2 then [.add 0 1] else [])) s ∧ (∀ i, (s.th i).ops = []) ∧ s.val 0 = 1 := by
  refine ⟨_, .step (.step (.step (.step (.step (.step (.step (.step (.refl _) (.enter _ 0 (.add 0 1) [] rfl (by intro h; cases h))) (.load _ 0 (.add 0 1) [] rfl)) (.enter _ 1 (.add 0 1) [] rfl (by intro h; cases h)))
    (.load _ 1 (.add 0 1) [] rfl)) (.store _ 0 (.add 0 1) [] 0 1 rfl rfl)) (.store _ 1 (.add 0 1) [] 0 1 rfl rfl)) (.leave _ 0 (.add 0 1) [] rfl)) (.leave _ 1 (.add 0 1) [] rfl), fun i => ?_, rfl⟩
  match i with
  | 0 => rfl
  | 1 => rfl
  | i + 2 => rfl

/-- C46, counterexample: a subtraction from a counter that is too small throws without releasing the mutex (statistics.hpp:344-378): from then on every other call blocks. -/
theorem C46_sub_deadlock_counterexample : ∃ s, StRun true (StSys.start (fun _ => 0) (fun i => if i = 0 then [.sub 0 1, .add 0 1] else [])) s ∧ (s.th 0).ops = [.add 0 1] ∧ ¬ ∃ s', StStep true s s' := by
  refine ⟨_, .step (.step (.step (.refl _) (.enter _ 0 (.sub 0 1) [.add 0 1] rfl (fun _ => rfl))) (.load _ 0 (.sub 0 1) [.add 0 1] rfl)) (.throws _ 0 (.sub 0 1) [.add 0 1] 0 rfl rfl), rfl, ?_⟩
  rintro ⟨s', h⟩
  generalize hs : (StSys.setTh _ _ _) = s at h
  have hm : s.mutex = some 0 := by subst hs; rfl
  have hph : ∀ i, (s.th i).ph = .out := by
    subst hs
    intro i
    match i with
    | 0 => rfl
    | i + 1 => rfl
  cases h with
  | enter i op l h1 h2 => rw [hm] at h2; cases h2 rfl
  | load i op l h1 => have := hph i; rw [h1] at this; cases this
  | store i op l x y h1 h2 => have := hph i; rw [h1] at this; cases this
  | throws i op l x h1 h2 => have := hph i; rw [h1] at this; cases this
  | leave i op l h1 => have := hph i; rw [h1] at this; cases this

end Dar
