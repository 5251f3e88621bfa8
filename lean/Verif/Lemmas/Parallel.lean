import Verif.Model.Parallel
import Mathlib.Tactic.Ring
/- Invariant of the parallel writing pipeline. -/
namespace Dar.Par

theorem sum_map_set {α : Type} (g : α → Nat) (l : List α) (k : Nat) (x y : α) (h : l[k]? = some y) :
    ((l.set k x).map g).sum + g y = (l.map g).sum + g x := by
  induction l generalizing k with
  | nil => simp at h
  | cons a l ih =>
    cases k with
    | zero => simp at h; subst h; simp; omega
    | succ k =>
      simp only [List.getElem?_cons_succ] at h
      have := ih k h
      simp only [List.set_cons_succ, List.map_cons, List.sum_cons]
      omega

theorem mem_set_iff' {α : Type} {l : List α} {k : Nat} {x w : α} (h : w ∈ l.set k x) : w ∈ l ∨ w = x := by
  rcases List.mem_or_eq_of_mem_set h with h | h
  · exact .inl h
  · exact .inr h

/-- 1 when m ≤ i < n -/
def ind (m n i : Nat) : Nat := if m ≤ i ∧ i < n then 1 else 0

theorem ind_in {m n i : Nat} (h1 : m ≤ i) (h2 : i < n) : ind m n i = 1 := if_pos ⟨h1, h2⟩
theorem ind_out {m n i : Nat} (h : ¬ (m ≤ i ∧ i < n)) : ind m n i = 0 := if_neg h

section
variable {β γ : Type}

/-- number of blocks numbered `i` that the worker holds -/
def wIdx (i : Nat) (w : Wk β γ) : Nat :=
  match w.st with
  | .hold j _ => if j = i then 1 else 0
  | .ready j _ => if j = i then 1 else 0
  | _ => 0

/-- segments held by a worker -/
def wBusy (w : Wk β γ) : Nat :=
  match w.st with
  | .hold _ _ => 1
  | .ready _ _ => 1
  | _ => 0

def Item.dieN : Item β → Nat
  | .die => 1
  | .data _ => 0

/-- order to stop received by a worker -/
def wDie (w : Wk β γ) : Nat :=
  match w.st with
  | .hold _ .die => 1
  | .ready _ .die => 1
  | .ended => 1
  | _ => 0

/-- the processing of block number j fails -/
def Fail (c : Cfg β γ) (hist : List (Item β)) (j : Nat) : Prop :=
  ∃ b, hist[j]? = some (.data b) ∧ ∀ x, c.f j b ≠ .ok x

def OutOk (c : Cfg β γ) (hist : List (Item β)) (E : Prop) (i : Nat) : Out γ → Prop
  | .good x => ∃ b, hist[i]? = some (.data b) ∧ c.f i b = .ok x
  | .junk => (∃ b, hist[i]? = some (.data b)) ∧ ∃ j, j < i ∧ Fail c hist j
  | .workerError => (∃ b, hist[i]? = some (.data b)) ∧ (∃ j, j ≤ i ∧ Fail c hist j) ∧ (c.kind = .zip → Fail c hist i) ∧ E
  | .dataError => c.kind = .crypto ∧ ∃ b, hist[i]? = some (.data b) ∧ c.f i b = .range
  | .die => hist[i]? = some .die

def WkOk (c : Cfg β γ) (hist : List (Item β)) (E : Prop) (taken : Nat) (w : Wk β γ) : Prop :=
  (w.err ≠ .fine → w.exc = true ∧ ∃ j, j < taken ∧ Fail c hist j) ∧
  (w.exc = true → ∃ j, Fail c hist j) ∧ (w.err = .inform → c.kind = .crypto) ∧
  match w.st with
  | .hold i it => hist[i]? = some it ∧ (w.err ≠ .fine → ∃ j, j < i ∧ Fail c hist j) ∧ i < taken
  | .ready i o => OutOk c hist E i o ∧ i < taken
  | _ => True

def ExcSome (ws : List (Wk β γ)) : Prop := ∃ w ∈ ws, w.exc = true

theorem Fail.mono {c : Cfg β γ} {h h' : List (Item β)} {j : Nat} (hh : ∀ (i : Nat) (x : Item β), h[i]? = some x → h'[i]? = some x)
    (H : Fail c h j) : Fail c h' j := by
  obtain ⟨b, h1, h2⟩ := H
  exact ⟨b, hh _ _ h1, h2⟩

theorem OutOk.mono {c : Cfg β γ} {h h' : List (Item β)} {E E' : Prop} {i : Nat} {o : Out γ}
    (hh : ∀ (i : Nat) (x : Item β), h[i]? = some x → h'[i]? = some x) (hE : E → E') (H : OutOk c h E i o) : OutOk c h' E' i o := by
  cases o with
  | good x => obtain ⟨b, h1, h2⟩ := H; exact ⟨b, hh _ _ h1, h2⟩
  | junk => obtain ⟨⟨b, h1⟩, j, h2, h3⟩ := H; exact ⟨⟨b, hh _ _ h1⟩, j, h2, h3.mono hh⟩
  | workerError => obtain ⟨⟨b, h1⟩, ⟨j, h2, h3⟩, h5, h4⟩ := H; exact ⟨⟨b, hh _ _ h1⟩, ⟨j, h2, h3.mono hh⟩, fun e => (h5 e).mono hh, hE h4⟩
  | dataError => obtain ⟨h0, b, h1, h2⟩ := H; exact ⟨h0, b, hh _ _ h1, h2⟩
  | die => exact hh _ _ H

theorem WkOk.mono {c : Cfg β γ} {h h' : List (Item β)} {E E' : Prop} {t t' : Nat} {w : Wk β γ}
    (hh : ∀ (i : Nat) (x : Item β), h[i]? = some x → h'[i]? = some x) (hE : E → E') (ht : t ≤ t') (H : WkOk c h E t w) :
    WkOk c h' E' t' w := by
  obtain ⟨h1, h2, h2i, h3⟩ := H
  refine ⟨fun e => ?_, fun e => ?_, h2i, ?_⟩
  · obtain ⟨a, j, hj, hf⟩ := h1 e
    exact ⟨a, j, by omega, hf.mono hh⟩
  · obtain ⟨j, hf⟩ := h2 e
    exact ⟨j, hf.mono hh⟩
  · rcases w with ⟨st, err, exc⟩
    cases st with
    | idle => trivial
    | ended => trivial
    | hold i it =>
      obtain ⟨a, b, d⟩ := h3
      refine ⟨hh _ _ a, fun e => ?_, by omega⟩
      obtain ⟨j, hj, hf⟩ := b e
      exact ⟨j, hj, hf.mono hh⟩
    | ready i o => exact ⟨h3.1.mono hh hE, by have := h3.2; omega⟩

/-! #### takeRun -/

theorem countP_eraseP_find {γ : Type} (t : List (Nat × Out γ)) (m i : Nat) (x : Nat × Out γ)
    (h : t.find? (fun x => x.1 = m) = some x) :
    (t.eraseP fun x => x.1 = m).countP (fun x => x.1 = i) + (if m = i then 1 else 0) = t.countP (fun x => x.1 = i) := by
  induction t with
  | nil => simp at h
  | cons a t ih =>
    by_cases ha : a.1 = m
    · simp only [List.eraseP_cons, ha, decide_true, cond_true, List.countP_cons]
      simp
    · have h' : t.find? (fun x => x.1 = m) = some x := by
        rw [List.find?_cons_of_neg (by simpa using ha)] at h; exact h
      have := ih h'
      simp only [List.eraseP_cons, ha, decide_false, cond_false, List.countP_cons]
      omega

theorem length_eraseP_find {γ : Type} (t : List (Nat × Out γ)) (m : Nat) (x : Nat × Out γ)
    (h : t.find? (fun x => x.1 = m) = some x) : (t.eraseP fun x => x.1 = m).length + 1 = t.length := by
  have hm := List.mem_of_find?_eq_some h
  have hp := List.find?_some h
  have hl := List.length_eraseP_of_mem (p := fun x : Nat × Out γ => decide (x.1 = m)) hm (by simpa using hp)
  have := List.length_pos_of_mem hm
  omega

theorem takeRun_spec {γ : Type} (fuel : Nat) : ∀ (m : Nat) (t : List (Nat × Out γ)),
    (takeRun fuel m t).2.1 = m + (takeRun fuel m t).1.length ∧
    (takeRun fuel m t).1.length + (takeRun fuel m t).2.2.length = t.length ∧
    (∀ i, (takeRun fuel m t).2.2.countP (fun x => x.1 = i) +
        ind m (m + (takeRun fuel m t).1.length) i = t.countP (fun x => x.1 = i)) ∧
    (∀ (j : Nat) (o : Out γ), (takeRun fuel m t).1[j]? = some o → (m + j, o) ∈ t) ∧
    (∀ x, x ∈ (takeRun fuel m t).2.2 → x ∈ t) := by
  induction fuel with
  | zero =>
    intro m t
    simp only [takeRun, List.length_nil, Nat.add_zero, Nat.zero_add, true_and]
    refine ⟨fun i => ?_, by simp, fun x h => h⟩
    rw [ind_out (by omega)]; omega
  | succ fuel ih =>
    intro m t
    unfold takeRun
    split
    · simp only [List.length_nil, Nat.add_zero, Nat.zero_add, true_and]
      refine ⟨fun i => ?_, by simp, fun x h => h⟩
      rw [ind_out (by omega)]; omega
    · rename_i x hx
      obtain ⟨h1, h2, h3, h4, h5⟩ := ih (m + 1) (t.eraseP fun x => x.1 = m)
      have hl := length_eraseP_find t m x hx
      dsimp only
      refine ⟨by rw [h1]; simp; omega, by simp only [List.length_cons]; omega, fun i => ?_, fun j o hj => ?_, fun y hy => ?_⟩
      · have a := h3 i
        have b := countP_eraseP_find t m i x hx
        simp only [List.length_cons]
        generalize hr : (takeRun fuel (m + 1) (List.eraseP (fun x => decide (x.1 = m)) t)).1.length = r at *
        rw [← b, ← a]
        unfold ind
        split <;> split <;> split <;> omega
      · cases j with
        | zero =>
          simp only [List.getElem?_cons_zero, Option.some.injEq] at hj
          subst hj
          have hm := List.mem_of_find?_eq_some hx
          have hp := List.find?_some hx
          simp only [decide_eq_true_eq] at hp
          rw [Nat.add_zero, ← hp]; exact hm
        | succ j =>
          simp only [List.getElem?_cons_succ] at hj
          have := List.mem_of_mem_eraseP (h4 j o hj)
          rwa [show m + (j + 1) = m + 1 + j by omega]
      · exact List.mem_of_mem_eraseP (h5 y hy)

theorem takeRun_pos {γ : Type} (m : Nat) (t : List (Nat × Out γ)) (x : Nat × Out γ) (h : t.find? (fun x => x.1 = m) = some x) :
    0 < (takeRun t.length m t).1.length := by
  have hm := List.mem_of_find?_eq_some h
  have := List.length_pos_of_mem hm
  obtain ⟨k, hk⟩ : ∃ k, t.length = k + 1 := ⟨t.length - 1, by omega⟩
  rw [hk]; unfold takeRun; rw [h]; simp

end
end Dar.Par
