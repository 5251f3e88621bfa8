import Verif.Model.ExclRegex
import Mathlib.Tactic.Tauto
import Mathlib.Data.List.Induction
/- C87: the regular expression of an option -P. -/
namespace Dar.Er
open Dar

/-! ### a text is read in one way -/

/-- what may follow, at each level of the grammar -/
def stop : Nat → Bytes → Prop
  | 0, _ => True
  | 1, s => ∀ q : Quant, ∀ l, s ≠ q.char :: l
  | 2, s => s = [] ∨ ∃ l, s = 124 :: l ∨ s = 41 :: l
  | _, s => s = [] ∨ ∃ l, s = 41 :: l
theorem stop_21 {s : Bytes} (h : stop 2 s) : stop 1 s := by
  intro q l e
  rcases h with h | ⟨l', h | h⟩ <;> rw [e] at h <;> cases q <;> simp [Quant.char] at h
theorem stop_32 {s : Bytes} (h : stop 3 s) : stop 2 s := by
  rcases h with h | ⟨l, h⟩
  · exact .inl h
  · exact .inr ⟨l, .inr h⟩

def size : Rx → Nat
  | .grp r => size r + 1
  | .rep _ r => size r + 1
  | .cat r s => size r + size s + 1
  | .alt r s => size r + size s + 1
  | _ => 1

theorem wf_mono {r : Rx} {j k : Nat} (hjk : j ≤ k) (h : wf r j = true) : wf r k = true := by
  cases r <;> simp_all [wf] <;> omega

/-- at levels 1, 2, 3: the expression is of the level below, or one of the level -/
theorem wf_three {r : Rx} (h : wf r 3 = true) : wf r 2 = true ∨ ∃ a b, r = .alt a b ∧ wf a 2 = true ∧ wf b 3 = true := by
  cases r <;> simp_all [wf] <;> exact ⟨_, _, ⟨rfl, rfl⟩, by tauto⟩
theorem wf_two {r : Rx} (h : wf r 2 = true) : wf r 1 = true ∨ ∃ a b, r = .cat a b ∧ wf a 1 = true ∧ wf b 2 = true := by
  cases r <;> simp_all [wf] <;> exact ⟨_, _, ⟨rfl, rfl⟩, by tauto⟩
theorem wf_one {r : Rx} (h : wf r 1 = true) : wf r 0 = true ∨ ∃ q a, r = .rep q a ∧ wf a 0 = true := by
  cases r <;> simp_all [wf] <;> exact ⟨_, _, ⟨rfl, rfl⟩, by tauto⟩

/-- an atom begins by none of | ) * + ? -/
theorem atom_head {r : Rx} (h : wf r 0 = true) : ∃ c l, print r = c :: l ∧ c ≠ 124 ∧ c ≠ 41 ∧ c ≠ 42 ∧ c ≠ 43 ∧ c ≠ 63 := by
  cases r with
  | chr c => refine ⟨c, [], rfl, ?_⟩; simp [wf, special] at h; tauto
  | esc c => exact ⟨92, [c], rfl, by decide⟩
  | any => exact ⟨46, [], rfl, by decide⟩
  | bol => exact ⟨94, [], rfl, by decide⟩
  | eol => exact ⟨36, [], rfl, by decide⟩
  | grp r => exact ⟨40, print r ++ [41], by simp [print], by decide⟩
  | rep q r => simp [wf] at h
  | cat r s => simp [wf] at h
  | alt r s => simp [wf] at h
theorem piece_head {r : Rx} (h : wf r 1 = true) : ∃ c l, print r = c :: l ∧ c ≠ 124 ∧ c ≠ 41 ∧ c ≠ 42 ∧ c ≠ 43 ∧ c ≠ 63 := by
  rcases wf_one h with h | ⟨q, a, rfl, ha⟩
  · exact atom_head h
  · obtain ⟨c, l, e, hc⟩ := atom_head ha
    exact ⟨c, l ++ [q.char], by simp [print, e], hc⟩
theorem branch_head {r : Rx} (h : wf r 2 = true) : ∃ c l, print r = c :: l ∧ c ≠ 124 ∧ c ≠ 41 ∧ c ≠ 42 ∧ c ≠ 43 ∧ c ≠ 63 := by
  rcases wf_two h with h | ⟨a, b, rfl, ha, hb⟩
  · exact piece_head h
  · obtain ⟨c, l, e, hc⟩ := piece_head ha
    exact ⟨c, l ++ print b, by simp [print, e], hc⟩
theorem stop_branch {r : Rx} (h : wf r 2 = true) (s : Bytes) : stop 1 (print r ++ s) := by
  obtain ⟨c, l, e, h1, h2, h3, h4, h5⟩ := branch_head h
  intro q l' he
  rw [e] at he
  cases q <;> simp [Quant.char] at he <;> tauto

/-- the texts at level `k` of expressions smaller than `n` can be told from what follows -/
def Uniq (k n : Nat) : Prop := ∀ x y s s', size x < n → wf x k = true → wf y k = true → stop k s → stop k s' → print x ++ s = print y ++ s' → x = y ∧ s = s'

theorem uniq0 {n : Nat} (ih : ∀ m, m < n → Uniq 3 m) : Uniq 0 n := by
  intro x y s s' hn hx hy _ _ h
  cases x with
  | chr c =>
    cases y <;> simp_all [wf, print, special]
  | esc c =>
    cases y <;> simp_all [wf, print]
    · obtain ⟨h, _⟩ := h; subst h; simp [special] at hy
  | any => cases y <;> simp_all [wf, print] <;> (obtain ⟨h, _⟩ := h; subst h; simp [special] at hy)
  | bol => cases y <;> simp_all [wf, print] <;> (obtain ⟨h, _⟩ := h; subst h; simp [special] at hy)
  | eol => cases y <;> simp_all [wf, print] <;> (obtain ⟨h, _⟩ := h; subst h; simp [special] at hy)
  | grp r =>
    cases y with
    | grp r' =>
      simp only [print, List.append_assoc, List.cons_append, List.nil_append, List.cons.injEq, true_and] at h
      simp only [wf] at hx hy
      simp only [size] at hn
      obtain ⟨e, e'⟩ := ih (n - 1) (by omega) r r' (41 :: s) (41 :: s') (by omega) hx hy (.inr ⟨_, rfl⟩) (.inr ⟨_, rfl⟩) h
      simp at e'
      exact ⟨by rw [e], e'⟩
    | chr c => simp_all [wf, print]; obtain ⟨h, _⟩ := h; subst h; simp [special] at hy
    | esc c => simp [print] at h
    | any => simp [print] at h
    | bol => simp [print] at h
    | eol => simp [print] at h
    | rep q r => simp [wf] at hy
    | cat r s => simp [wf] at hy
    | alt r s => simp [wf] at hy
  | rep q r => simp [wf] at hx
  | cat r s => simp [wf] at hx
  | alt r s => simp [wf] at hx
theorem uniq1 {n : Nat} (h0 : Uniq 0 n) : Uniq 1 n := by
  intro x y s s' hn hx hy hs hs' h
  rcases wf_one hx with hx | ⟨q, a, rfl, ha⟩ <;> rcases wf_one hy with hy | ⟨q', a', rfl, ha'⟩
  · exact h0 x y s s' hn hx hy trivial trivial h
  · simp only [print, List.append_assoc] at h
    obtain ⟨_, e⟩ := h0 x a' s ([q'.char] ++ s') hn hx ha' trivial trivial h
    exact absurd e (hs q' s')
  · simp only [print, List.append_assoc] at h
    simp only [size] at hn
    obtain ⟨_, e⟩ := h0 a y ([q.char] ++ s) s' (by omega) ha hy trivial trivial h
    exact absurd e.symm (hs' q s)
  · simp only [print, List.append_assoc] at h
    simp only [size] at hn
    obtain ⟨e, e'⟩ := h0 a a' _ _ (by omega) ha ha' trivial trivial h
    simp only [List.cons_append, List.nil_append, List.cons.injEq] at e'
    have hq : q = q' := by
      have := e'.1
      cases q <;> cases q' <;> simp_all [Quant.char]
    exact ⟨by rw [e, hq], e'.2⟩
theorem uniq2 {n : Nat} (h1 : Uniq 1 n) (ih : ∀ m, m < n → Uniq 2 m) : Uniq 2 n := by
  intro x y s s' hn hx hy hs hs' h
  have no : ∀ {b : Rx} {s s' : Bytes}, wf b 2 = true → stop 2 s → s ≠ print b ++ s' := by
    intro b s s' hb hs e
    obtain ⟨c, l, e', h1, h2, _⟩ := branch_head hb
    rw [e'] at e
    rcases hs with hs | ⟨_, hs | hs⟩ <;> rw [hs] at e <;> simp at e
    · exact h1 e.1.symm
    · exact h2 e.1.symm
  rcases wf_two hx with hx | ⟨a, b, rfl, ha, hb⟩ <;> rcases wf_two hy with hy | ⟨a', b', rfl, ha', hb'⟩
  · exact h1 x y s s' hn hx hy (stop_21 hs) (stop_21 hs') h
  · simp only [print, List.append_assoc] at h
    obtain ⟨_, e⟩ := h1 x a' s _ hn hx ha' (stop_21 hs) (stop_branch hb' s') h
    exact absurd e (no hb' hs)
  · simp only [print, List.append_assoc] at h
    simp only [size] at hn
    obtain ⟨_, e⟩ := h1 a y _ s' (by omega) ha hy (stop_branch hb s) (stop_21 hs') h
    exact absurd e.symm (no hb hs')
  · simp only [print, List.append_assoc] at h
    simp only [size] at hn
    obtain ⟨e, e'⟩ := h1 a a' _ _ (by omega) ha ha' (stop_branch hb s) (stop_branch hb' s') h
    obtain ⟨f, f'⟩ := ih (n - 1) (by omega) b b' s s' (by omega) hb hb' hs hs' e'
    exact ⟨by rw [e, f], f'⟩
theorem uniq3 {n : Nat} (h2 : Uniq 2 n) (ih : ∀ m, m < n → Uniq 3 m) : Uniq 3 n := by
  intro x y s s' hn hx hy hs hs' h
  have no : ∀ {s s' : Bytes}, stop 3 s → s ≠ 124 :: s' := by
    intro s s' hs e
    rcases hs with hs | ⟨_, hs⟩ <;> rw [hs] at e <;> simp at e
  have bar : ∀ l, stop 2 (124 :: l) := fun l => .inr ⟨l, .inl rfl⟩
  rcases wf_three hx with hx | ⟨a, b, rfl, ha, hb⟩ <;> rcases wf_three hy with hy | ⟨a', b', rfl, ha', hb'⟩
  · exact h2 x y s s' hn hx hy (stop_32 hs) (stop_32 hs') h
  · simp only [print, List.append_assoc, List.cons_append, List.nil_append] at h
    obtain ⟨_, e⟩ := h2 x a' s _ hn hx ha' (stop_32 hs) (bar _) h
    exact absurd e (no hs)
  · simp only [print, List.append_assoc, List.cons_append, List.nil_append] at h
    simp only [size] at hn
    obtain ⟨_, e⟩ := h2 a y _ s' (by omega) ha hy (bar _) (stop_32 hs') h
    exact absurd e.symm (no hs')
  · simp only [print, List.append_assoc, List.cons_append, List.nil_append] at h
    simp only [size] at hn
    obtain ⟨e, e'⟩ := h2 a a' _ _ (by omega) ha ha' (bar _) (bar _) h
    simp only [List.cons.injEq, true_and] at e'
    obtain ⟨f, f'⟩ := ih (n - 1) (by omega) b b' s s' (by omega) hb hb' hs hs' e'
    exact ⟨by rw [e, f], f'⟩
theorem uniq (n : Nat) : Uniq 2 n ∧ Uniq 3 n := by
  induction n using Nat.strongRecOn with
  | _ n ih =>
    have h2 : Uniq 2 n := uniq2 (uniq1 (uniq0 fun m hm => (ih m hm).2)) (fun m hm => (ih m hm).1)
    exact ⟨h2, uniq3 h2 (fun m hm => (ih m hm).2)⟩

/-- C87 A text is that of one expression at most: what the expression of the code matches is not a matter of choice. -/
theorem C87_unique {s : Bytes} {x y : Rx} (hx : Reads s x) (hy : Reads s y) : x = y :=
  ((uniq (size x + 1)).2 x y [] [] (by omega) hx.1 hy.1 (.inl rfl) (.inl rfl) (by rw [hx.2, hy.2])).1

/-! ### what the parts mean -/

def lit (c : UInt8) : Rx := if special c then .esc c else .chr c
def lits : Bytes → Rx → Rx
  | [], x => x
  | c :: l, x => .cat (lit c) (lits l x)
/-- a branch followed by another one -/
def app : Rx → Rx → Rx
  | .cat r s, e => .cat r (app s e)
  | x, e => .cat x e

theorem sem_lit (c : UInt8) (b m a : Bytes) : sem (lit c) b m a ↔ m = [c] := by
  unfold lit; split <;> rfl
theorem wf_lit (c : UInt8) (k : Nat) : wf (lit c) k = true := by
  unfold lit; split <;> simp_all [wf]
theorem sem_lits (P : Bytes) (x : Rx) (b m a : Bytes) : sem (lits P x) b m a ↔ ∃ v, m = P ++ v ∧ sem x (b ++ P) v a := by
  induction P generalizing b m with
  | nil => simp [lits]
  | cons c P ih =>
    simp only [lits, sem, sem_lit]
    constructor
    · rintro ⟨u, v, rfl, rfl, h⟩
      obtain ⟨w, rfl, hw⟩ := (ih _ _).1 h
      exact ⟨w, by simp, by simpa using hw⟩
    · rintro ⟨v, rfl, h⟩
      exact ⟨[c], P ++ v, by simp, rfl, (ih _ _).2 ⟨v, rfl, by simpa using h⟩⟩
theorem print_lits (P : Bytes) (x : Rx) : print (lits P x) = escape P ++ print x := by
  induction P with
  | nil => rfl
  | cons c P ih => simp only [lits, print, ih, escape, lit]; split <;> simp [print]
theorem wf_lits (P : Bytes) {x : Rx} (h : wf x 2 = true) : wf (lits P x) 2 = true := by
  induction P with
  | nil => exact h
  | cons c P ih => simp [lits, wf, wf_lit, ih]

theorem app_print (x e : Rx) : print (app x e) = print x ++ print e := by
  induction x, e using app.induct with
  | case1 r s e ih => simp [app, print, ih]
  | case2 x e h => cases x <;> simp_all [app, print]
theorem app_wf {x e : Rx} (hx : wf x 2 = true) (he : wf e 2 = true) : wf (app x e) 2 = true := by
  induction x, e using app.induct with
  | case1 r s e ih => simp_all [app, wf]
  | case2 x e h =>
    rcases wf_two hx with h1 | ⟨a, b, rfl, _⟩
    · cases x <;> simp_all [app, wf]
    · exact absurd rfl (h a b)
theorem app_sem (x e : Rx) (b m a : Bytes) : sem (app x e) b m a ↔ ∃ u v, m = u ++ v ∧ sem x b u (v ++ a) ∧ sem e (b ++ u) v a := by
  induction x, e using app.induct generalizing b m with
  | case1 r s e ih =>
    simp only [app, sem, ih]
    constructor
    · rintro ⟨u, v, rfl, h1, u', v', rfl, h2, h3⟩
      exact ⟨u ++ u', v', by simp, ⟨u, u', rfl, by simpa using h1, h2⟩, by simpa using h3⟩
    · rintro ⟨w, v', rfl, ⟨u, u', rfl, h1, h2⟩, h3⟩
      exact ⟨u, u' ++ v', by simp, by simpa using h1, u', v', rfl, h2, by simpa using h3⟩
  | case2 x e h => cases x <;> simp_all [app, sem]

theorem reps_context {S : Bytes → Bytes → Bytes → Prop} (hS : ∀ b m a b' a', S b m a → S b' m a') {b m a : Bytes} (h : Reps S b m a) (b' a' : Bytes) : Reps S b' m a' := by
  induction h generalizing b' a' with
  | none b a => exact .none _ _
  | more h1 _ ih => exact .more (hS _ _ _ _ _ h1) (ih _ _)
theorem plain_context {x : Rx} (h : plain x = true) (b m a b' a' : Bytes) (hs : sem x b m a) : sem x b' m a' := by
  induction x generalizing b m a b' a' with
  | chr c => exact hs
  | esc c => exact hs
  | any => exact hs
  | bol => simp [plain] at h
  | eol => simp [plain] at h
  | grp r ih => exact ih h _ _ _ _ _ hs
  | rep q r ih =>
    have ih' := ih h
    cases q with
    | star => exact reps_context ih' hs _ _
    | plus =>
      obtain ⟨u, v, e, h1, h2⟩ := hs
      exact ⟨u, v, e, ih' _ _ _ _ _ h1, reps_context ih' h2 _ _⟩
    | opt =>
      rcases hs with hs | hs
      · exact .inl hs
      · exact .inr (ih' _ _ _ _ _ hs)
  | cat r s ihr ihs =>
    simp only [plain, Bool.and_eq_true] at h
    obtain ⟨u, v, e, h1, h2⟩ := hs
    exact ⟨u, v, e, ihr h.1 _ _ _ _ _ h1, ihs h.2 _ _ _ _ _ h2⟩
  | alt r s ihr ihs =>
    simp only [plain, Bool.and_eq_true] at h
    rcases hs with hs | hs
    · exact .inl (ihr h.1 _ _ _ _ _ hs)
    · exact .inr (ihs h.2 _ _ _ _ _ hs)
theorem reps_any (b m a : Bytes) : Reps (sem .any) b m a := by
  induction m generalizing b with
  | nil => exact .none _ _
  | cons c m ih => exact Reps.more (u := [c]) ⟨c, rfl⟩ (ih _)

/-- `(/.+)?$` -/
def endRx : Rx := .cat (.rep .opt (.grp (.cat (.chr 47) (.rep .plus .any)))) .eol
/-- nothing more, or what is under a directory -/
def Under (rest : Bytes) : Prop := rest = [] ∨ ∃ w, w ≠ [] ∧ rest = 47 :: w
theorem end_sem (b m a : Bytes) : sem endRx b m a ↔ a = [] ∧ Under m := by
  simp only [endRx, sem]
  constructor
  · rintro ⟨u, v, rfl, h, rfl, rfl⟩
    refine ⟨rfl, ?_⟩
    rcases h with rfl | ⟨u', v', rfl, rfl, p, q, rfl, ⟨c, rfl⟩, _⟩
    · exact .inl rfl
    · exact .inr ⟨[c] ++ q, by simp, by simp⟩
  · rintro ⟨rfl, h⟩
    refine ⟨m, [], by simp, ?_, rfl, rfl⟩
    rcases h with rfl | ⟨w, hw, rfl⟩
    · exact .inl rfl
    · cases w with
      | nil => exact absurd rfl hw
      | cons c w => exact .inr ⟨[47], c :: w, rfl, rfl, [c], w, rfl, ⟨c, rfl⟩, reps_any _ _ _⟩

/-! ### the expression of the user and that of the code -/

/-- the root, followed by a `/` -/
def root (P : Bytes) : Bytes := if P.getLast? = some 47 then P else P ++ [47]
/-- `^x$` or `x$` -/
def user (anch : Bool) (x : Rx) : Rx := if anch then .cat .bol (app x .eol) else app x .eol
/-- what the code makes of it -/
def code (P : Bytes) (anch : Bool) (x : Rx) : Rx :=
  .cat .bol (lits (root P) (if anch then app x endRx else .cat (.rep .star .any) (app x endRx)))

theorem user_wf {x : Rx} (anch : Bool) (hx : wf x 2 = true) : wf (user anch x) 3 = true := by
  have h := app_wf (e := .eol) hx rfl
  cases anch
  · exact wf_mono (by omega) h
  · simp [user, wf, h]
theorem user_print (anch : Bool) (x : Rx) : print (user anch x) = (if anch then [94] else []) ++ print x ++ [36] := by
  cases anch <;> simp [user, print, app_print]
theorem code_wf {x : Rx} (P : Bytes) (anch : Bool) (hx : wf x 2 = true) : wf (code P anch x) 3 = true := by
  have h := app_wf (e := endRx) hx (by decide)
  have h' : wf (if anch then app x endRx else .cat (.rep .star .any) (app x endRx)) 2 = true := by
    cases anch
    · simp [wf, h, anchor]
    · exact h
  simp only [code, wf, wf_lits _ h']
  decide
theorem escape_last (P : Bytes) : (94 :: escape P).getLast? = some 47 ↔ P.getLast? = some 47 := by
  induction P using List.reverseRecOn with
  | nil => decide
  | append_singleton P c _ =>
    have e : ∀ (A B : Bytes), escape (A ++ B) = escape A ++ escape B := by
      intro A B
      induction A with
      | nil => rfl
      | cons c A ih => simp only [List.cons_append, escape, ih]; split <;> rfl
    rw [e, ← List.cons_append]
    simp only [escape]
    split <;> simp [List.getLast?_append, List.getLast?_cons]
theorem escape_root (P : Bytes) : (if ([94] ++ escape P).getLast? = some 47 then [94] ++ escape P else [94] ++ escape P ++ [47]) = [94] ++ escape (root P) := by
  have e : ∀ (A : Bytes), escape (A ++ [47]) = escape A ++ [47] := by
    intro A
    induction A with
    | nil => rfl
    | cons c A ih => simp only [List.cons_append, escape, ih]; split <;> rfl
  unfold root
  have h : ([94] ++ escape P).getLast? = some 47 ↔ P.getLast? = some 47 := escape_last P
  by_cases hp : P.getLast? = some 47
  · rw [if_pos (h.2 hp), if_pos hp]
  · have hn : ¬ ([94] ++ escape P).getLast? = some 47 := fun q => hp (h.1 q)
    rw [if_neg hn, if_neg hp, e]; simp
theorem upTo_append {s : Bytes} (h : 36 ∉ s) (l : Bytes) : upTo (s ++ 36 :: l) = s := by
  induction s with
  | nil => simp [upTo]
  | cons c s ih =>
    simp only [List.mem_cons, not_or] at h
    simp [upTo, ih h.2, Ne.symm h.1]
theorem upTo_self {s : Bytes} (h : 36 ∉ s) : upTo s = s := by
  induction s with
  | nil => rfl
  | cons c s ih =>
    simp only [List.mem_cons, not_or] at h
    simp [upTo, ih h.2, Ne.symm h.1]
theorem head_bol {x : Rx} (hp : plain x = true) : ∀ k, wf x k = true → ∀ l, print x ≠ 94 :: l := by
  induction x with
  | chr c => intro k h l e; simp [print] at e; obtain ⟨rfl, _⟩ := e; simp [wf, special] at h
  | esc c => intro k h l e; simp [print] at e
  | any => intro k h l e; simp [print] at e
  | bol => simp [plain] at hp
  | eol => simp [plain] at hp
  | grp r _ => intro k h l e; simp [print] at e
  | rep q r ih =>
    intro k h l e
    simp only [wf, Bool.and_eq_true] at h
    obtain ⟨c, l', e', _⟩ := atom_head h.1.2
    simp only [print, e', List.cons_append, List.cons.injEq] at e
    exact ih hp 0 h.1.2 l' (by rw [e', e.1])
  | cat r s ihr _ =>
    intro k h l e
    simp only [wf, Bool.and_eq_true] at h
    simp only [plain, Bool.and_eq_true] at hp
    obtain ⟨c, l', e', _⟩ := piece_head h.1.2
    simp only [print, e', List.cons_append, List.cons.injEq] at e
    exact ihr hp.1 1 h.1.2 l' (by rw [e', e.1])
  | alt r s ihr _ =>
    intro k h l e
    simp only [wf, Bool.and_eq_true] at h
    simp only [plain, Bool.and_eq_true] at hp
    obtain ⟨c, l', e', _⟩ := branch_head h.1.2
    simp only [print, e', List.cons_append, List.cons.injEq] at e
    exact ihr hp.1 2 h.1.2 l' (by rw [e', e.1])
theorem relative_eq {x : Rx} (anch : Bool) (hx : wf x 2 = true) (hp : plain x = true) (h36 : 36 ∉ print x) (tail : Bytes) (ht : tail = [] ∨ ∃ l, tail = 36 :: l) :
    relative ((if anch then [94] else []) ++ print x ++ tail) = (if anch then [] else [46, 42]) ++ print x := by
  have hu : upTo (print x ++ tail) = print x := by
    rcases ht with rfl | ⟨l, rfl⟩
    · rw [List.append_nil]; exact upTo_self h36
    · exact upTo_append h36 l
  cases anch
  · obtain ⟨c, l, e, _⟩ := branch_head hx
    have hc : c ≠ 94 := by
      rintro rfl
      exact head_bol hp 2 hx l e
    simp only [Bool.false_eq_true, if_false, List.nil_append]
    rw [e] at hu ⊢
    unfold relative
    split
    · next h => simp at h; exact absurd h.1 hc
    · rw [hu]
  · simp [relative, hu]
theorem build_eq {x : Rx} (P : Bytes) (anch : Bool) (hx : wf x 2 = true) (hp : plain x = true) (h36 : 36 ∉ print x) (tail : Bytes) (ht : tail = [] ∨ ∃ l, tail = 36 :: l) :
    build P ((if anch then [94] else []) ++ print x ++ tail) = print (code P anch x) := by
  have h1 : build P ((if anch then [94] else []) ++ print x ++ tail) = [94] ++ escape (root P) ++ relative ((if anch then [94] else []) ++ print x ++ tail) ++ ending := by
    rw [← escape_root]; rfl
  rw [h1, relative_eq anch hx hp h36 tail ht]
  have he : print endRx = ending := rfl
  cases anch <;> simp [code, print, print_lits, app_print, he, Quant.char]

theorem code_search {x : Rx} (P : Bytes) (anch : Bool) (hp : plain x = true) (t : Bytes) :
    search (code P anch x) t ↔ ∃ q rest, t = root P ++ q ++ rest ∧ Under rest ∧ search (user anch x) q := by
  cases anch
  · simp only [search, code, user, Bool.false_eq_true, if_false, sem, sem_lits, app_sem, end_sem]
    constructor
    · rintro ⟨b, m, a, rfl, u, v, rfl, ⟨rfl, rfl⟩, w, rfl, u1, v1, rfl, _, u2, v2, rfl, hs, rfl, hu⟩
      exact ⟨u1 ++ u2, v2, by simp, hu, u1, u2, [], by simp, u2, [], by simp, plain_context hp _ _ _ _ _ hs, rfl, rfl⟩
    · rintro ⟨q, rest, rfl, hu, b, m, a, rfl, u, v, rfl, hs, rfl, rfl⟩
      exact ⟨[], root P ++ (b ++ (u ++ rest)), [], by simp, [], root P ++ (b ++ (u ++ rest)), rfl, ⟨rfl, rfl⟩, b ++ (u ++ rest), rfl, b, u ++ rest, rfl, reps_any _ _ _, u, rest, rfl,
        plain_context hp _ _ _ _ _ hs, rfl, hu⟩
  · simp only [search, code, user, if_true, sem, sem_lits, app_sem, end_sem]
    constructor
    · rintro ⟨b, m, a, rfl, u, v, rfl, ⟨rfl, rfl⟩, w, rfl, u2, v2, rfl, hs, rfl, hu⟩
      exact ⟨u2, v2, by simp, hu, [], u2, [], by simp, [], u2, rfl, ⟨rfl, rfl⟩, u2, [], by simp, plain_context hp _ _ _ _ _ hs, rfl, rfl⟩
    · rintro ⟨q, rest, rfl, hu, b, m, a, rfl, u0, v0, rfl, ⟨rfl, rfl⟩, u, v, rfl, hs, rfl, rfl⟩
      exact ⟨[], root P ++ (u ++ rest), [], by simp, [], root P ++ (u ++ rest), rfl, ⟨rfl, rfl⟩, u ++ rest, rfl, u, rest, rfl, plain_context hp _ _ _ _ _ hs, rfl, hu⟩

/-! ### the properties -/

/-- C87 For a regular expression `^x$` or `x$`, `x` being a branch (no alternation out of parentheses) without anchor and without `$`, the expression that the code builds is one that can be
read, and it is found in a path exactly when the path is the root followed by a relative path in which that of the user is found, or something under it. -/
theorem C87_exclude_partial {x : Rx} (P : Bytes) (anch : Bool) (hx : wf x 2 = true) (hp : plain x = true) (h36 : 36 ∉ print x) :
    ∃ u y, Reads ((if anch then [94] else []) ++ print x ++ [36]) u ∧ Reads (build P ((if anch then [94] else []) ++ print x ++ [36])) y ∧
      ∀ t, search y t ↔ ∃ q rest, t = root P ++ q ++ rest ∧ (rest = [] ∨ ∃ w, w ≠ [] ∧ rest = 47 :: w) ∧ search u q :=
  ⟨user anch x, code P anch x, ⟨user_wf anch hx, user_print anch x⟩, ⟨code_wf P anch hx, (build_eq P anch hx hp h36 _ (.inr ⟨[], rfl⟩)).symm⟩, code_search P anch hp⟩

/-- C87 Without `$` at the end, the regular expression is used as if it had one; and what follows the first `$` is ignored. -/
theorem C87_dollar {x : Rx} (P : Bytes) (anch : Bool) (hx : wf x 2 = true) (hp : plain x = true) (h36 : 36 ∉ print x) (tail : Bytes) :
    build P ((if anch then [94] else []) ++ print x) = build P ((if anch then [94] else []) ++ print x ++ [36]) ∧
    build P ((if anch then [94] else []) ++ print x ++ 36 :: tail) = build P ((if anch then [94] else []) ++ print x ++ [36]) := by
  have h := build_eq P anch hx hp h36 [] (.inl rfl)
  rw [List.append_nil] at h
  have hd := build_eq P anch hx hp h36 [36] (.inr ⟨[], rfl⟩)
  exact ⟨h.trans hd.symm, (build_eq P anch hx hp h36 (36 :: tail) (.inr ⟨tail, rfl⟩)).trans hd.symm⟩

/-- the expression foo -/
def foo : Rx := .cat (.chr 102) (.cat (.chr 111) (.chr 111))

/-- C87 A case: with -R /usr/local, `^foo$` becomes `^/usr/local/foo(/.+)?$`, which is found in /usr/local/foo and in /usr/local/foo/x, not in /usr/local/foot. -/
theorem C87_example : wf foo 2 = true ∧ plain foo = true ∧ 36 ∉ print foo ∧
    print (code [47, 117] true foo) = build [47, 117] [94, 102, 111, 111, 36] ∧
    search (code [47, 117] true foo) [47, 117, 47, 102, 111, 111] ∧ search (code [47, 117] true foo) [47, 117, 47, 102, 111, 111, 47, 120] ∧
    ¬ search (code [47, 117] true foo) [47, 117, 47, 102, 111, 111, 116] := by
  have hs : search (user true foo) [102, 111, 111] :=
    ⟨[], [102, 111, 111], [], rfl, [], [102, 111, 111], rfl, ⟨rfl, rfl⟩, [102], [111, 111], rfl, rfl, [111], [111], rfl, rfl, [111], [], rfl, rfl, rfl, rfl⟩
  refine ⟨by decide, by decide, by decide, by decide, ?_, ?_, ?_⟩
  · exact (code_search _ _ (by decide) _).2 ⟨[102, 111, 111], [], by decide, .inl rfl, hs⟩
  · exact (code_search _ _ (by decide) _).2 ⟨[102, 111, 111], [47, 120], by decide, .inr ⟨[120], by decide, rfl⟩, hs⟩
  · intro h
    obtain ⟨q, rest, e, hr, b, m, a, e2, h⟩ := (code_search _ _ (by decide) _).1 h
    have hroot : root [47, 117] = [47, 117, 47] := by decide
    simp only [user, foo, if_true, sem, app] at h
    obtain ⟨u, v, rfl, ⟨rfl, rfl⟩, u1, v1, rfl, rfl, u2, v2, rfl, rfl, u3, v3, rfl, rfl, rfl, rfl⟩ := h
    rw [hroot, e2] at e
    rcases hr with rfl | ⟨w, _, rfl⟩ <;> simp at e

/-- C87 Not true of the code for a regular expression that does not end by `$`: `foo` is found in foobar, and -P foo does not exclude foobar. -/
theorem C87_end_counterexample : Reads [102, 111, 111] foo ∧ search foo [102, 111, 111, 98, 97, 114] ∧
    Reads (build [47, 117] [102, 111, 111]) (code [47, 117] false foo) ∧ ¬ search (code [47, 117] false foo) [47, 117, 47, 102, 111, 111, 98, 97, 114] := by
  refine ⟨⟨by decide, rfl⟩, ⟨[], [102, 111, 111], [98, 97, 114], rfl, [102], [111, 111], rfl, rfl, [111], [111], rfl, rfl, rfl⟩, ⟨by decide, by decide⟩, ?_⟩
  intro h
  obtain ⟨q, rest, e, hr, b, m, a, e2, h⟩ := (code_search _ _ (by decide) _).1 h
  have hroot : root [47, 117] = [47, 117, 47] := by decide
  simp only [user, foo, Bool.false_eq_true, if_false, sem, app] at h
  obtain ⟨u1, v1, rfl, rfl, u2, v2, rfl, rfl, u3, v3, rfl, rfl, rfl, rfl⟩ := h
  rw [hroot, e2] at e
  rcases hr with rfl | ⟨w, _, rfl⟩
  · have := congrArg List.reverse e
    simp at this
  · have : (47 : UInt8) ∈ ([102, 111, 111, 98, 97, 114] : Bytes) := by
      simp only [List.cons_append, List.nil_append, List.append_assoc, List.cons.injEq, true_and] at e
      rw [e]; simp
    exact absurd this (by decide)

/-- C87 Not true of the code for an alternation: what follows the first `$` is dropped, and -P '^a$|^b$' does not exclude b. -/
theorem C87_second_counterexample : ∃ u y, Reads [94, 97, 36, 124, 94, 98, 36] u ∧ search u [98] ∧ Reads (build [47, 117] [94, 97, 36, 124, 94, 98, 36]) y ∧ ¬ search y [47, 117, 47, 98] := by
  refine ⟨.alt (.cat .bol (.cat (.chr 97) .eol)) (.cat .bol (.cat (.chr 98) .eol)), code [47, 117] true (.chr 97), ⟨by decide, by decide⟩, ?_, ⟨by decide, by decide⟩, ?_⟩
  · exact ⟨[], [98], [], rfl, .inr ⟨[], [98], rfl, ⟨rfl, rfl⟩, [98], [], rfl, rfl, rfl, rfl⟩⟩
  · intro h
    obtain ⟨q, rest, e, hr, b, m, a, e2, h⟩ := (code_search _ _ (by decide) _).1 h
    have hroot : root [47, 117] = [47, 117, 47] := by decide
    simp only [user, if_true, sem, app] at h
    obtain ⟨u, v, rfl, ⟨rfl, rfl⟩, u1, v1, rfl, rfl, rfl, rfl⟩ := h
    rw [hroot, e2] at e
    rcases hr with rfl | ⟨w, _, rfl⟩ <;> simp at e

/-- C87 Not true of the code for an alternation: no parentheses are put around it, and its last part is then sought in the root too.  With -R /b, -P 'x|b' excludes everything: zzz, for
example, in which `x|b` is not found. -/
theorem C87_root_counterexample : ∃ u y, Reads [120, 124, 98] u ∧ ¬ search u [122, 122, 122] ∧ Reads (build [47, 98] [120, 124, 98]) y ∧ search y [47, 98, 47, 122, 122, 122] := by
  refine ⟨.alt (.chr 120) (.chr 98), .alt (.cat .bol (lits [47, 98, 47] (.cat (.rep .star .any) (.chr 120)))) (.cat (.chr 98) endRx), ⟨by decide, by decide⟩, ?_, ⟨by decide, by decide⟩, ?_⟩
  · rintro ⟨b, m, a, e, h | h⟩
    · simp only [sem] at h
      have : (120 : UInt8) ∈ ([122, 122, 122] : Bytes) := by rw [e, h]; simp
      exact absurd this (by decide)
    · simp only [sem] at h
      have : (98 : UInt8) ∈ ([122, 122, 122] : Bytes) := by rw [e, h]; simp
      exact absurd this (by decide)
  · exact ⟨[47], [98, 47, 122, 122, 122], [], rfl, .inr ⟨[98], [47, 122, 122, 122], rfl, rfl, (end_sem _ _ _).2 ⟨rfl, .inr ⟨[122, 122, 122], by decide, rfl⟩⟩⟩⟩

end Dar.Er
