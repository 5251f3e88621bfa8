import Verif.Model.EolArg
import Verif.Spec.EolArg
import Mathlib.Data.List.Forall2
/- C84: the end of line sequences given with a listing file. -/
namespace Dar.Eo
open Dar

theorem bindOk {α β : Type} {x : Res α} {f : α → Res β} {r : β} : (x >>= f) = .ok r ↔ ∃ a, x = .ok a ∧ f a = .ok r := by
  cases x with
  | error e => simp [bind, Except.bind]
  | ok a => simp [bind, Except.bind]

/-! ### one equation for each form -/

theorem esc_nil : esc [] = .ok [] := by rw [esc]
theorem esc_plain {c : UInt8} (h : c ≠ 92) (l : Bytes) : esc (c :: l) = (esc l >>= fun v => .ok (c :: v)) := by
  rw [esc.eq_def]; simp only; rw [if_neg h]
theorem esc_letter {d v : UInt8} (h : letter d = some v) (l : Bytes) : esc (92 :: d :: l) = (esc l >>= fun w => .ok (v :: w)) := by
  rw [esc, if_pos rfl]; simp only [h]
theorem esc_octal {l : Bytes} (h : l ≠ []) : esc (92 :: 48 :: l) = (esc (octal 0 0 l).2 >>= fun w => .ok ((octal 0 0 l).1 :: w)) := by
  have h48 : letter 48 = none := by decide
  rw [esc, if_pos rfl]; simp only [h48, if_true, if_neg h]
theorem esc_hexa {l : Bytes} {p : UInt8 × Bytes} (h : hexa l = some p) : esc (92 :: 120 :: l) = (esc p.2 >>= fun w => .ok (p.1 :: w)) := by
  have h1 : letter 120 = none := by decide
  rw [esc, if_pos rfl]
  simp only [h1, if_neg (show ¬ (120 : UInt8) = 48 by decide), if_true]
  split
  · rename_i q hq; rw [h] at hq; cases hq; rfl
  · rename_i hq; rw [h] at hq; cases hq
/-- anything else is refused -/
theorem esc_ok {d : UInt8} {l v : Bytes} (h : esc (92 :: d :: l) = .ok v) (hl : letter d = none) :
    (d = 48 ∧ l ≠ []) ∨ (d = 120 ∧ ∃ p, hexa l = some p) := by
  rw [esc, if_pos rfl] at h
  simp only [hl] at h
  by_cases h1 : d = 48
  · rw [if_pos h1] at h
    by_cases h2 : l = []
    · rw [if_pos h2] at h; cases h
    · exact .inl ⟨h1, h2⟩
  · rw [if_neg h1] at h
    by_cases h2 : d = 120
    · rw [if_pos h2] at h
      split at h
      · rename_i p hp; exact .inr ⟨h2, p, hp⟩
      · cases h
    · rw [if_neg h2] at h; cases h

/-! ### the tables -/

theorem letter_iff (c x : UInt8) : letter c = some x ↔ (c, x) ∈ letters := by
  constructor
  · intro h
    have : ∀ n < 256, ∀ y, letter (UInt8.ofNat n) = some y → (UInt8.ofNat n, y) ∈ letters := by
      have : ∀ n < 256, ∀ y ∈ letter (UInt8.ofNat n), (UInt8.ofNat n, y) ∈ letters := by decide +kernel
      intro n hn y hy
      exact this n hn y hy
    have := this c.toNat c.toNat_lt x (by simpa using h)
    simpa using this
  · intro h
    have : ∀ e ∈ letters, letter e.1 = some e.2 := by decide
    exact this _ h
theorem hex_some {c y : UInt8} (h : hexDigit c = some y) : ∃ n, (c, n) ∈ hexVal ∧ y = UInt8.ofNat n := by
  have : ∀ n < 256, ∀ y ∈ hexDigit (UInt8.ofNat n), ∃ e ∈ hexVal, e.1 = UInt8.ofNat n ∧ y = UInt8.ofNat e.2 := by decide +kernel
  have := this c.toNat c.toNat_lt y (by simpa using h)
  simp only [UInt8.ofNat_toNat] at this
  obtain ⟨⟨a, n⟩, h1, h2, h3⟩ := this
  simp only at h2; subst h2
  exact ⟨n, h1, h3⟩
theorem hex_mem {c : UInt8} {n : Nat} (h : (c, n) ∈ hexVal) : hexDigit c = some (UInt8.ofNat n) := by
  have : ∀ e ∈ hexVal, hexDigit e.1 = some (UInt8.ofNat e.2) := by decide
  exact this _ h

/-! ### octal -/

theorem octal_run (t : Bytes) : ∀ (ds : Bytes) (k : Nat) (n : Nat), (∀ d ∈ ds, Octal d) → ds.length + k ≤ 3 → (ds.length + k = 3 ∨ ∀ c ∈ t.head?, ¬ Octal c) →
    octal k (UInt8.ofNat n) (ds ++ t) = (UInt8.ofNat (ds.foldl (fun n c => n * 8 + (c.toNat - 48)) n), t)
  | [], k, n, _, hl, ht => by
    simp only [List.nil_append, List.foldl_nil]
    cases t with
    | nil => rfl
    | cons c t =>
      unfold octal
      rw [if_neg]
      rintro ⟨h1, h2⟩
      simp only [List.length_nil, Nat.zero_add] at ht
      rcases ht with h3 | h3
      · omega
      · exact h3 c (by simp) h1
  | d :: ds, k, n, hd, hl, ht => by
    have h1 : Octal d := hd d (by simp)
    simp only [List.cons_append, octal, List.foldl_cons]
    rw [if_pos ⟨h1, by simp at hl; omega⟩]
    have e : UInt8.ofNat n * 8 + (d - 48) = UInt8.ofNat (n * 8 + (d.toNat - 48)) := by
      have : d - 48 = UInt8.ofNat (d.toNat - 48) := by
        apply UInt8.toNat_inj.1
        have h48 : (48 : UInt8).toNat ≤ d.toNat := h1.1
        rw [UInt8.toNat_sub_of_le _ _ h1.1]
        have := d.toNat_lt
        simp; omega
      rw [this, UInt8.ofNat_add, UInt8.ofNat_mul]; rfl
    rw [e]
    exact octal_run t ds (k + 1) _ (fun x hx => hd x (by simp [hx])) (by simp at hl; omega) (ht.imp (fun h => by simp at h; omega) id)

theorem octal_split : ∀ (l : Bytes) (k : Nat), k ≤ 3 → ∃ ds t, l = ds ++ t ∧ (∀ d ∈ ds, Octal d) ∧ ds.length + k ≤ 3 ∧ (ds.length + k = 3 ∨ ∀ c ∈ t.head?, ¬ Octal c)
  | [], k, hk => ⟨[], [], rfl, by simp, by simpa using hk, .inr (by simp)⟩
  | c :: l, k, hk => by
    by_cases h : Octal c ∧ k < 3
    · obtain ⟨ds, t, h1, h2, h3, h4⟩ := octal_split l (k + 1) (by omega)
      refine ⟨c :: ds, t, by rw [h1]; rfl, ?_, by simp; omega, ?_⟩
      · intro d hd
        rcases List.mem_cons.1 hd with rfl | hd
        · exact h.1
        · exact h2 d hd
      · rcases h4 with h4 | h4
        · left; simp; omega
        · exact .inr h4
    · refine ⟨[], c :: l, rfl, by simp, by simpa using hk, ?_⟩
      by_cases hk3 : k < 3
      · right; intro d hd; cases hd; exact fun ho => h ⟨ho, hk3⟩
      · left; simp; omega

/-! ### escape sequences -/

theorem says_esc {t v : Bytes} (h : Says t v) : esc t = .ok v := by
  induction h with
  | nil => exact esc_nil
  | plain hc _ ih => rw [esc_plain hc, ih]; rfl
  | letter hm _ ih => rw [esc_letter ((letter_iff _ _).2 hm), ih]; rfl
  | @octal ds t v hd hl ht hne _ ih =>
    have e : [92, 48] ++ ds ++ t = 92 :: 48 :: (ds ++ t) := by simp
    have := octal_run t ds 0 0 hd (by omega) (by simpa using ht)
    have h0 : (UInt8.ofNat 0) = 0 := rfl
    rw [h0] at this
    rw [e, esc_octal hne, this]
    simp only
    rw [ih]; rfl
  | @hexa a b x y t v ha hb _ ih =>
    have hh : hexa (a :: b :: t) = some (UInt8.ofNat x * 16 + UInt8.ofNat y, t) := by
      unfold hexa; simp only [hex_mem ha, hex_mem hb]
    have e : [92, 120, a, b] ++ t = 92 :: 120 :: (a :: b :: t) := rfl
    rw [e, esc_hexa hh]
    simp only
    rw [ih, UInt8.ofNat_add, UInt8.ofNat_mul]; rfl

theorem esc_says : ∀ (n : Nat) (t v : Bytes), t.length ≤ n → esc t = .ok v → Says t v
  | _, [], v, _, h => by rw [esc_nil] at h; cases h; exact .nil
  | 0, c :: l, v, hn, h => by simp at hn
  | n + 1, c :: l, v, hn, h => by
    simp at hn
    by_cases hc : c = 92
    · subst hc
      cases l with
      | nil => rw [esc, if_pos rfl] at h; cases h
      | cons d l =>
        simp at hn
        cases hl : letter d with
        | some x =>
          rw [esc_letter hl, bindOk] at h
          obtain ⟨w, h1, h2⟩ := h
          cases h2
          exact .letter ((letter_iff _ _).1 hl) (esc_says n l w (by omega) h1)
        | none =>
          rcases esc_ok h hl with ⟨rfl, h2⟩ | ⟨rfl, p, hp⟩
          · rw [esc_octal h2, bindOk] at h
            obtain ⟨w, h3, h4⟩ := h
            cases h4
            obtain ⟨ds, t, rfl, h5, h6, h7⟩ := octal_split l 0 (by omega)
            have := octal_run t ds 0 0 h5 h6 h7
            have h0 : (UInt8.ofNat 0) = 0 := rfl
            rw [h0] at this
            rw [this] at h3 ⊢
            have e : (92 : UInt8) :: 48 :: (ds ++ t) = [92, 48] ++ ds ++ t := by simp
            rw [e]
            exact .octal h5 h6 h7 h2 (esc_says n t w (by simp at hn; omega) h3)
          · rw [esc_hexa hp, bindOk] at h
            obtain ⟨w, h3, h4⟩ := h
            cases h4
            unfold hexa at hp
            split at hp
            · rename_i a b t
              split at hp
              · rename_i x y hx hy
                cases hp
                obtain ⟨i, hi, rfl⟩ := hex_some hx
                obtain ⟨j, hj, rfl⟩ := hex_some hy
                have := Says.hexa hi hj (esc_says n t w (by simp at hn; omega) h3)
                rw [UInt8.ofNat_add, UInt8.ofNat_mul] at this
                exact this
              · cases hp
            · cases hp
    · rw [esc_plain hc, bindOk] at h
      obtain ⟨w, h1, h2⟩ := h
      cases h2
      exact .plain hc (esc_says n l w (by omega) h1)

/-- C84: escape sequences: a text is accepted exactly when each backslash begins an escape sequence, and it gives the characters these stand for. -/
theorem C84_escapes (t v : Bytes) : esc t = .ok v ↔ Says t v := ⟨esc_says t.length t v (Nat.le_refl _), says_esc⟩

/-! ### commas -/

/-- each backslash goes with the character that follows -/
inductive Closed : Bytes → Prop
  | nil : Closed []
  | plain {c t} : c ≠ 92 → Closed t → Closed (c :: t)
  | pair {c t} : Closed t → Closed (92 :: c :: t)

theorem Closed.app {a b : Bytes} (ha : Closed a) (hb : Closed b) : Closed (a ++ b) := by
  induction ha with
  | nil => exact hb
  | plain hc _ ih => exact .plain hc ih
  | pair _ ih => exact .pair ih

theorem lastEsc_closed {q : Bytes} (h : Closed q) : ∀ b, q.getLast? = some 92 → lastEsc q b = true := by
  induction h with
  | nil => intro b h; cases h
  | @plain c t hc ht ih =>
    intro b h
    unfold lastEsc
    rw [if_neg hc]
    cases t with
    | nil => simp at h; exact absurd h hc
    | cons d t => exact ih false (by simpa [List.getLast?_cons_cons] using h)
  | @pair c t ht ih =>
    intro b h
    unfold lastEsc
    rw [if_pos rfl]
    simp only
    cases t with
    | nil => rfl
    | cons d t => exact ih true (by simpa [List.getLast?_cons_cons] using h)

theorem lastEsc_open {q : Bytes} (h : Closed q) : ∀ b, lastEsc (q ++ [92]) b = false := by
  induction h with
  | nil => intro b; rfl
  | plain hc _ ih => intro b; rw [List.cons_append, lastEsc.eq_def]; simp only; rw [if_neg hc]; exact ih false
  | pair _ ih => intro b; rw [List.cons_append, List.cons_append, lastEsc, if_pos rfl]; exact ih true

theorem endsOpen_closed {q : Bytes} (h : Closed q) : endsOpen q = false := by
  unfold endsOpen
  by_cases hl : q.getLast? = some 92
  · rw [lastEsc_closed h _ hl]; simp
  · simp [hl]
theorem endsOpen_open {q : Bytes} (h : Closed q) : endsOpen (q ++ [92]) = true := by
  unfold endsOpen
  rw [lastEsc_open h]; simp

/-- all that is between commas, to the end -/
def pieces : Bytes → List Bytes
  | [] => [[]]
  | c :: t => if c = 44 then [] :: pieces t else match pieces t with
    | h :: l => (c :: h) :: l
    | [] => [[c]]

theorem pieces_ne (t : Bytes) : pieces t ≠ [] := by
  cases t with
  | nil => simp [pieces]
  | cons c t => unfold pieces; split; · simp
                split <;> simp
theorem pieces_cons {c : UInt8} (hc : c ≠ 44) {t h : Bytes} {l : List Bytes} (e : pieces t = h :: l) : pieces (c :: t) = (c :: h) :: l := by
  rw [pieces, if_neg hc, e]
theorem pieces_comma (t : Bytes) : pieces (44 :: t) = [] :: pieces t := by rw [pieces, if_pos rfl]

theorem loop_open {q : Bytes} (hq : Closed q) (n : Bytes) (rest : List Bytes) : eolsLoop ((q ++ [92]) :: n :: rest) = eolsLoop ((q ++ [44] ++ n) :: rest) := by
  rw [eolsLoop, endsOpen_open hq]
  simp
theorem loop_closed {q : Bytes} (hq : Closed q) (rest : List Bytes) : eolsLoop (q :: rest) = (esc q >>= fun v => eolsLoop rest >>= fun l => .ok (v :: l)) := by
  rw [eolsLoop.eq_def]; simp only; rw [endsOpen_closed hq]
  simp
theorem loop_last {q : Bytes} (hq : Closed q) : eolsLoop [q ++ [92]] = eolsLoop [q ++ [44]] := by
  have h2 : Closed (q ++ [44]) := hq.app (.plain (by decide) .nil)
  rw [loop_closed h2, eolsLoop.eq_def]; simp only; rw [endsOpen_open hq]
  simp [eolsLoop, bind, Except.bind]

/-- the pieces of a sequence are put together again -/
theorem loop_pieces {p t : Bytes} (hw : Written p t) : ∀ (q h : Bytes) (l rest : List Bytes), Closed q → pieces t = h :: l →
    eolsLoop ((q ++ h) :: (l ++ rest)) = (esc (q ++ p) >>= fun v => eolsLoop rest >>= fun l => .ok (v :: l)) := by
  induction hw with
  | nil =>
    intro q h l rest hq hp
    simp only [pieces, List.cons.injEq] at hp
    obtain ⟨rfl, rfl⟩ := hp
    rw [List.append_nil, List.nil_append, loop_closed hq]
  | @plain c p t hc h44 _ ih =>
    intro q h l rest hq hp
    obtain ⟨h', l', e⟩ := List.exists_cons_of_ne_nil (pieces_ne t)
    rw [pieces_cons h44 e] at hp
    cases hp
    have := ih (q ++ [c]) h' _ rest (hq.app (.plain hc .nil)) e
    simpa using this
  | @comma p t _ ih =>
    intro q h l rest hq hp
    obtain ⟨h', l', e⟩ := List.exists_cons_of_ne_nil (pieces_ne t)
    rw [pieces_cons (c := 92) (by decide) (pieces_comma t), e] at hp
    cases hp
    have := ih (q ++ [44]) h' _ rest (hq.app (.plain (by decide) .nil)) e
    rw [List.cons_append, loop_open hq, this]
    simp
  | @pair c p t h44 _ ih =>
    intro q h l rest hq hp
    obtain ⟨h', l', e⟩ := List.exists_cons_of_ne_nil (pieces_ne t)
    rw [pieces_cons (c := 92) (by decide) (pieces_cons h44 e)] at hp
    cases hp
    have := ih (q ++ [92, c]) h' _ rest (hq.app (.pair .nil)) e
    simpa using this

theorem pieces_app : ∀ (t r : Bytes), pieces (t ++ 44 :: r) = pieces t ++ pieces r
  | [], r => by simp [pieces]
  | c :: t, r => by
    have ih := pieces_app t r
    obtain ⟨h, l, e⟩ := List.exists_cons_of_ne_nil (pieces_ne t)
    by_cases hc : c = 44
    · subst hc; rw [List.cons_append, pieces_comma, pieces_comma, ih]; rfl
    · rw [pieces_cons hc e, List.cons_append, pieces_cons hc (h := h) (l := l ++ pieces r) (by rw [ih, e]; rfl)]; rfl

/-- line_tools_split gives these pieces but the last one when it is empty -/
theorem split_pieces : ∀ (t cur : Bytes) (acc : List Bytes) (h : Bytes) (l : List Bytes), pieces t = h :: l →
    Mp.splitLoop 44 cur acc t = acc ++ (if ((cur ++ h) :: l).getLast? = some [] then ((cur ++ h) :: l).dropLast else (cur ++ h) :: l)
  | [], cur, acc, h, l, e => by
    simp only [pieces, List.cons.injEq] at e
    obtain ⟨rfl, rfl⟩ := e
    by_cases hc : cur = [] <;> simp [Mp.splitLoop, hc]
  | c :: t, cur, acc, h, l, e => by
    obtain ⟨h', l', e'⟩ := List.exists_cons_of_ne_nil (pieces_ne t)
    by_cases hc : c = 44
    · subst hc
      rw [pieces_comma, e'] at e
      cases e
      rw [Mp.splitLoop, if_neg (by simp), split_pieces t [] (acc ++ [cur]) h' l' e']
      simp only [List.nil_append, List.append_nil, List.getLast?_cons_cons, List.dropLast_cons_cons]
      split <;> simp
    · rw [pieces_cons hc e'] at e
      cases e
      rw [Mp.splitLoop, if_pos hc, split_pieces t (cur ++ [c]) acc h' _ e']
      simp


/-- without an empty last piece -/
def dropE (l : List Bytes) : List Bytes := if l.getLast? = some [] then l.dropLast else l

theorem split_eq (t : Bytes) : Mp.split 44 t = dropE (pieces t) := by
  obtain ⟨h, l, e⟩ := List.exists_cons_of_ne_nil (pieces_ne t)
  unfold Mp.split dropE
  rw [split_pieces t [] [] h l e, e]
  simp

theorem dropE_app (a b : List Bytes) (hb : b ≠ []) : dropE (a ++ b) = a ++ dropE b := by
  obtain ⟨c, l, rfl⟩ := List.exists_cons_of_ne_nil hb
  unfold dropE
  have e : (a ++ c :: l).getLast? = (c :: l).getLast? := by
    rw [List.getLast?_append, List.getLast?_eq_some_getLast (List.cons_ne_nil c l)]; rfl
  rw [e]
  split
  · rw [List.dropLast_append_of_ne_nil (by simp)]
  · rfl

theorem dropE_cons (x : Bytes) {l : List Bytes} (hl : l ≠ []) : dropE (x :: l) = x :: dropE l := dropE_app [x] l hl
theorem dropE_one {x : Bytes} (h : x ≠ []) : dropE [x] = [x] := by simp [dropE, h]

/-- the same for the last sequence -/
theorem loop_pieces_last {p t : Bytes} (hw : Written p t) : ∀ (q h : Bytes) (l : List Bytes), Closed q → q ++ t ≠ [] → pieces t = h :: l →
    eolsLoop (dropE ((q ++ h) :: l)) = (esc (q ++ p) >>= fun v => .ok [v]) := by
  induction hw with
  | nil =>
    intro q h l hq hne hp
    simp only [pieces, List.cons.injEq] at hp
    obtain ⟨rfl, rfl⟩ := hp
    simp only [List.append_nil] at hne ⊢
    rw [dropE_one hne, loop_closed hq]; simp [eolsLoop, bind, Except.bind]
  | @plain c p t hc h44 _ ih =>
    intro q h l hq hne hp
    obtain ⟨h', l', e⟩ := List.exists_cons_of_ne_nil (pieces_ne t)
    rw [pieces_cons h44 e] at hp
    cases hp
    have := ih (q ++ [c]) h' _ (hq.app (.plain hc .nil)) (by simp) e
    simpa using this
  | @comma p t _ ih =>
    intro q h l hq hne hp
    obtain ⟨h', l', e⟩ := List.exists_cons_of_ne_nil (pieces_ne t)
    rw [pieces_cons (c := 92) (by decide) (pieces_comma t), e] at hp
    cases hp
    have := ih (q ++ [44]) h' _ (hq.app (.plain (by decide) .nil)) (by simp) e
    simp only [List.append_assoc, List.singleton_append] at this
    rw [← this, dropE_cons _ (by simp)]
    cases l' with
    | nil =>
      by_cases hh : h' = []
      · subst hh
        have e1 : dropE [([] : Bytes)] = [] := rfl
        rw [e1, dropE_one (by simp), loop_last hq]
      · rw [dropE_one hh, dropE_one (by simp), loop_open hq]; simp
    | cons a l' => rw [dropE_cons _ (List.cons_ne_nil _ _), dropE_cons _ (List.cons_ne_nil _ _), loop_open hq]; simp
  | @pair c p t h44 _ ih =>
    intro q h l hq hne hp
    obtain ⟨h', l', e⟩ := List.exists_cons_of_ne_nil (pieces_ne t)
    rw [pieces_cons (c := 92) (by decide) (pieces_cons h44 e)] at hp
    cases hp
    have := ih (q ++ [92, c]) h' _ (hq.app (.pair .nil)) (by simp) e
    simpa using this

theorem loop_commas : ∀ (ts vs : List Bytes), ts ≠ [] → ts.getLast? ≠ some [] → List.Forall₂ Tells ts vs → eolsLoop (dropE (pieces (commas ts))) = .ok vs
  | [], _, h, _, _ => absurd rfl h
  | [t], vs, _, hl, h => by
    cases h with
    | @cons _ v _ _ hx hr =>
      cases hr
      obtain ⟨p, hw, hs⟩ := hx
      obtain ⟨h', l', e⟩ := List.exists_cons_of_ne_nil (pieces_ne t)
      have := loop_pieces_last hw [] h' l' .nil (by intro h0; simp at h0; simp [h0] at hl) e
      simp only [List.nil_append] at this
      rw [commas, e, this, says_esc hs]; rfl
  | t :: s :: ts, vs, _, hl, h => by
    cases h with
    | @cons _ v _ vs hx hr =>
      obtain ⟨p, hw, hs⟩ := hx
      obtain ⟨h', l', e⟩ := List.exists_cons_of_ne_nil (pieces_ne t)
      have := loop_pieces hw [] h' l' (dropE (pieces (commas (s :: ts)))) .nil e
      have e2 : commas (t :: s :: ts) = t ++ 44 :: commas (s :: ts) := by simp [commas]
      rw [e2, pieces_app, dropE_app _ _ (pieces_ne _), e]
      simp only [List.nil_append] at this
      rw [List.cons_append, this, says_esc hs, loop_commas (s :: ts) vs (by simp) (by simpa [List.getLast?_cons_cons] using hl) hr]
      rfl

theorem cutLast_none {sep : UInt8} : ∀ {t : Bytes}, sep ∉ t → cutLast sep t = none
  | [], _ => rfl
  | c :: t, h => by
    unfold cutLast
    rw [cutLast_none (fun hm => h (by simp [hm]))]
    simp only
    rw [if_neg (fun hc => h (by simp [hc]))]
theorem cutLast_some {sep : UInt8} {b : Bytes} (hb : sep ∉ b) : ∀ (a : Bytes), cutLast sep (a ++ sep :: b) = some (a, b)
  | [] => by simp only [List.nil_append]; unfold cutLast; rw [cutLast_none hb]; simp
  | c :: a => by rw [List.cons_append]; unfold cutLast; rw [cutLast_some hb a]

/-- C84: -[ file and -[ file:sequence,...: the name of the file is all that precedes the last colon, and the sequences are those told, a comma and a backslash in them being written after a
backslash. -/
theorem C84_list (file : Bytes) : (58 ∉ file → listArg file = .ok (file, [])) ∧ (listArg (file ++ [58]) = .ok (file, [])) ∧
    ∀ ts vs : List Bytes, ts ≠ [] → ts.getLast? ≠ some [] → 58 ∉ commas ts → List.Forall₂ Tells ts vs → listArg (file ++ [58] ++ commas ts) = .ok (file, vs) := by
  refine ⟨fun h => ?_, ?_, fun ts vs h1 h2 h3 h4 => ?_⟩
  · unfold listArg; rw [cutLast_none h]
  · unfold listArg; rw [cutLast_some (by simp)]
    simp [Mp.split, Mp.splitLoop, eolsLoop, bind, Except.bind]
  · have e : file ++ [58] ++ commas ts = file ++ 58 :: commas ts := by simp
    unfold listArg
    rw [e, cutLast_some h3]
    simp only
    rw [split_eq, loop_commas ts vs h1 h2 h4]; rfl

/-- every sequence can be given: each byte has a form -/
theorem C84_any (v : Bytes) (h : (0 : UInt8) ∉ v) : ∃ t, Tells t v := by
  induction v with
  | nil => exact ⟨[], [], .nil, .nil⟩
  | cons c v ih =>
    obtain ⟨t, p, hw, hs⟩ := ih (fun hm => h (by simp [hm]))
    by_cases hc : c = 92
    · subst hc; exact ⟨92 :: 92 :: t, 92 :: 92 :: p, .pair (by decide) hw, .letter (by decide) hs⟩
    · by_cases h44 : c = 44
      · subst h44; exact ⟨92 :: 44 :: t, 44 :: p, .comma hw, .plain hc hs⟩
      · exact ⟨c :: t, c :: p, .plain hc h44 hw, .plain hc hs⟩

/-! ### examples -/

def txt (s : String) : Bytes := s.toList.map (fun c => UInt8.ofNat c.toNat)
-- files:\n,\r\n
example : listArg (txt "files:\\n,\\r\\n") = .ok (txt "files", [[10], [13, 10]]) := by
  have h := (C84_list (txt "files")).2.2 [txt "\\n", txt "\\r\\n"] [[10], [13, 10]] (by simp) (by decide) (by decide)
    (.cons ⟨txt "\\n", .pair (by decide) .nil, .letter (by decide) .nil⟩
      (.cons ⟨txt "\\r\\n", .pair (by decide) (.pair (by decide) .nil), .letter (by decide) (.letter (by decide) .nil)⟩ .nil))
  exact h
-- a comma, then a backslash
example : Tells (txt "\\,\\\\") [44, 92] := ⟨txt ",\\\\", .comma (.pair (by decide) .nil), .plain (by decide) (.letter (by decide) .nil)⟩
-- \0123 and \x4F
example : Says (txt "\\0123\\x4F") [83, 79] :=
  .octal (ds := txt "123") (by unfold Octal; decide) (by decide) (.inl rfl) (by decide) (.hexa (x := 4) (y := 15) (by decide) (by decide) .nil)

/-! ### where the code departs from what is usual -/

/-- \0 at the end of a sequence: the program does not end -/
theorem C84_zero_counterexample : esc (txt "\\0") = .error .diverge ∧ esc (txt "a\\0") = .error .diverge ∧ esc (txt "\\0b") = .ok [0, 98] := by
  refine ⟨?_, ?_, ?_⟩ <;> decide +kernel
/-- the hexadecimal digit a is refused, A is not -/
theorem C84_hexa_counterexample : esc (txt "\\x0a") = .error .range ∧ esc (txt "\\x0A") = .ok [10] := by
  refine ⟨?_, ?_⟩ <;> decide +kernel
/-- three digits are read after the zero: \0123 is the character 83, where C would read \012 then 3 -/
theorem C84_octal_counterexample : esc (txt "\\0123") = .ok [83] := by decide +kernel
/-- an empty sequence is dropped at the end of the list only -/
theorem C84_empty_counterexample : listArg (txt "f:a,") = .ok (txt "f", [[97]]) ∧ listArg (txt "f:,a") = .ok (txt "f", [[], [97]]) := by
  refine ⟨?_, ?_⟩ <;> decide +kernel

end Dar.Eo
