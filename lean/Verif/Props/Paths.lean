import Verif.Lemmas.Path
import Verif.Spec.ToolsText
import Mathlib.Tactic.Ring
/- Property theorems C25 (paths parse to their normal form) and C26 (sub-directory test). -/
namespace Dar

/-- Parsing any accepted text gives components in normal form. -/
theorem C25_normal (s : Bytes) (p : PathT) (h : pathOf s false = .ok p) :
    normalForm p.relative p.dirs ∧ (p.relative = true ↔ s.head? ≠ some (chr '/')) := by
  unfold pathOf at h
  split at h
  · cases h
  · simp only [Bool.false_eq_true, ite_self, false_and, if_false] at h
    generalize (if decide (List.head? s ≠ some 47) = true then s else List.drop 1 s) = t at h
    split at h
    · cases h
    · injection h with h
      subst h
      exact ⟨pathReduce_normal _ _ (pathSplit_good _), by simp; rfl⟩

/-- Every non-empty text is accepted. -/
theorem C25_accept (s : Bytes) : (∃ p, pathOf s false = .ok p) ↔ s ≠ [] := by
  constructor
  · rintro ⟨p, h⟩ rfl; cases h
  · intro hs
    unfold pathOf
    rw [if_neg hs]
    simp only [Bool.false_eq_true, ite_self, false_and, if_false]
    rw [if_neg]
    · exact ⟨_, rfl⟩
    · rintro ⟨h1, h2⟩
      rw [h2, if_pos rfl] at h1
      cases s with
      | nil => exact hs rfl
      | cons c s =>
        have hc : c ≠ 47 := by simpa using h2
        have grow : ∀ (rest : Bytes) (agg : Bytes) sp part, (sp ≠ [] ∨ part ≠ []) → pathSplitLoop agg sp part rest ≠ [] := by
          intro rest
          induction rest with
          | nil =>
            intro agg sp part h
            unfold pathSplitLoop
            split
            · rename_i hp; rcases h with h | h; exacts [h, absurd hp h]
            · simp
          | cons x rest ih =>
            intro agg sp part h
            unfold pathSplitLoop
            split
            · apply ih; left
              unfold splitPart
              split
              · rename_i hp; rcases h with h | h; exacts [h, absurd hp h]
              · split <;> simp
            · apply ih; right; simp
        unfold pathSplit at h1
        rw [pathSplitLoop, if_neg hc] at h1
        exact grow _ _ _ _ (Or.inr (by simp)) h1

/-- A path that is only the head of a URL, like "ftp://". -/
def loneUrl (p : PathT) : Prop := ∃ u, isUrlHead u ∧ p.dirs = [u]

/-- Displaying a path in normal form and parsing the text gives the same path. -/
theorem C25_display_parse (p : PathT) (hn : normalForm p.relative p.dirs) (hu : p.undisclosed = false) (hl : ¬ loneUrl p) :
    pathOf p.display false = .ok p := by
  obtain ⟨dirs, rel, und⟩ := p
  simp only at hn hu
  subst hu
  have plain_of_name : ∀ d, isName d → plain d := fun d h => ⟨h.1, h.2.1⟩
  -- split of the joined components, and first character
  have key : pathSplit (joinSlash dirs) = dirs ∧ (dirs ≠ [] → ∃ c r, joinSlash dirs = c :: r ∧ c ≠ 47) := by
    rcases hn with ⟨h1, rfl⟩ | ⟨h0, k, ns, rfl, hn⟩ | ⟨u, ns, hu, rfl, hn⟩
    · exact ⟨rfl, fun _ => ⟨46, [], rfl, by decide⟩⟩
    · have hall : ∀ d ∈ List.replicate k ([46, 46] : Bytes) ++ ns, plain d := by
        intro d hd
        rcases List.mem_append.mp hd with hd | hd
        · rw [(List.mem_replicate.mp hd).2]; exact ⟨by decide, by decide⟩
        · exact plain_of_name d (hn d hd)
      refine ⟨split_join_plain _ hall, ?_⟩
      intro hne
      cases hx : List.replicate k ([46, 46] : Bytes) ++ ns with
      | nil => exact absurd hx hne
      | cons d l => rw [hx] at hall; exact joinSlash_head d l (hall d (by simp))
    · have hns : ns ≠ [] := by rintro rfl; exact hl ⟨u, hu, rfl⟩
      refine ⟨split_join_url u ns hu hns (fun d hd => plain_of_name d (hn d hd)), fun _ => ?_⟩
      obtain ⟨w, hw, rfl⟩ := hu
      cases ns with
      | nil => exact absurd rfl hns
      | cons e ns =>
        cases w with
        | nil => exact ⟨58, _, rfl, by decide⟩
        | cons c w => exact ⟨c, _, rfl, by rintro rfl; exact hw (by simp)⟩
  obtain ⟨k1, k2⟩ := key
  unfold pathOf PathT.display
  cases rel with
  | true =>
    have hne : dirs ≠ [] := by
      rcases hn with ⟨_, rfl⟩ | ⟨h0, _⟩ | ⟨u, ns, _, rfl, _⟩
      · simp
      · exact h0 rfl
      · simp
    obtain ⟨c, r, e, hc⟩ := k2 hne
    simp only [if_true, List.nil_append, Bool.false_eq_true, ite_self, false_and, if_false]
    rw [if_neg (by rw [e]; simp)]
    have hh : (joinSlash dirs).head? ≠ some 47 := by rw [e]; simpa using hc
    simp only [ne_eq, hh, not_false_eq_true, decide_true, if_true, k1]
    rw [if_neg (by simp [hne]), pathReduce_fix true dirs hn]
  | false =>
    simp only [Bool.false_eq_true, if_false, List.singleton_append, ite_self, false_and]
    rw [if_neg (by simp)]
    simp only [List.head?_cons, ne_eq, not_true_eq_false, decide_false, Bool.false_eq_true, if_false,
      List.drop_one, List.tail_cons, k1, and_false]
    rw [pathReduce_fix false dirs hn]

/-- Hence parsing is idempotent. -/
theorem C25_idempotent (s : Bytes) (p : PathT) (h : pathOf s false = .ok p) (hl : ¬ loneUrl p) :
    pathOf p.display false = .ok p := by
  refine C25_display_parse p (C25_normal s p h).1 ?_ hl
  unfold pathOf at h
  split at h
  · cases h
  · simp only [Bool.false_eq_true, ite_self, false_and, if_false] at h
    generalize (if decide (List.head? s ≠ some 47) = true then s else List.drop 1 s) = t at h
    split at h
    · cases h
    · injection h with h; subst h; rfl

/-- Finding: for a lone URL head the display does not parse back to the same path. -/
theorem C25_url_counterexample :
    ∃ p q, pathOf (txt "ftp://") false = .ok p ∧ pathOf p.display false = .ok q ∧ p.display ≠ q.display := by
  refine ⟨⟨[txt "ftp:/"], true, false⟩, ⟨[txt "ftp:"], true, false⟩, by decide, by decide, by decide⟩

private theorem joinSlash_append (a b : List Bytes) (ha : a ≠ []) (hb : b ≠ []) : joinSlash (a ++ b) = joinSlash a ++ 47 :: joinSlash b := by
  induction a with
  | nil => exact absurd rfl ha
  | cons d a ih =>
    cases a with
    | nil => cases b with
      | nil => exact absurd rfl hb
      | cons e b => rfl
    | cons e a => simp only [List.cons_append, joinSlash] at ih ⊢; rw [ih (by simp)]; simp

/-- Adding a path to a path: an absolute path is refused, otherwise the result is what one gets by writing both with a slash
between them (URL-like paths and the root apart). -/
theorem C25_add (p q : PathT) (hp : normalForm p.relative p.dirs) (hq : normalForm q.relative q.dirs) (hu : p.undisclosed = false)
    (hv : q.undisclosed = false) (h1 : ∀ d ∈ p.dirs, (47 : UInt8) ∉ d) (h2 : ∀ d ∈ q.dirs, (47 : UInt8) ∉ d) (h0 : p.dirs ≠ []) :
    p.addPath q = if q.relative then pathOf (p.display ++ [chr '/'] ++ q.display) false else .error .range := by
  have names : ∀ (r : PathT), normalForm r.relative r.dirs → (∀ d ∈ r.dirs, (47 : UInt8) ∉ d) → ∀ d ∈ r.dirs, plain d := by
    intro r hr hs d hd
    refine ⟨?_, hs d hd⟩
    rintro rfl
    rcases hr with ⟨_, e⟩ | ⟨_, k, ns, e, hn⟩ | ⟨u, ns, ⟨w, _, hw⟩, e, hn⟩
    · rw [e] at hd; simp at hd
    · rw [e] at hd
      rcases List.mem_append.mp hd with h | h
      · have := List.eq_of_mem_replicate h; cases this
      · exact (hn _ h).1 rfl
    · rw [e] at hd
      rcases List.mem_cons.mp hd with h | h
      · rw [← h] at hw; simp at hw
      · exact (hn _ h).1 rfl
  by_cases hr : q.relative = true
  · have hq0 : q.dirs ≠ [] := by
      rcases hq with ⟨_, e⟩ | ⟨h, _⟩ | ⟨u, ns, _, e, _⟩
      · rw [e]; simp
      · exact h hr
      · rw [e]; simp
    have hall : ∀ d ∈ p.dirs ++ q.dirs, plain d := by
      intro d hd
      rcases List.mem_append.mp hd with h | h
      exacts [names p hp h1 d h, names q hq h2 d h]
    have hsp := split_join_plain (p.dirs ++ q.dirs) hall
    have hd : p.display ++ [chr '/'] ++ q.display = (if p.relative then [] else [47]) ++ joinSlash (p.dirs ++ q.dirs) := by
      rw [joinSlash_append _ _ h0 hq0]
      simp [PathT.display, hr, chr]
    have hne : p.dirs ++ q.dirs ≠ [] := by simp [h0]
    obtain ⟨c, r, hj, hc⟩ : ∃ c r, joinSlash (p.dirs ++ q.dirs) = c :: r ∧ c ≠ 47 := by
      cases hcs : p.dirs ++ q.dirs with
      | nil => exact absurd hcs hne
      | cons d l => exact joinSlash_head d l (hall d (by rw [hcs]; simp))
    have hred : pathReduce p.relative (p.dirs ++ q.dirs.filter (· ≠ pDot)) = pathReduce p.relative (p.dirs ++ q.dirs) := by
      unfold pathReduce
      simp only [List.filter_append, List.filter_filter, Bool.and_self]
    rw [if_pos hr, hd]
    unfold PathT.addPath pathOf
    rw [if_neg (by rw [hr]; simp), hred, hu, hv]
    simp only [Bool.false_eq_true, ite_self, false_and, if_false, Bool.or_false]
    cases hrel : p.relative with
    | true =>
      simp only [if_true, List.nil_append]
      rw [hj] at hsp ⊢
      simp only [List.head?_cons, reduceCtorEq, if_false, ne_eq, Option.some.injEq, hc, not_false_eq_true, decide_true, if_true, hsp, hne, false_and]
    | false =>
      simp only [Bool.false_eq_true, if_false, List.cons_append, List.nil_append, List.head?_cons, ne_eq, not_true_eq_false, decide_false, List.drop_succ_cons, List.drop_zero, reduceCtorEq, hsp, hne, false_and]
  · rw [if_neg hr]
    unfold PathT.addPath
    rw [if_pos (by simpa using hr)]

example : (⟨[txt "a", txt "b"], false, false⟩ : PathT).addPath ⟨[txt "..", txt "c"], true, false⟩ = .ok ⟨[txt "a", txt "c"], false, false⟩ := by decide +kernel

/-- Appending a name to a path then popping gives the name and the path back (except from ".", which disappears). -/
theorem C25_append_pop (p : PathT) (n : Bytes) (hp : normalForm p.relative p.dirs) (hn : isName n) (hd : p.dirs ≠ [[46]]) :
    ∃ q, p.append n = .ok q ∧ q.pop = some (n, p) ∧ q.basename = n ∧ q.dirs = p.dirs ++ [n] := by
  have hnf : normalForm p.relative (p.dirs ++ [n]) := by
    rcases hp with ⟨_, h⟩ | ⟨h0, k, ns, h, hh⟩ | ⟨u, ns, hu, h, hh⟩
    · exact absurd h hd
    · right; left
      refine ⟨by simp, k, ns ++ [n], by rw [h]; simp, ?_⟩
      intro d hd; rcases List.mem_append.mp hd with hd | hd
      · exact hh d hd
      · simp at hd; subst hd; exact hn
    · right; right
      refine ⟨u, ns ++ [n], hu, by rw [h]; simp, ?_⟩
      intro d hd; rcases List.mem_append.mp hd with hd | hd
      · exact hh d hd
      · simp at hd; subst hd; exact hn
  have e := pathReduce_fix _ _ hnf
  refine ⟨p.addName n, ?_, ?_, ?_, ?_⟩
  · unfold PathT.append; rw [if_neg hn.2.1]
  · unfold PathT.pop PathT.addName
    simp only [e]
    rw [if_pos]
    · simp
    · split
      · rename_i hr
        have : p.dirs ≠ [] := by
          rcases hp with ⟨_, h⟩ | ⟨h0, _⟩ | ⟨u, ns, hu, h, hh⟩
          · rw [h]; simp
          · exact h0 hr
          · rw [h]; simp
        have := List.length_pos_iff.mpr this
        simp; omega
      · simp
  · unfold PathT.basename PathT.addName; simp only [e]; simp
  · unfold PathT.addName; simp only [e]

/-- Popping a path whose last component is a name and appending that component gives the path back. -/
theorem C25_pop_append (p q : PathT) (n : Bytes) (hp : normalForm p.relative p.dirs) (h : p.pop = some (n, q)) (hn : isName n) :
    q.append n = .ok p := by
  unfold PathT.pop at h
  by_cases hc : (if p.relative then p.dirs.length > 1 else p.dirs ≠ [])
  · rw [if_pos hc] at h
    injection h with h
    simp only [Prod.mk.injEq] at h
    obtain ⟨h1, h2⟩ := h
    have hne : p.dirs ≠ [] := by
      intro he; rw [he] at hc; simp at hc
    have hs : p.dirs.dropLast ++ [n] = p.dirs := by
      rw [← h1, List.getLast?_eq_some_getLast hne]
      exact List.dropLast_concat_getLast hne
    unfold PathT.append PathT.addName
    rw [if_neg hn.2.1, ← h2]
    simp only [hs, pathReduce_fix _ _ hp]
  · rw [if_neg hc] at h; cases h

example : ∃ p, pathOf (txt "//usr/./lib//../share/") false = .ok p ∧ p.display = txt "/usr/share" ∧ ¬ loneUrl p :=
  ⟨⟨[txt "usr", txt "share"], false, false⟩, by decide, by decide, by rintro ⟨u, _, h⟩; simp at h⟩
example : ∃ p, pathOf (txt "a/../../b") false = .ok p ∧ p.dirs = [txt "..", txt "b"] := ⟨_, rfl, by decide⟩
example : isName (txt "lib") := ⟨by decide, by decide, by decide, by decide⟩

/-! ### C26 -/

theorem strncmpEq_iff (b : Bytes) : ∀ a : Bytes, (0 : UInt8) ∉ b → (strncmpEq b.length a b = true ↔ b <+: a) := by
  induction b with
  | nil => intro a _; simp [strncmpEq]
  | cons y b ih =>
    intro a h
    have hy : y ≠ 0 := by rintro rfl; exact h (by simp)
    rw [List.length_cons, strncmpEq]
    cases a with
    | nil => simp [hy.symm]
    | cons x a =>
      simp only [List.head?_cons, Option.getD_some, List.tail_cons]
      by_cases hxy : x = y
      · subst hxy
        simp only [ne_eq, not_true_eq_false, if_false, hy]
        rw [ih a (fun hm => h (by simp [hm])), List.cons_prefix_cons]
        simp
      · simp only [ne_eq, hxy, not_false_eq_true, if_true]
        rw [List.cons_prefix_cons]
        simp [Ne.symm hxy]

theorem cut_unique {d e x y : Bytes} (hd : (47 : UInt8) ∉ d) (he : (47 : UInt8) ∉ e)
    (hx : x = [] ∨ ∃ r, x = 47 :: r) (hy : y = [] ∨ ∃ r, y = 47 :: r) (h : d ++ x = e ++ y) : d = e ∧ x = y := by
  induction d generalizing e with
  | nil =>
    cases e with
    | nil => exact ⟨rfl, h⟩
    | cons c e =>
      rw [List.nil_append, List.cons_append] at h
      rcases hx with rfl | ⟨r, rfl⟩
      · cases h
      · injection h with h1 _; subst h1; exact absurd (by simp) he
  | cons c d ih =>
    cases e with
    | nil =>
      rw [List.nil_append, List.cons_append] at h
      rcases hy with rfl | ⟨r, rfl⟩
      · cases h
      · injection h with h1 _; subst h1; exact absurd (by simp) hd
    | cons c' e =>
      rw [List.cons_append, List.cons_append] at h
      injection h with h1 h2
      obtain ⟨h3, h4⟩ := ih (fun hm => hd (by simp [hm])) (fun hm => he (by simp [hm])) h2
      exact ⟨by rw [h1, h3], h4⟩

theorem joinSlash_cons (d : Bytes) (l : List Bytes) : ∃ x, joinSlash (d :: l) = d ++ x ∧
    ((l = [] ∧ x = []) ∨ (l ≠ [] ∧ x = 47 :: joinSlash l)) := by
  cases l with
  | nil => exact ⟨[], by simp [joinSlash], Or.inl ⟨rfl, rfl⟩⟩
  | cons e l => exact ⟨47 :: joinSlash (e :: l), by rw [joinSlash]; simp, Or.inr ⟨by simp, rfl⟩⟩

theorem joinSlash_prefix (Q : List Bytes) : ∀ P : List Bytes, Q ≠ [] → P ≠ [] → (∀ d ∈ Q, plain d) → (∀ d ∈ P, plain d) →
    ((joinSlash P = joinSlash Q ∨ ∃ r, joinSlash P = joinSlash Q ++ 47 :: r) ↔ Q <+: P) := by
  induction Q with
  | nil => intro P h; exact absurd rfl h
  | cons d Q ih =>
    intro P _ hP hq hp
    cases P with
    | nil => exact absurd rfl hP
    | cons e P =>
      obtain ⟨x, ex, hx⟩ := joinSlash_cons d Q
      obtain ⟨y, ey, hy⟩ := joinSlash_cons e P
      have hd := hq d (by simp)
      have he := hp e (by simp)
      rw [ex, ey, List.cons_prefix_cons]
      have hy' : y = [] ∨ ∃ r, y = 47 :: r := by
        rcases hy with ⟨_, h⟩ | ⟨_, h⟩
        · exact Or.inl h
        · exact Or.inr ⟨_, h⟩
      constructor
      · intro h
        -- write the right side as d ++ z
        obtain ⟨z, hz, hz2⟩ : ∃ z, e ++ y = d ++ z ∧ (z = x ∨ ∃ r, z = x ++ 47 :: r) := by
          rcases h with h | ⟨r, h⟩
          · exact ⟨x, h, Or.inl rfl⟩
          · exact ⟨x ++ 47 :: r, by rw [h]; simp, Or.inr ⟨r, rfl⟩⟩
        have hz' : z = [] ∨ ∃ r, z = 47 :: r := by
          rcases hz2 with rfl | ⟨r, rfl⟩
          · rcases hx with ⟨_, h⟩ | ⟨_, h⟩
            · exact Or.inl h
            · exact Or.inr ⟨_, h⟩
          · rcases hx with ⟨_, h⟩ | ⟨_, h⟩
            · exact Or.inr ⟨r, by rw [h]; rfl⟩
            · exact Or.inr ⟨joinSlash Q ++ 47 :: r, by rw [h]; rfl⟩
        obtain ⟨e1, e2⟩ := cut_unique he.2 hd.2 hy' hz' hz
        refine ⟨e1.symm, ?_⟩
        rcases hx with ⟨hQ, _⟩ | ⟨hQ, h⟩
        · rw [hQ]; exact List.nil_prefix
        · have hP' : P ≠ [] := by
            rintro rfl
            rcases hy with ⟨_, hy⟩ | ⟨hc, _⟩
            · rw [hy] at e2
              rcases hz2 with rfl | ⟨r, rfl⟩ <;> rw [h] at e2 <;> simp at e2
            · exact hc rfl
          have hy2 : y = 47 :: joinSlash P := by
            rcases hy with ⟨hc, _⟩ | ⟨_, hy⟩
            · exact absurd hc hP'
            · exact hy
          apply (ih P hQ hP' (fun d hd => hq d (by simp [hd])) (fun d hd => hp d (by simp [hd]))).mp
          rcases hz2 with rfl | ⟨r, rfl⟩
          · left; rw [hy2, h] at e2; injection e2
          · right; refine ⟨r, ?_⟩; rw [hy2, h] at e2; injection e2
      · rintro ⟨rfl, hpre⟩
        rcases hx with ⟨hQ, hx⟩ | ⟨hQ, h⟩
        · subst hQ
          rcases hy with ⟨_, hy⟩ | ⟨_, hy⟩
          · left; rw [hx, hy]
          · right; exact ⟨joinSlash P, by rw [hx, hy]; simp⟩
        · have hP' : P ≠ [] := by rintro rfl; exact hQ (List.prefix_nil.mp hpre)
          have hy2 : y = 47 :: joinSlash P := by
            rcases hy with ⟨hc, _⟩ | ⟨_, hy⟩
            · exact absurd hc hP'
            · exact hy
          rcases (ih P hQ hP' (fun d hd => hq d (by simp [hd])) (fun d hd => hp d (by simp [hd]))).mpr hpre with h1 | ⟨r, h1⟩
          · left; rw [hy2, h, h1]
          · right; exact ⟨r, by rw [hy2, h, h1]; simp⟩

/-- Components without slash nor null byte (what any path other than a URL is made of). -/
def plainPath (p : PathT) : Prop := ∀ d ∈ p.dirs, d ≠ [] ∧ (47 : UInt8) ∉ d ∧ (0 : UInt8) ∉ d

/-- How the texts are compared: a conversion of each byte that keeps slashes, makes none, and makes no null byte
(the identity for case sensitive comparison, conversion to upper case otherwise). -/
structure CaseMap (f : UInt8 → UInt8) : Prop where
  slash : ∀ c, f c = 47 ↔ c = 47
  nul : ∀ c, f c = 0 → c = 0

theorem map_joinSlash (f : UInt8 → UInt8) (hf : f 47 = 47) (l : List Bytes) :
    (joinSlash l).map f = joinSlash (l.map (List.map f)) := by
  induction l with
  | nil => rfl
  | cons d l ih =>
    cases l with
    | nil => rfl
    | cons e l =>
      have h1 : ∀ (d e : Bytes) (l : List Bytes), joinSlash (d :: e :: l) = d ++ 47 :: joinSlash (e :: l) := by
        intro d e l; rw [joinSlash]; simp
      rw [h1, List.map_append, List.map_cons, ih, hf]
      simp only [List.map_cons]
      rw [h1]

theorem joinSlash_nul (l : List Bytes) (h : ∀ d ∈ l, (0 : UInt8) ∉ d) : (0 : UInt8) ∉ joinSlash l := by
  induction l with
  | nil => simp [joinSlash]
  | cons d l ih =>
    obtain ⟨x, e, hx⟩ := joinSlash_cons d l
    rw [e]
    rcases hx with ⟨_, rfl⟩ | ⟨_, rfl⟩
    · simpa using h d (by simp)
    · simp only [List.mem_append, List.mem_cons, not_or]
      exact ⟨h d (by simp), by decide, ih (fun d hd => h d (by simp [hd]))⟩

theorem joinSlash_eq_nil (l : List Bytes) (h : ∀ d ∈ l, d ≠ []) (hj : joinSlash l = []) : l = [] := by
  cases l with
  | nil => rfl
  | cons d l =>
    obtain ⟨x, e, _⟩ := joinSlash_cons d l
    rw [e] at hj
    have := h d (by simp)
    simp at hj; exact absurd hj.1 this

/-- The sub-directory test answers whether both paths are of the same kind (absolute, relative) and the components of
the first start with those of the second — provided the second is not a relative path of a single character. -/
theorem C26_subdir_partial (f : UInt8 → UInt8) (hf : CaseMap f) (p q : PathT) (hp : plainPath p) (hq : plainPath q)
    (hpn : p.relative = true → p.dirs ≠ []) (hqn : q.relative = true → q.dirs ≠ [])
    (hone : q.relative = true → q.display.length ≠ 1) :
    p.isSubdirOf (List.map f) q = true ↔
      p.relative = q.relative ∧ q.dirs.map (List.map f) <+: p.dirs.map (List.map f) := by
  have plainF : ∀ {p : PathT}, plainPath p → ∀ d ∈ p.dirs.map (List.map f), plain d ∧ (0 : UInt8) ∉ d := by
    intro p hp d hd
    obtain ⟨e, he, rfl⟩ := List.mem_map.mp hd
    obtain ⟨h1, h2, h3⟩ := hp e he
    refine ⟨⟨by simpa using h1, ?_⟩, ?_⟩
    · intro hm; obtain ⟨c, hc, hcf⟩ := List.mem_map.mp hm
      rw [hf.slash] at hcf; subst hcf; exact h2 hc
    · intro hm; obtain ⟨c, hc, hcf⟩ := List.mem_map.mp hm
      have := hf.nul c hcf; subst this; exact h3 hc
  have hf47 : f 47 = 47 := (hf.slash 47).mpr rfl
  have disp : ∀ p : PathT, p.display.map f = (if p.relative then [] else [47]) ++ joinSlash (p.dirs.map (List.map f)) := by
    intro p
    unfold PathT.display
    rw [List.map_append, map_joinSlash f hf47]
    cases p.relative <;> simp [hf47]
  have hP := plainF hp
  have hQ := plainF hq
  have hql : (q.display.map f).length = q.display.length := by simp
  have hPn : p.relative = true → p.dirs.map (List.map f) ≠ [] := fun h => by simpa using hpn h
  have hQn : q.relative = true → q.dirs.map (List.map f) ≠ [] := fun h => by simpa using hqn h
  have hone' : q.relative = true → (q.display.map f).length ≠ 1 := fun h => by rw [hql]; exact hone h
  unfold PathT.isSubdirOf
  rw [disp p, disp q] at *
  generalize p.dirs.map (List.map f) = P at *
  generalize q.dirs.map (List.map f) = Q at *
  have hjp : ∀ c r, joinSlash P = c :: r → c ≠ 47 := by
    intro c r h
    cases P with
    | nil => simp [joinSlash] at h
    | cons d l =>
      obtain ⟨c', r', e, hc⟩ := joinSlash_head d l (hP d (by simp)).1
      rw [e] at h; injection h with h _; rw [← h]; exact hc
  have hjq : ∀ c r, joinSlash Q = c :: r → c ≠ 47 := by
    intro c r h
    cases Q with
    | nil => simp [joinSlash] at h
    | cons d l =>
      obtain ⟨c', r', e, hc⟩ := joinSlash_head d l (hQ d (by simp)).1
      rw [e] at h; injection h with h _; rw [← h]; exact hc
  generalize hme : (if p.relative then ([] : Bytes) else [47]) ++ joinSlash P = me at *
  generalize hyou : (if q.relative then ([] : Bytes) else [47]) ++ joinSlash Q = you at *
  have hnul : (0 : UInt8) ∉ you := by
    rw [← hyou]
    simp only [List.mem_append, not_or]
    exact ⟨by cases q.relative <;> simp, joinSlash_nul Q (fun d hd => (hQ d hd).2)⟩
  -- the test as an equation between texts
  have test : (if me.length ≥ you.length then if strncmpEq you.length me you = true then
        (if me.length > you.length then
          (decide (you.length > 1) && me[you.length]? == some 47) || (decide (you.length = 1) && you[0]? == some 47)
        else true) else false else false) = true ↔
      (me = you ∨ ∃ c r, me = you ++ c :: r ∧ ((you.length > 1 ∧ c = 47) ∨ you = [47])) := by
    have hsn := strncmpEq_iff you me hnul
    constructor
    · intro h
      split at h
      · split at h
        · rename_i hle hpre
          obtain ⟨t, ht⟩ := hsn.mp hpre
          cases t with
          | nil => left; rw [← ht]; simp
          | cons c r =>
            right
            refine ⟨c, r, ht.symm, ?_⟩
            rw [if_pos (by rw [← ht]; simp)] at h
            rw [← ht, List.getElem?_append_right (le_refl _), Nat.sub_self] at h
            simp only [List.getElem?_cons_zero, Bool.or_eq_true, Bool.and_eq_true, decide_eq_true_eq, beq_iff_eq,
              Option.some.injEq] at h
            rcases h with h | h
            · exact Or.inl h
            · right
              match you, h.1, h.2 with
              | [x], _, h2 => simp at h2; rw [h2]
        · cases h
      · cases h
    · rintro (h | ⟨c, r, h, hc⟩)
      · subst h; rw [if_pos (le_refl _), if_pos (hsn.mpr (List.prefix_refl _)), if_neg (by simp)]
      · rw [if_pos (by rw [h]; simp), if_pos (hsn.mpr (by rw [h]; exact List.prefix_append _ _)), if_pos (by rw [h]; simp), h,
          List.getElem?_append_right (le_refl _), Nat.sub_self]
        rcases hc with ⟨h1, h2⟩ | h1
        · simp [h1, h2]
        · simp [h1]
  rw [test]
  cases hpr : p.relative <;> cases hqr : q.relative <;> simp only [hpr, hqr] at *
  · -- both absolute
    simp only [Bool.false_eq_true, if_false, List.singleton_append] at hme hyou
    simp only [true_and]
    by_cases hQe : Q = []
    · subst hQe
      simp only [joinSlash] at hyou
      subst hyou; subst hme
      constructor
      · intro _; exact List.nil_prefix
      · intro _
        cases hj : joinSlash P with
        | nil => left; rfl
        | cons c r => right; exact ⟨c, r, rfl, Or.inr rfl⟩
    · have hQj : joinSlash Q ≠ [] := fun h => hQe (joinSlash_eq_nil Q (fun d hd => (hQ d hd).1.1) h)
      have hyl : you.length > 1 := by
        rw [← hyou]; have := List.length_pos_iff.mpr hQj; simp; omega
      have hyne : you ≠ [47] := by rintro h; rw [h] at hyl; simp at hyl
      by_cases hPe : P = []
      · subst hPe
        constructor
        · rintro (h | ⟨c, r, h, _⟩)
          · rw [← hme, ← hyou] at h; simp only [joinSlash, List.cons.injEq, true_and] at h; exact absurd h.symm hQj
          · rw [← hme, ← hyou] at h; simp only [joinSlash, List.cons_append, List.cons.injEq, true_and] at h
            exact absurd h (by simp)
        · intro h; exact absurd (List.prefix_nil.mp h) hQe
      · rw [← joinSlash_prefix Q P hQe hPe (fun d hd => (hQ d hd).1) (fun d hd => (hP d hd).1)]
        constructor
        · rintro (h | ⟨c, r, h, hc⟩)
          · left; rw [← hme, ← hyou] at h; injection h
          · right
            rcases hc with ⟨_, rfl⟩ | hc
            · refine ⟨r, ?_⟩; rw [← hme, ← hyou] at h; injection h
            · exact absurd hc hyne
        · rintro (h | ⟨r, h⟩)
          · left; rw [← hme, ← hyou, h]
          · right; exact ⟨47, r, by rw [← hme, ← hyou, h]; rfl, Or.inl ⟨hyl, rfl⟩⟩
  · -- absolute, relative
    simp only [Bool.false_eq_true, if_false, List.singleton_append, if_true, List.nil_append] at hme hyou
    simp only [Bool.false_eq_true, false_and, iff_false]
    obtain ⟨d, l, hQ'⟩ := List.exists_cons_of_ne_nil (hQn trivial)
    obtain ⟨c', r', e, hc'⟩ := joinSlash_head d l (hQ d (by simp [hQ'])).1
    rw [← hQ', hyou] at e
    rintro (h | ⟨c, r, h, _⟩)
    · rw [← hme, e] at h; injection h with h _; exact hc' h.symm
    · rw [← hme, e] at h; injection h with h _; exact hc' h.symm
  · -- relative, absolute
    simp only [Bool.false_eq_true, if_false, List.singleton_append, if_true, List.nil_append] at hme hyou
    simp only [Bool.true_eq_false, false_and, iff_false]
    rintro (h | ⟨c, r, h, _⟩)
    · rw [← hme, ← hyou] at h; exact hjp _ _ h rfl
    · rw [← hme, ← hyou] at h; exact hjp _ _ h rfl
  · -- both relative
    simp only [if_true, List.nil_append] at hme hyou
    simp only [true_and]
    have hQe := hQn trivial
    have hPe := hPn trivial
    have hQj : joinSlash Q ≠ [] := fun h => hQe (joinSlash_eq_nil Q (fun d hd => (hQ d hd).1.1) h)
    have hyl : you.length > 1 := by
      have h1 := hone' trivial
      have := List.length_pos_iff.mpr hQj
      rw [hyou] at this; omega
    have hyne : you ≠ [47] := by rintro h; rw [h] at hyl; simp at hyl
    rw [← joinSlash_prefix Q P hQe hPe (fun d hd => (hQ d hd).1) (fun d hd => (hP d hd).1), hme, hyou]
    constructor
    · rintro (h | ⟨c, r, h, hc⟩)
      · exact Or.inl h
      · rcases hc with ⟨_, rfl⟩ | hc
        · exact Or.inr ⟨r, h⟩
        · exact absurd hc hyne
    · rintro (h | ⟨r, h⟩)
      · exact Or.inl h
      · exact Or.inr ⟨47, r, h, Or.inl ⟨hyl, rfl⟩⟩

/-- Finding: "a/b" is not reported as a sub-directory of "a". -/
theorem C26_one_char_counterexample : ∃ p q, pathOf (txt "a/b") false = .ok p ∧ pathOf (txt "a") false = .ok q ∧
    p.isSubdirOf id q = false ∧ q.dirs <+: p.dirs := by
  refine ⟨⟨[txt "a", txt "b"], true, false⟩, ⟨[txt "a"], true, false⟩, by decide, by decide, by decide, ⟨[txt "b"], rfl⟩⟩

example : ∃ p q, pathOf (txt "/usr/lib/x") false = .ok p ∧ pathOf (txt "/usr/lib") false = .ok q ∧ plainPath p ∧ plainPath q ∧
    p.isSubdirOf id q = true := by
  refine ⟨⟨[txt "usr", txt "lib", txt "x"], false, false⟩, ⟨[txt "usr", txt "lib"], false, false⟩, by decide, by decide, ?_, ?_, by decide⟩ <;>
    (unfold plainPath; decide)

end Dar
