import Verif.Lemmas.ConfigFile2
import Mathlib.Tactic.Tauto
namespace Dar

/-! ### hide_file -/

/-- a position inside a piece, or the end -/
def HideAt (ps : List Morceau) (h : HidePos) : Prop := (∃ p, ps[h.index]? = some p ∧ h.rel < p.size) ∨ (h.index = ps.length ∧ h.rel = 0)

theorem hide_split {T : Bytes} {ps : List Morceau} (hp : PiecesFrom T.length 0 ps) {i : Nat} {p : Morceau} (h : ps[i]? = some p) :
    ∃ a b, ps = a ++ p :: b ∧ a.length = i ∧ p.off = (hideView T a).length ∧ 0 < p.size ∧ p.start + p.size ≤ T.length ∧
      hideView T ps = hideView T a ++ ((T.drop p.start).take p.size ++ hideView T b) := by
  have hi := (List.getElem?_eq_some_iff.mp h).1
  have hg := (List.getElem?_eq_some_iff.mp h).2
  refine ⟨ps.take i, ps.drop (i + 1), ?_, by simp; omega, ?_⟩
  · have h1 : ps.drop i = p :: ps.drop (i + 1) := by rw [← hg]; exact List.drop_eq_getElem_cons hi
    rw [← h1]; simp
  · have he : ps = ps.take i ++ p :: ps.drop (i + 1) := by
      have h1 : ps.drop i = p :: ps.drop (i + 1) := by rw [← hg]; exact List.drop_eq_getElem_cons hi
      rw [← h1]; simp
    have hp' := hp
    rw [he, piecesFrom_append (T := T) (Nat.le_refl _)] at hp'
    obtain ⟨-, h2, h3, h4, -⟩ := hp'
    refine ⟨by rw [h2]; simp, h3, h4, ?_⟩
    conv_lhs => rw [he]
    rw [hideView_append]
    simp [hideView]
theorem hide_end {T : Bytes} {ps : List Morceau} (hp : PiecesFrom T.length 0 ps) : hidePosition ps ⟨ps.length, 0⟩ = (hideView T ps).length := by
  unfold hidePosition
  have hn : ps[ps.length]? = none := by simp
  simp only [hn]
  clear hn
  rcases List.eq_nil_or_concat ps with h0 | ⟨m, x, hx⟩
  · subst h0; rfl
  · rw [List.concat_eq_append] at hx
    subst hx
    have hp' := hp
    rw [piecesFrom_append (T := T) (Nat.le_refl _)] at hp'
    obtain ⟨-, h2, h3, h4, -⟩ := hp'
    simp only [List.getLast?_append, List.getLast?_singleton, Option.some_or]
    rw [hideView_append, List.length_append]
    have : (hideView T [x]).length = x.size := by simp [hideView]; omega
    rw [this]; omega
/-- the next piece -/
theorem hide_next {T : Bytes} {a b : List Morceau} {p : Morceau} (hp : PiecesFrom T.length 0 (a ++ p :: b)) :
    HideAt (a ++ p :: b) ⟨a.length + 1, 0⟩ ∧ hidePosition (a ++ p :: b) ⟨a.length + 1, 0⟩ = p.off + p.size := by
  have hp' := hp
  rw [piecesFrom_append (T := T) (Nat.le_refl _)] at hp'
  obtain ⟨-, h2, h3, h4, h5⟩ := hp'
  cases b with
  | nil =>
    refine ⟨Or.inr ⟨by simp, rfl⟩, ?_⟩
    unfold hidePosition
    have : (a ++ [p])[a.length + 1]? = none := by simp
    simp only [this]
    simp
  | cons q b =>
    have : (a ++ p :: q :: b)[a.length + 1]? = some q := by simp
    refine ⟨Or.inl ⟨q, this, h5.2.1⟩, ?_⟩
    unfold hidePosition
    simp only [this]
    rw [h5.1, h2]; simp
/-- a byte -/
theorem hide_read_byte {T : Bytes} {ps : List Morceau} (hp : PiecesFrom T.length 0 ps) {h : HidePos} (hh : HideAt ps h) :
    ∃ h', hideRead T ps h 1 = .ok (((hideView T ps).drop (hidePosition ps h)).take 1, h') ∧ HideAt ps h' ∧
      hidePosition ps h' = hidePosition ps h + (((hideView T ps).drop (hidePosition ps h)).take 1).length := by
  rcases hh with ⟨p, hpi, hrel⟩ | ⟨hi, hr⟩
  · obtain ⟨a, b, hps, hal, hoff, hsz, hlim, hview⟩ := hide_split hp hpi
    have hpos : hidePosition ps h = p.off + h.rel := by unfold hidePosition; simp only [hpi]
    have hslen : ((T.drop p.start).take p.size).length = p.size := by simp; omega
    have hby : ((hideView T ps).drop (hidePosition ps h)).take 1 = (T.drop (p.start + h.rel)).take 1 := by
      rw [hpos, hview, hoff, ← List.drop_drop, List.drop_left, List.drop_append_of_le_length (by omega), List.take_append_of_le_length (by simp; omega), List.drop_take,
        List.take_take, List.drop_drop]
      congr 1
      omega
    have hbl : ((T.drop (p.start + h.rel)).take 1).length = 1 := by simp; omega
    have hm : min (p.size - h.rel) (1 - ([] : Bytes).length) = 1 := by simp; omega
    rw [hby, hbl, hpos]
    -- the second turn
    have hstop : ∀ (n : Nat) (g : HidePos), hideLoop T ps 1 (n + 1) ((T.drop (p.start + h.rel)).take 1) g = .ok ((T.drop (p.start + h.rel)).take 1, g) := by
      intro n g
      unfold hideLoop
      cases ps[g.index]? with
      | none => rfl
      | some q => dsimp only; rw [if_neg (by omega)]
    have hread : hideRead T ps h 1 = .ok ((T.drop (p.start + h.rel)).take 1, if h.rel + 1 ≥ p.size then ⟨h.index + 1, 0⟩ else ⟨h.index, h.rel + 1⟩) := by
      unfold hideRead
      unfold hideLoop
      rw [hpi]
      dsimp only
      rw [if_pos (by simp), hm, if_neg (by omega), List.nil_append, hbl]
      exact hstop _ _
    refine ⟨_, hread, ?_⟩
    by_cases hge : h.rel + 1 ≥ p.size
    · rw [if_pos hge]
      have := hide_next (T := T) (a := a) (b := b) (p := p) (by rw [← hps]; exact hp)
      rw [← hps, hal] at this
      exact ⟨this.1, by rw [this.2]; omega⟩
    · rw [if_neg hge]
      refine ⟨Or.inl ⟨p, hpi, by simpa using hge⟩, ?_⟩
      unfold hidePosition
      simp only [hpi]
      omega
  · have hnone : ps[h.index]? = none := by simp [hi]
    have hh' : h = ⟨ps.length, 0⟩ := by cases h; simp at hi hr; simp [hi, hr]
    have hpos : hidePosition ps h = (hideView T ps).length := by rw [hh']; exact hide_end hp
    rw [hpos]
    have hem : ((hideView T ps).drop (hideView T ps).length).take 1 = [] := by simp
    rw [hem]
    refine ⟨h, ?_, Or.inr ⟨hi, hr⟩, by rw [hpos]; simp⟩
    unfold hideRead
    unfold hideLoop
    rw [hnone]

theorem hideFind_spec {T : Bytes} (hl : lim ≤ T.length) (ps : List Morceau) : ∀ (off i pos : Nat), PiecesFrom lim off ps → off ≤ pos →
    (pos < off + (hideView T ps).length → ∃ j p, hideFind ps i pos = some (i + j, p) ∧ ps[j]? = some p ∧ p.off ≤ pos ∧ pos < p.off + p.size) ∧
    (off + (hideView T ps).length ≤ pos → hideFind ps i pos = none) := by
  induction ps with
  | nil =>
    intro off i pos _ h
    refine ⟨fun h' => ?_, fun _ => rfl⟩
    simp [hideView] at h'
    omega
  | cons p ps ih =>
    intro off i pos hp h
    obtain ⟨h1, h2, h3, h4⟩ := hp
    have hv : (hideView T (p :: ps)).length = p.size + (hideView T ps).length := by
      simp only [hideView, List.flatMap_cons, List.length_append, List.length_take, List.length_drop]; omega
    rw [hv]
    unfold hideFind
    by_cases hc : p.off + p.size - 1 < pos
    · rw [if_pos hc]
      obtain ⟨g1, g2⟩ := ih (off + p.size) (i + 1) pos h4 (by omega)
      refine ⟨fun h' => ?_, fun h' => g2 (by omega)⟩
      obtain ⟨j, q, hj, hq, hr⟩ := g1 (by omega)
      exact ⟨j + 1, q, by rw [hj, Nat.add_assoc, Nat.add_comm 1 j], by simpa using hq, hr⟩
    · rw [if_neg hc]
      exact ⟨fun _ => ⟨0, p, rfl, rfl, by omega, by omega⟩, fun h' => by omega⟩
theorem hide_skip {T : Bytes} {ps : List Morceau} (hp : PiecesFrom T.length 0 ps) (h : HidePos) (pos : Nat) :
    (pos < (hideView T ps).length → ∃ h', hideSkip ps h pos = .ok (h', true) ∧ HideAt ps h' ∧ hidePosition ps h' = pos) ∧
    ((hideView T ps).length ≤ pos → hideSkip ps h pos = .ok (h, false)) := by
  obtain ⟨g1, g2⟩ := hideFind_spec (T := T) (Nat.le_refl _) ps 0 0 pos hp (Nat.zero_le _)
  rw [Nat.zero_add] at g1 g2
  constructor
  · intro hlt
    obtain ⟨j, p, hj, hq, h1, h2⟩ := g1 hlt
    rw [Nat.zero_add] at hj
    refine ⟨⟨j, pos - p.off⟩, ?_, Or.inl ⟨p, hq, by dsimp only; omega⟩, ?_⟩
    · unfold hideSkip
      rw [hj]
      dsimp only
      rw [if_neg (by omega)]
    · unfold hidePosition
      simp only [hq]
      omega
  · intro hge
    unfold hideSkip
    rw [g2 hge]

/-! ### words -/

theorem quoteIn_other {s : WordSt} {a q : UInt8} {qs : Bytes} (h : a ≠ q) (h2 : a ≠ 32) : quoteIn s a q qs = { s with quotes := a :: q :: qs, current := s.current ++ [a] } := by
  unfold quoteIn; rw [if_neg h, if_pos h2]
/-- the inside of a word -/
theorem word_body {q : UInt8} {b w : Bytes} (h : WordBody q b w) : ∀ (W : List Bytes) (c qs : Bytes),
    b.foldl wordStep ⟨W, c, q :: qs, false⟩ = ⟨W, c ++ w, q :: qs, false⟩ := by
  induction h with
  | nil => intro W c qs; simp
  | @esc q a t w h ih =>
    intro W c qs
    have h1 : wordStep ⟨W, c, q :: qs, false⟩ 92 = ⟨W, c, q :: qs, true⟩ := rfl
    have h2 : wordStep ⟨W, c, q :: qs, true⟩ a = ⟨W, c ++ [a], q :: qs, false⟩ := rfl
    rw [List.foldl_cons, h1, List.foldl_cons, h2, ih]; simp
  | @raw q a t w ha h ih =>
    intro W c qs
    have h1 : wordStep ⟨W, c, q :: qs, false⟩ a = ⟨W, c ++ [a], q :: qs, false⟩ := by
      unfold wordStep
      rcases ha with ha | ⟨rfl, hq⟩
      · simp [PlainChar] at ha
        simp [ha]
      · simp [quoteIn, hq.symm]
    rw [List.foldl_cons, h1, ih]; simp
  | @nested q r i v t w hr hne hi h ih1 ih2 =>
    intro W c qs
    have hr' : r ≠ 92 ∧ r ≠ 9 ∧ r ≠ 10 ∧ r ≠ 13 ∧ r ≠ 32 ∧ (r = 34 ∨ r = 39 ∨ r = 96) := by
      simp [IsQuote] at hr
      rcases hr with rfl | rfl | rfl <;> decide
    obtain ⟨e1, e2, e3, e4, e5, e6⟩ := hr'
    have h1 : wordStep ⟨W, c, q :: qs, false⟩ r = ⟨W, c ++ [r], r :: q :: qs, false⟩ := by
      unfold wordStep
      simp only [Bool.false_eq_true, if_false, e1, e2, e3, e4, or_self, e6, or_true, if_true]
      rw [quoteIn_other hne e5]
    have h2 : wordStep ⟨W, c ++ [r] ++ v, r :: q :: qs, false⟩ r = ⟨W, c ++ [r] ++ v ++ [r], q :: qs, false⟩ := by
      unfold wordStep
      simp only [Bool.false_eq_true, if_false, e1, e2, e3, e4, or_self, e6, or_true, if_true]
      unfold quoteIn
      simp
    rw [List.foldl_cons, h1, List.foldl_append, ih1, List.foldl_cons, h2, ih2]; simp
theorem word_sep {a : UInt8} (ha : IsSep a) (W : List Bytes) : wordStep ⟨W, [], [], false⟩ a = ⟨W, [], [], false⟩ := by
  simp [IsSep] at ha
  rcases ha with rfl | rfl | rfl | rfl <;> rfl
theorem word_close {a : UInt8} (ha : IsSep a) (W : List Bytes) (c : Bytes) : wordStep ⟨W, c, [32], false⟩ a = ⟨W ++ [c], [], [], false⟩ := by
  simp [IsSep] at ha
  rcases ha with rfl | rfl | rfl | rfl <;> rfl
theorem written_fold {text : Bytes} {ws : List Bytes} (h : Written text ws) : ∀ W : List Bytes, (text ++ [32]).foldl wordStep ⟨W, [], [], false⟩ = ⟨W ++ ws, [], [], false⟩ := by
  have h32 : IsSep 32 := by simp [IsSep]
  induction h with
  | nil => intro W; simp [word_sep h32]
  | sep ha h ih => intro W; rw [List.cons_append, List.foldl_cons, word_sep ha, ih]
  | @quoted q b w t ws hq hb h ih =>
    intro W
    have h1 : wordStep ⟨W, [], [], false⟩ q = ⟨W, [], [q], false⟩ := by
      simp [IsQuote] at hq
      rcases hq with rfl | rfl | rfl <;> rfl
    have h2 : wordStep ⟨W, w, [q], false⟩ q = ⟨W ++ [w], [], [], false⟩ := by
      simp [IsQuote] at hq
      rcases hq with rfl | rfl | rfl <;> rfl
    rw [List.cons_append, List.foldl_cons, h1, List.append_assoc, List.foldl_append, word_body hb, List.nil_append, List.cons_append, List.foldl_cons, h2, ih]
    simp
  | @plain a b w t ws ha hb hs h ih =>
    intro W
    have h1 : wordStep ⟨W, [], [], false⟩ a = ⟨W, [a], [32], false⟩ := by
      simp [PlainChar] at ha
      unfold wordStep
      simp [ha]
    have h3 : (t ++ [32]).foldl wordStep ⟨W, [a] ++ w, [32], false⟩ = (t ++ [32]).foldl wordStep ⟨W ++ [[a] ++ w], [], [], false⟩ := by
      rcases hs with rfl | ⟨c, t', rfl, hc⟩
      · simp [word_close h32, word_sep h32]
      · show List.foldl wordStep _ (c :: (t' ++ [32])) = List.foldl wordStep _ (c :: (t' ++ [32]))
        rw [List.foldl_cons, List.foldl_cons, word_close hc, word_sep hc]
    rw [List.cons_append, List.foldl_cons, h1, List.append_assoc, List.foldl_append, word_body hb, h3, ih]
    simp
theorem written_split {text : Bytes} {ws : List Bytes} (h : Written text ws) : splitWords text = .ok ws := by
  unfold splitWords
  rw [written_fold h []]
  simp
theorem quoted_body (w : Bytes) : WordBody 34 (w.flatMap (fun a => [92, a])) w := by
  induction w with
  | nil => exact .nil
  | cons a w ih => exact .esc ih
theorem written_quoted {w t : Bytes} {ws : List Bytes} (h : Written t ws) : Written (quotedWord w ++ t) (w :: ws) := by
  have := Written.quoted (q := 34) (by simp [IsQuote]) (quoted_body w) h
  simpa [quotedWord] using this
theorem written_all (ws : List Bytes) : Written (ws.flatMap (fun w => quotedWord w ++ [32])) ws := by
  induction ws with
  | nil => exact .nil
  | cons w ws ih =>
    rw [List.flatMap_cons, List.append_assoc]
    exact written_quoted (.sep (by simp [IsSep]) ih)

/-! ### inclusions -/

theorem incl_opt {files : Bytes → Option (List ConfOpt)} {d : Nat} {stack : List Bytes} {o : Bytes} {l : List ConfOpt} :
    inclExpand files d stack (.opt o :: l) = (inclExpand files d stack l).bind fun r => .ok (o :: r) := by
  conv_lhs => unfold inclExpand
  rfl
theorem incl_nil {files : Bytes → Option (List ConfOpt)} {d : Nat} {stack : List Bytes} : inclExpand files d stack [] = .ok [] := by
  unfold inclExpand; rfl
theorem incl_incl {files : Bytes → Option (List ConfOpt)} {d : Nat} {stack : List Bytes} {f : Bytes} {l opts : List ConfOpt} (hf : f ∉ stack) (ho : files f = some opts) :
    inclExpand files (d + 1) stack (.incl f :: l) = (inclExpand files d (f :: stack) opts).bind fun r1 => (inclExpand files (d + 1) stack l).bind fun r2 => .ok (r1 ++ r2) := by
  conv_lhs => unfold inclExpand
  rw [if_neg hf, ho]
  rfl
theorem incl_refused {files : Bytes → Option (List ConfOpt)} {d : Nat} {stack : List Bytes} {f : Bytes} {l : List ConfOpt} (h : f ∈ stack ∨ files f = none) :
    inclExpand files (d + 1) stack (.incl f :: l) = .error .range := by
  unfold inclExpand
  by_cases hf : f ∈ stack
  · rw [if_pos hf]
  · rw [if_neg hf]
    rcases h with h | h
    · exact absurd h hf
    · rw [h]

/-- what is accepted is right -/
theorem incl_sound (files : Bytes → Option (List ConfOpt)) (d : Nat) : ∀ (l : List ConfOpt) (stack ws : List Bytes), inclExpand files d stack l = .ok ws → Expands files l ws := by
  induction d with
  | zero =>
    intro l
    induction l with
    | nil => intro stack ws h; rw [incl_nil] at h; cases h; exact .nil
    | cons o l ih =>
      intro stack ws h
      cases o with
      | opt o =>
        rw [incl_opt] at h
        cases hr : inclExpand files 0 stack l with
        | error e => rw [hr] at h; cases h
        | ok r => rw [hr] at h; cases h; exact .opt (ih _ _ hr)
      | incl f => unfold inclExpand at h; cases h
  | succ d ihd =>
    intro l
    induction l with
    | nil => intro stack ws h; rw [incl_nil] at h; cases h; exact .nil
    | cons o l ih =>
      intro stack ws h
      cases o with
      | opt o =>
        rw [incl_opt] at h
        cases hr : inclExpand files (d + 1) stack l with
        | error e => rw [hr] at h; cases h
        | ok r => rw [hr] at h; cases h; exact .opt (ih _ _ hr)
      | incl f =>
        by_cases hf : f ∈ stack
        · rw [incl_refused (Or.inl hf)] at h; cases h
        · cases ho : files f with
          | none => rw [incl_refused (Or.inr ho)] at h; cases h
          | some opts =>
            rw [incl_incl hf ho] at h
            cases h1 : inclExpand files d (f :: stack) opts with
            | error e => rw [h1] at h; cases h
            | ok r1 =>
              rw [h1] at h
              change (inclExpand files (d + 1) stack l).bind _ = _ at h
              cases h2 : inclExpand files (d + 1) stack l with
              | error e => rw [h2] at h; cases h
              | ok r2 => rw [h2] at h; cases h; exact .incl ho (ihd _ _ _ h1) (ih _ _ h2)

/-- the names not on the stack -/
def namesLeft (names stack : List Bytes) : Nat := (names.filter (fun f => decide (f ∉ stack))).length
theorem namesLeft_push {names stack : List Bytes} {f : Bytes} (hf : f ∈ names) (hs : f ∉ stack) : namesLeft names (f :: stack) < namesLeft names stack := by
  unfold namesLeft
  induction names with
  | nil => cases hf
  | cons a l ih =>
    have hle : ∀ l : List Bytes, (l.filter (fun g => decide (g ∉ f :: stack))).length ≤ (l.filter (fun g => decide (g ∉ stack))).length := by
      intro l
      induction l with
      | nil => simp
      | cons b l ih =>
        simp only [List.filter_cons]
        by_cases hb : b ∈ stack
        · simpa [hb] using ih
        · by_cases hbf : b = f
          · simp [hb, hbf, hs] at ih ⊢; omega
          · simp [hb, hbf] at ih ⊢; omega
    by_cases haf : a = f
    · subst haf
      have := hle l
      simp [hs] at this ⊢
      omega
    · have hfl : f ∈ l := by simpa [Ne.symm haf] using hf
      have := ih hfl
      by_cases ha : a ∈ stack
      · simpa [ha] using this
      · simp [ha, haf] at this ⊢; exact this
/-- with room for all the names the treatment ends -/
theorem incl_ends (files : Bytes → Option (List ConfOpt)) (names : List Bytes) (d : Nat) : ∀ (l : List ConfOpt) (stack : List Bytes), NamedIn files names l → namesLeft names stack < d →
    (∃ ws, inclExpand files d stack l = .ok ws) ∨ inclExpand files d stack l = .error .range := by
  induction d with
  | zero => intro l stack _ h; omega
  | succ d ihd =>
    intro l
    induction l with
    | nil => intro stack _ _; exact Or.inl ⟨[], incl_nil⟩
    | cons o l ih =>
      intro stack hn hd
      have hn' : NamedIn files names l := ⟨fun f hf => hn.here f (by simp [hf]), hn.inside⟩
      cases o with
      | opt o =>
        rw [incl_opt]
        rcases ih stack hn' hd with ⟨ws, h⟩ | h
        · rw [h]; exact Or.inl ⟨_, rfl⟩
        · rw [h]; exact Or.inr rfl
      | incl f =>
        by_cases hf : f ∈ stack
        · exact Or.inr (incl_refused (Or.inl hf))
        · cases ho : files f with
          | none => exact Or.inr (incl_refused (Or.inr ho))
          | some opts =>
            have hfn : f ∈ names := hn.here f (by simp)
            have hn2 : NamedIn files names opts := ⟨fun g hg => hn.inside f opts g hfn ho hg, hn.inside⟩
            have := namesLeft_push hfn hf
            rw [incl_incl hf ho]
            rcases ihd opts (f :: stack) hn2 (by omega) with ⟨r1, h1⟩ | h1
            · rw [h1]
              show (∃ ws, (inclExpand files (d + 1) stack l).bind _ = _) ∨ (inclExpand files (d + 1) stack l).bind _ = _
              rcases ih stack hn' hd with ⟨ws, h⟩ | h
              · rw [h]; exact Or.inl ⟨_, rfl⟩
              · rw [h]; exact Or.inr rfl
            · rw [h1]; exact Or.inr rfl

/-- with the number of inclusions inside one another -/
inductive ExpandsH (files : Bytes → Option (List ConfOpt)) : Nat → List ConfOpt → List Bytes → Prop
  | nil {n} : ExpandsH files n [] []
  | opt {n o l r} (h : ExpandsH files n l r) : ExpandsH files n (.opt o :: l) (o :: r)
  | incl {n f opts l r1 r2} (hf : files f = some opts) (h1 : ExpandsH files n opts r1) (h2 : ExpandsH files (n + 1) l r2) : ExpandsH files (n + 1) (.incl f :: l) (r1 ++ r2)
theorem expandsH_succ {files : Bytes → Option (List ConfOpt)} {n : Nat} {l : List ConfOpt} {r : List Bytes} (h : ExpandsH files n l r) : ExpandsH files (n + 1) l r := by
  induction h with
  | nil => exact .nil
  | opt _ ih => exact .opt ih
  | incl hf _ _ ih1 ih2 => exact .incl hf ih1 ih2
theorem expandsH_mono {files : Bytes → Option (List ConfOpt)} {n m : Nat} (hm : n ≤ m) {l : List ConfOpt} {r : List Bytes} (h : ExpandsH files n l r) : ExpandsH files m l r := by
  obtain ⟨k, rfl⟩ := Nat.exists_eq_add_of_le hm
  induction k with
  | zero => exact h
  | succ k ih => exact expandsH_succ (ih (by omega))
theorem expands_height {files : Bytes → Option (List ConfOpt)} {l : List ConfOpt} {r : List Bytes} (h : Expands files l r) : ∃ n, ExpandsH files n l r := by
  induction h with
  | nil => exact ⟨0, .nil⟩
  | opt _ ih => obtain ⟨n, h⟩ := ih; exact ⟨n, .opt h⟩
  | incl hf _ _ ih1 ih2 =>
    obtain ⟨n, h1⟩ := ih1
    obtain ⟨m, h2⟩ := ih2
    exact ⟨max n m + 1, .incl hf (expandsH_mono (by omega) h1) (expandsH_mono (by omega) h2)⟩
/-- the files being read are not among those that an expansion of less than `n` levels can give -/
def StackAbove (files : Bytes → Option (List ConfOpt)) (stack : List Bytes) (n : Nat) : Prop :=
  ∀ f ∈ stack, ∀ opts, files f = some opts → ∀ m, m < n → ∀ r, ¬ ExpandsH files m opts r
/-- what can be expanded is not refused -/
theorem incl_complete (files : Bytes → Option (List ConfOpt)) (n : Nat) : ∀ (l : List ConfOpt) (ws : List Bytes), ExpandsH files n l ws → ∀ (d : Nat) (stack : List Bytes),
    StackAbove files stack n → inclExpand files d stack l ≠ .error .range := by
  induction n using Nat.strongRecOn with
  | ind n ihn =>
    intro l
    induction l with
    | nil => intro ws _ d stack _; rw [incl_nil]; simp
    | cons o l ih =>
      intro ws h d stack hst
      cases h with
      | opt h =>
        rw [incl_opt]
        have := ih _ h d stack hst
        cases hr : inclExpand files d stack l with
        | ok r => simp [Except.bind]
        | error e => rw [hr] at this; simpa [Except.bind] using this
      | @incl k f opts l r1 r2 hf h1 h2 =>
        cases d with
        | zero => unfold inclExpand; simp
        | succ d =>
          have hns : f ∉ stack := fun hmem => hst f hmem opts hf k (Nat.lt_succ_self k) r1 h1
          -- the least height of the file
          obtain ⟨m, hm, hmr⟩ : ∃ m, m ≤ k ∧ (∃ r, ExpandsH files m opts r) ∧ ∀ m', m' < m → ∀ r, ¬ ExpandsH files m' opts r := by
            clear ihn ih hst h2
            induction k using Nat.strongRecOn generalizing r1 with
            | ind k ihk =>
              by_cases hex : ∃ m', m' < k ∧ ∃ r, ExpandsH files m' opts r
              · obtain ⟨m', hlt, r, hr⟩ := hex
                obtain ⟨m, g1, g2⟩ := ihk m' hlt hr
                exact ⟨m, by omega, g2⟩
              · exact ⟨k, Nat.le_refl _, ⟨r1, h1⟩, fun m' hlt r hr => hex ⟨m', hlt, r, hr⟩⟩
          obtain ⟨⟨r, hr⟩, hmin⟩ := hmr
          have hst' : StackAbove files (f :: stack) m := by
            intro g hg og hog m' hm' r' hr'
            rcases List.mem_cons.mp hg with rfl | hg
            · rw [hf] at hog
              cases hog
              exact hmin m' hm' r' hr'
            · exact hst g hg og hog m' (by omega) r' hr'
          have g1 := ihn m (by omega) opts r hr d (f :: stack) hst'
          have g2 := ih r2 h2 (d + 1) stack hst
          rw [incl_incl hns hf]
          cases e1 : inclExpand files d (f :: stack) opts with
          | error e => rw [e1] at g1; simpa [Except.bind] using g1
          | ok x =>
            show (inclExpand files (d + 1) stack l).bind _ ≠ _
            cases e2 : inclExpand files (d + 1) stack l with
            | error e => rw [e2] at g2; simpa [Except.bind] using g2
            | ok y => simp [Except.bind]
theorem expands_unique {files : Bytes → Option (List ConfOpt)} {l : List ConfOpt} {r r' : List Bytes} (h : Expands files l r) (h' : Expands files l r') : r = r' := by
  induction h generalizing r' with
  | nil => cases h'; rfl
  | opt _ ih => cases h' with | opt g => rw [ih g]
  | incl hf _ _ ih1 ih2 =>
    cases h' with
    | incl hf' g1 g2 =>
      rw [hf] at hf'
      cases hf'
      rw [ih1 g1, ih2 g2]

end Dar
