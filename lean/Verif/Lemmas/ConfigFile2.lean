import Verif.Lemmas.ConfigFile
namespace Dar

/-! ### the target of a line -/

theorem ft_nature (text : Bytes) : ∀ (d p : Nat) (n n' : Bytes),
    findTarget .init d n p text = findTarget .init d n' p text ∧ findTarget .purge d n p text = findTarget .purge d n' p text := by
  induction text with
  | nil => intro d p n n'; exact ⟨rfl, rfl⟩
  | cons a l ih =>
    intro d p n n'
    constructor
    · show (if a = 32 ∨ a = 9 then _ else _) = (if a = 32 ∨ a = 9 then _ else _)
      rw [(ih d (p + 1) n n').1, (ih (p + 1) (p + 1) n n').1, (ih d (p + 1) n n').2]
    · show (if a = 10 then _ else _) = (if a = 10 then _ else _)
      rw [(ih (p + 1) (p + 1) n n').1, (ih d (p + 1) n n').2]

theorem ft_purge (m rest : Bytes) (hm : (10 : UInt8) ∉ m) : ∀ (d p : Nat) (n : Bytes),
    findTarget .purge d n p (m ++ 10 :: rest) = findTarget .init (p + m.length + 1) [] (p + m.length + 1) rest := by
  induction m with
  | nil => intro d p n; exact (ft_nature rest _ _ n []).1
  | cons a m ih =>
    intro d p n
    have ha : a ≠ 10 := fun h => hm (by simp [h])
    rw [List.cons_append]
    show (if a = 10 then _ else _) = _
    rw [if_neg ha, ih (fun h => hm (by simp [h]))]
    simp only [List.length_cons]
    have : p + 1 + m.length + 1 = p + (m.length + 1) + 1 := by omega
    rw [this]
theorem ft_fin (m rest : Bytes) (hm : (10 : UInt8) ∉ m) : ∀ (d p : Nat) (n : Bytes),
    findTarget .fin d n p (m ++ 10 :: rest) = if m.all (fun a => a == 32 || a == 9 || a == 13) then some (d, n, p + m.length + 1, rest)
      else findTarget .init (p + m.length + 1) [] (p + m.length + 1) rest := by
  induction m with
  | nil => intro d p n; rfl
  | cons a m ih =>
    intro d p n
    have ha : a ≠ 10 := fun h => hm (by simp [h])
    have hm' : (10 : UInt8) ∉ m := fun h => hm (by simp [h])
    have e : p + 1 + m.length + 1 = p + (m.length + 1) + 1 := by omega
    rw [List.cons_append]
    show (if a = 32 ∨ a = 9 ∨ a = 13 then _ else if a = 10 then _ else _) = _
    by_cases hb : a = 32 ∨ a = 9 ∨ a = 13
    · have hb' : (a == 32 || a == 9 || a == 13) = true := by simp; tauto
      rw [if_pos hb, ih hm', List.all_cons, hb', Bool.true_and]
      simp only [List.length_cons, e]
    · have hb' : (a == 32 || a == 9 || a == 13) = false := by simp; tauto
      rw [if_neg hb, if_neg ha, ft_purge m rest hm', List.all_cons, hb', Bool.false_and]
      simp only [List.length_cons, e]
      rfl
/-- the end of a target line, once a word has begun -/
theorem isAlpha_spec : isAlpha = isLetter := rfl
theorem isWordChar_spec : isWordChar = isTargetChar := rfl
def targetTail (n t : Bytes) : Option Bytes := match t.dropWhile isWordChar with
  | 58 :: m => if m.all (fun a => a == 32 || a == 9 || a == 13) then some (n ++ t.takeWhile isWordChar) else none
  | _ => none
theorem targetTail_cons_word {n t : Bytes} {a : UInt8} (h : isWordChar a = true) : targetTail n (a :: t) = targetTail (n ++ [a]) t := by
  unfold targetTail
  rw [List.dropWhile_cons_of_pos h, List.takeWhile_cons_of_pos h]
  simp
theorem targetTail_colon {n m : Bytes} : targetTail n (58 :: m) = if m.all (fun a => a == 32 || a == 9 || a == 13) then some n else none := by
  unfold targetTail
  have h : isWordChar 58 = false := by decide
  rw [List.dropWhile_cons_of_neg (by simp [h]), List.takeWhile_cons_of_neg (by simp [h])]
  simp
theorem targetTail_other {n m : Bytes} {a : UInt8} (h : isWordChar a = false) (ha : a ≠ 58) : targetTail n (a :: m) = none := by
  unfold targetTail
  rw [List.dropWhile_cons_of_neg (by simp [h])]
  split
  · rename_i heq
    simp at heq
    exact absurd heq.1 ha
  · rfl
theorem wordChar_ne10 {a : UInt8} (h : isWordChar a = true) : a ≠ 10 := by
  rintro rfl
  revert h
  decide
theorem ft_search (t rest : Bytes) (ht : (10 : UInt8) ∉ t) : ∀ (d p : Nat) (n : Bytes),
    findTarget .search d n p (t ++ 10 :: rest) = match targetTail n t with
      | some x => some (d, x, p + t.length + 1, rest)
      | none => findTarget .init (p + t.length + 1) [] (p + t.length + 1) rest := by
  induction t with
  | nil =>
    intro d p n
    have h : isWordChar 10 = false := by decide
    have hs : findTarget .search d n p (10 :: rest) = findTarget .init (p + 1) n (p + 1) rest := by
      conv_lhs => unfold findTarget
      dsimp only
      rw [if_neg (by simp [h]), if_neg (by decide), if_pos rfl]
    rw [List.nil_append, hs]
    exact (ft_nature rest _ _ n []).1
  | cons a t ih =>
    intro d p n
    have ha : a ≠ 10 := fun h => ht (by simp [h])
    have ht' : (10 : UInt8) ∉ t := fun h => ht (by simp [h])
    have e : p + 1 + t.length + 1 = p + (t.length + 1) + 1 := by omega
    rw [List.cons_append]
    show (if isWordChar a = true then _ else if a = 58 then _ else if a = 10 then _ else _) = _
    by_cases hw : isWordChar a = true
    · rw [if_pos hw, targetTail_cons_word hw, ih ht']
      simp only [List.length_cons, e]
    · rw [if_neg hw]
      by_cases hc : a = 58
      · subst hc
        rw [if_pos rfl, ft_fin t rest ht', targetTail_colon]
        simp only [List.length_cons, e]
        by_cases hall : (t.all fun a => a == 32 || a == 9 || a == 13) = true
        · rw [if_pos hall, if_pos hall]
        · rw [if_neg hall, if_neg hall]
      · rw [if_neg hc, if_neg ha, ft_purge t rest ht', targetTail_other (by simpa using hw) hc]
        simp only [List.length_cons, e]
theorem alpha_not_blank {a : UInt8} (h : isAlpha a = true) : ¬ (a = 32 ∨ a = 9) ∧ a ≠ 10 := by
  refine ⟨?_, ?_⟩
  · rintro (rfl | rfl) <;> revert h <;> decide
  · rintro rfl
    revert h; decide
theorem targetOf_eq (body : Bytes) : targetOf body = match body.dropWhile isBlank with
    | [] => none
    | c :: t => if isAlpha c then targetTail [c] t else none := by
  unfold targetOf targetTail
  rfl
/-- a line, read from its beginning -/
theorem ft_line (body rest : Bytes) (hb : (10 : UInt8) ∉ body) : ∀ (d p : Nat),
    findTarget .init d [] p (body ++ 10 :: rest) = match targetOf body with
      | some x => some (d, x, p + body.length + 1, rest)
      | none => findTarget .init (p + body.length + 1) [] (p + body.length + 1) rest := by
  induction body with
  | nil => intro d p; rfl
  | cons a t ih =>
    intro d p
    have ha : a ≠ 10 := fun h => hb (by simp [h])
    have ht' : (10 : UInt8) ∉ t := fun h => hb (by simp [h])
    have e : p + 1 + t.length + 1 = p + (t.length + 1) + 1 := by omega
    rw [List.cons_append]
    show (if a = 32 ∨ a = 9 then _ else if a = 10 then _ else if isAlpha a = true then _ else _) = _
    by_cases hbl : a = 32 ∨ a = 9
    · have hto : targetOf (a :: t) = targetOf t := by
        rw [targetOf_eq, targetOf_eq, List.dropWhile_cons_of_pos ((isBlank_iff a).mpr hbl)]
      rw [if_pos hbl, ih ht', hto]
      simp only [List.length_cons, e]
    · have hbl' : isBlank a = false := by
        cases h : isBlank a with
        | false => rfl
        | true => exact absurd ((isBlank_iff a).mp h) hbl
      have hto : targetOf (a :: t) = if isAlpha a then targetTail [a] t else none := by
        rw [targetOf_eq, List.dropWhile_cons_of_neg (by simp [hbl'])]
      rw [if_neg hbl, if_neg ha, hto]
      by_cases hal : isAlpha a = true
      · rw [if_pos hal, if_pos hal, ft_search t rest ht']
        simp only [List.length_cons, e]
      · rw [if_neg hal, if_neg hal, ft_purge t rest ht']
        simp only [List.length_cons, e]
theorem ft_last (m : Bytes) (hm : (10 : UInt8) ∉ m) : ∀ (st : CfStatus) (d p : Nat) (n : Bytes), findTarget st d n p m = none := by
  induction m with
  | nil => intro st d p n; cases st <;> rfl
  | cons a m ih =>
    intro st d p n
    have ha : a ≠ 10 := fun h => hm (by simp [h])
    have hm' : (10 : UInt8) ∉ m := fun h => hm (by simp [h])
    cases st <;> unfold findTarget <;> simp only [ih hm', ha, if_false, ite_self]

/-! ### the parts kept -/

/-- what the loop maintains at the beginning of a line, `pos` -/
structure CfInv (T : Bytes) (s : CfSt) (out : Bytes) (pos : Nat) : Prop where
  pieces : PiecesFrom T.length 0 s.parts.reverse
  off : s.lastOff = (hideView T s.parts.reverse).length
  gone : s.keep = false → hideView T s.parts.reverse = out
  kept : s.keep = true → s.off = s.lastOff ∧ s.start ≤ pos ∧ hideView T s.parts.reverse ++ (T.drop s.start).take (pos - s.start) = out

/-- the piece that ends at `pos` -/
theorem cf_push {T : Bytes} {s : CfSt} {out : Bytes} {pos : Nat} (hi : CfInv T s out pos) (hk : s.keep = true) (hpos : pos ≤ T.length) (ps : List Morceau)
    (hps : ps = if pos - s.start > 0 then ⟨s.start, pos - s.start, s.off⟩ :: s.parts else s.parts) :
    PiecesFrom T.length 0 ps.reverse ∧ hideView T ps.reverse = out ∧ (hideView T ps.reverse).length = s.lastOff + (pos - s.start) := by
  obtain ⟨h1, h2, h3⟩ := hi.kept hk
  have hl : ((T.drop s.start).take (pos - s.start)).length = pos - s.start := by rw [List.length_take, List.length_drop]; omega
  have hout : out.length = s.lastOff + (pos - s.start) := by rw [← h3, List.length_append, hl, hi.off]
  by_cases h : pos - s.start > 0
  · rw [if_pos h] at hps
    subst hps
    have hv : hideView T (⟨s.start, pos - s.start, s.off⟩ :: s.parts : List Morceau).reverse = out := by
      rw [List.reverse_cons, hideView_append, ← h3]
      simp [hideView]
    refine ⟨?_, hv, by rw [hv, hout]⟩
    rw [List.reverse_cons, piecesFrom_append (T := T) (Nat.le_refl _)]
    refine ⟨hi.pieces, ?_, h, by dsimp only; omega, trivial⟩
    rw [h1, hi.off, Nat.zero_add]
  · rw [if_neg h] at hps
    subst hps
    have h0 : pos - s.start = 0 := by omega
    have hv : hideView T s.parts.reverse = out := by rw [← h3, h0]; simp
    exact ⟨hi.pieces, hv, by rw [hv, hout]⟩

/-- the targets wanted that the lines name, the last one first -/
def wanted (targets : List Bytes) : List Bytes → List Bytes
  | [] => []
  | l :: ls => match targetOf l.dropLast with
    | some t => wanted targets ls ++ (if t ∈ targets then [t] else [])
    | none => wanted targets ls

theorem cfLoop_none {targets : List Bytes} {total n : Nat} {s : CfSt} {pos : Nat} {text : Bytes} (h : findTarget .init pos [] pos text = none) :
    cfLoop targets total (n + 1) s pos text =
      if s.keep then
        if total < s.start then .error .bug
        else .ok { s with parts := if total - s.start > 0 then ⟨s.start, total - s.start, s.off⟩ :: s.parts else s.parts }
      else .ok s := by
  show (match findTarget .init pos [] pos text with | none => _ | some (first, t, last, rest) => _) = _
  rw [h]
theorem cfLoop_some {targets : List Bytes} {total n : Nat} {s : CfSt} {pos : Nat} {text : Bytes} {first last : Nat} {t rest : Bytes}
    (h : findTarget .init pos [] pos text = some (first, t, last, rest)) (hb : ¬ (s.keep = true ∧ first < s.start)) (s1 : CfSt)
    (hs : s1 = if s.keep then
            { s with keep := false, lastOff := s.lastOff + (first - s.start),
                     parts := if first - s.start > 0 then ⟨s.start, first - s.start, s.off⟩ :: s.parts else s.parts }
          else s) :
    cfLoop targets total (n + 1) s pos text =
        if t ∈ targets then cfLoop targets total n { s1 with keep := true, start := last, off := s1.lastOff, seen := t :: s1.seen } last rest
        else cfLoop targets total n s1 last rest := by
  subst hs
  show (match findTarget .init pos [] pos text with | none => _ | some (first, t, last, rest) => _) = _
  rw [h]
  dsimp only
  rw [if_neg hb]

theorem cf_lines (targets : List Bytes) {T last : Bytes} (hlast : (10 : UInt8) ∉ last) (ls : List Bytes) : ∀ {s : CfSt} {out : Bytes} {pos n : Nat} (_ : CfInv T s out pos)
    (_ : ∀ l ∈ ls, IsLine l) (_ : T.drop pos = ls.flatten ++ last) (_ : pos ≤ T.length) (_ : (ls.flatten ++ last).length < n),
    ∃ s', cfLoop targets T.length n s pos (ls.flatten ++ last) = .ok s' ∧ PiecesFrom T.length 0 s'.parts.reverse ∧
      hideView T s'.parts.reverse = out ++ keptLines targets s.keep last ls ∧ s'.seen = wanted targets ls ++ s.seen := by
  induction ls with
  | nil =>
    intro s out pos n hi _ hT hpos hn
    obtain ⟨n, rfl⟩ : ∃ k, n = k + 1 := ⟨n - 1, by omega⟩
    have hT' : T.drop pos = last := by simpa using hT
    have hend := congrArg List.length hT'
    rw [List.length_drop] at hend
    rw [List.flatten_nil, List.nil_append, cfLoop_none (ft_last last hlast _ _ _ _)]
    cases hk : s.keep with
    | false =>
      refine ⟨s, rfl, hi.pieces, ?_, rfl⟩
      rw [hi.gone hk]; simp [keptLines]
    | true =>
      obtain ⟨h1, h2, h3⟩ := hi.kept hk
      have hi' : CfInv T s (out ++ last) T.length := by
        refine ⟨hi.pieces, hi.off, by simp [hk], fun _ => ⟨h1, by omega, ?_⟩⟩
        have : T.length - s.start = (pos - s.start) + (T.length - pos) := by omega
        rw [← h3, List.append_assoc]
        congr 1
        rw [this, List.take_add, List.drop_drop]
        have h4 : s.start + (pos - s.start) = pos := by omega
        rw [h4, hT']
        congr 1
        rw [hend]; simp
      obtain ⟨p1, p2, -⟩ := cf_push hi' hk (Nat.le_refl _) _ rfl
      rw [if_pos rfl, if_neg (by omega)]
      exact ⟨_, rfl, p1, by rw [p2]; simp [keptLines], rfl⟩
  | cons l ls ih =>
    intro s out pos n hi hls hT hpos hn
    obtain ⟨body, hbody, hno⟩ := hls l (by simp)
    have hls' : ∀ x ∈ ls, IsLine x := fun x hx => hls x (by simp [hx])
    have hL2 := congrArg List.length hT
    rw [List.length_drop] at hL2
    simp only [List.flatten_cons, List.length_append] at hL2
    have hll : l.length = body.length + 1 := by rw [hbody]; simp
    have hdl : l.dropLast = body := by rw [hbody]; simp
    have htext : (l :: ls).flatten ++ last = body ++ 10 :: (ls.flatten ++ last) := by rw [hbody]; simp
    have hd : T.drop (pos + body.length + 1) = ls.flatten ++ last := by
      have : pos + body.length + 1 = pos + l.length := by omega
      rw [this, ← List.drop_drop, hT]; simp
    have hn' : (ls.flatten ++ last).length + body.length + 1 < n := by
      have := hn
      rw [htext] at this
      simp at this ⊢; omega
    have hft := ft_line body (ls.flatten ++ last) hno pos pos
    rw [← htext] at hft
    cases ht : targetOf body with
    | none =>
      rw [ht] at hft
      dsimp only at hft
      have hsame : cfLoop targets T.length n s pos ((l :: ls).flatten ++ last) = cfLoop targets T.length n s (pos + body.length + 1) (ls.flatten ++ last) := by
        obtain ⟨n, rfl⟩ : ∃ k, n = k + 1 := ⟨n - 1, by omega⟩
        show (match findTarget .init pos [] pos ((l :: ls).flatten ++ last) with | none => _ | some (first, t, last, rest) => _) = _
        rw [hft]
        rfl
      have hi' : CfInv T s (out ++ (if s.keep then l else [])) (pos + body.length + 1) := by
        refine ⟨hi.pieces, hi.off, ?_, ?_⟩
        · intro hk; rw [hi.gone hk, hk]; simp
        · intro hk
          obtain ⟨h1, h2, h3⟩ := hi.kept hk
          refine ⟨h1, by omega, ?_⟩
          have : pos + body.length + 1 - s.start = (pos - s.start) + l.length := by omega
          rw [this, List.take_add, List.drop_drop]
          have h4 : s.start + (pos - s.start) = pos := by omega
          rw [h4, hT, ← List.append_assoc, h3, hk]
          simp
      obtain ⟨s', g1, g2, g3, g4⟩ := ih hi' hls' hd (by omega) (by omega : (ls.flatten ++ last).length < n)
      refine ⟨s', by rw [hsame]; exact g1, g2, ?_, ?_⟩
      · rw [g3, List.append_assoc]; simp only [keptLines, hdl, ht]
      · rw [g4]; simp only [wanted, hdl, ht]
    | some t =>
      rw [ht] at hft
      dsimp only at hft
      obtain ⟨n, rfl⟩ : ∃ k, n = k + 1 := ⟨n - 1, by omega⟩
      -- the state once the previous part has been closed
      have hclose : ∃ s1, (s1 = if s.keep then
            { s with keep := false, lastOff := s.lastOff + (pos - s.start),
                     parts := if pos - s.start > 0 then ⟨s.start, pos - s.start, s.off⟩ :: s.parts else s.parts }
          else s) ∧ s1.keep = false ∧ s1.seen = s.seen ∧ PiecesFrom T.length 0 s1.parts.reverse ∧ hideView T s1.parts.reverse = out ∧ s1.lastOff = out.length := by
        refine ⟨_, rfl, ?_⟩
        cases hk : s.keep with
        | false =>
          have := hi.gone hk
          exact ⟨by simpa using hk, rfl, hi.pieces, this, by rw [← this]; exact hi.off⟩
        | true =>
          obtain ⟨p1, p2, p3⟩ := cf_push hi hk hpos _ rfl
          exact ⟨rfl, rfl, p1, p2, by rw [← p2, p3]; rfl⟩
      obtain ⟨s1, hs1, hk1, hse1, hp1, hv1, ho1⟩ := hclose
      have hb : ¬ (s.keep = true ∧ pos < s.start) := by
        rintro ⟨hk, hlt⟩
        have := (hi.kept hk).2.1
        omega
      rw [cfLoop_some hft hb s1 hs1]
      by_cases hmem : t ∈ targets
      · rw [if_pos hmem]
        have hi' : CfInv T { s1 with keep := true, start := pos + body.length + 1, off := s1.lastOff, seen := t :: s1.seen } out (pos + body.length + 1) :=
          ⟨hp1, by dsimp only; rw [hv1, ho1], by simp, fun _ => ⟨rfl, Nat.le_refl _, by simp [hv1]⟩⟩
        obtain ⟨s', g1, g2, g3, g4⟩ := ih hi' hls' hd (by omega) (by omega : (ls.flatten ++ last).length < n)
        refine ⟨s', g1, g2, ?_, ?_⟩
        · rw [g3]; simp only [keptLines, hdl, ht, decide_eq_true hmem]
        · rw [g4]; simp [wanted, hdl, ht, hmem, hse1]
      · rw [if_neg hmem]
        have hi' : CfInv T s1 out (pos + body.length + 1) := ⟨hp1, by rw [hv1, ho1], fun _ => hv1, by simp [hk1]⟩
        obtain ⟨s', g1, g2, g3, g4⟩ := ih hi' hls' hd (by omega) (by omega : (ls.flatten ++ last).length < n)
        refine ⟨s', g1, g2, ?_, ?_⟩
        · rw [g3, hk1]; simp only [keptLines, hdl, ht, decide_eq_false hmem]
        · rw [g4, hse1]; simp [wanted, hdl, ht, hmem]

theorem mem_wanted (targets : List Bytes) (t : Bytes) (ls : List Bytes) : t ∈ wanted targets ls ↔ t ∈ targets ∧ ∃ l ∈ ls, targetOf l.dropLast = some t := by
  induction ls with
  | nil => simp [wanted]
  | cons l ls ih =>
    simp only [wanted, List.mem_cons, exists_eq_or_imp]
    cases ht : targetOf l.dropLast with
    | none => simp only [ih]; simp
    | some u =>
      simp only [List.mem_append, ih, Option.some.injEq]
      by_cases hu : u ∈ targets
      · rw [if_pos hu, List.mem_singleton]
        constructor
        · rintro (⟨h1, h2⟩ | rfl)
          · exact ⟨h1, Or.inr h2⟩
          · exact ⟨hu, Or.inl rfl⟩
        · rintro ⟨h1, h2 | h2⟩
          · exact Or.inr h2.symm
          · exact Or.inl ⟨h1, h2⟩
      · rw [if_neg hu]
        constructor
        · rintro (⟨h1, h2⟩ | h)
          · exact ⟨h1, Or.inr h2⟩
          · simp at h
        · rintro ⟨h1, h2 | h2⟩
          · exact absurd (h2 ▸ h1) hu
          · exact Or.inl ⟨h1, h2⟩

/-- config_file -/
theorem cfPieces_view (targets : List Bytes) {text : Bytes} {ls : List Bytes} {last : Bytes} (h : IsText text ls last) :
    ∃ ps seen, cfPieces targets text = .ok (ps, seen) ∧ PiecesFrom text.length 0 ps ∧ hideView text ps = keptLines targets true last ls ∧
      ∀ t, t ∈ seen ↔ t ∈ targets ∧ ∃ l ∈ ls, targetOf l.dropLast = some t := by
  have hi : CfInv text ⟨true, 0, 0, 0, [], []⟩ [] 0 := ⟨trivial, rfl, by simp, fun _ => ⟨rfl, Nat.le_refl _, by simp [hideView]⟩⟩
  obtain ⟨s', h1, h2, h3, h4⟩ := cf_lines targets h.last ls hi h.lines (by simpa using h.eq) (by simp)
    (by rw [← h.eq]; exact Nat.lt_succ_self _ : (ls.flatten ++ last).length < text.length + 1)
  refine ⟨_, s'.seen, ?_, h2, by simpa using h3, ?_⟩
  · unfold cfPieces
    have : cfLoop targets text.length (text.length + 1) ⟨true, 0, 0, 0, [], []⟩ 0 text = .ok s' := by
      have := h1
      rw [← h.eq] at this
      exact this
    rw [this]
    rfl
  · intro t
    rw [h4, List.append_nil]
    exact mem_wanted targets t ls

end Dar
