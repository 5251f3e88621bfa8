import Verif.Spec.ConfigFile
import Mathlib.Tactic.Ring
namespace Dar

/-! ### lines -/

theorem text_lines (text : Bytes) : ∃ ls last, IsText text ls last := by
  induction text with
  | nil => exact ⟨[], [], rfl, by simp, by simp⟩
  | cons a t ih =>
    obtain ⟨ls, last, e, h1, h2⟩ := ih
    by_cases ha : a = 10
    · exact ⟨[10] :: ls, last, by simp [e, ha], by simpa using ⟨⟨[], rfl, by simp⟩, h1⟩, h2⟩
    · cases ls with
      | nil => exact ⟨[], a :: last, by simpa using e, by simp, by simpa [eq_comm] using ⟨ha, h2⟩⟩
      | cons l ls =>
        obtain ⟨b, hb, hb'⟩ := h1 l (by simp)
        refine ⟨(a :: l) :: ls, last, by simpa using e, ?_, h2⟩
        intro x hx
        rcases List.mem_cons.mp hx with h | h
        · subst h
          exact ⟨a :: b, by simp [hb], by simpa [eq_comm] using ⟨ha, hb'⟩⟩
        · exact h1 x (by simp [h])

/-! ### pieces -/

theorem hideView_append (T : Bytes) (a b : List Morceau) : hideView T (a ++ b) = hideView T a ++ hideView T b := by
  simp [hideView]
theorem piecesFrom_mono {lim lim' : Nat} (h : lim ≤ lim') : ∀ (off : Nat) (ps : List Morceau), PiecesFrom lim off ps → PiecesFrom lim' off ps := by
  intro off ps
  induction ps generalizing off with
  | nil => intro _; trivial
  | cons p ps ih =>
    intro ⟨h1, h2, h3, h4⟩
    exact ⟨h1, h2, by omega, ih _ h4⟩
theorem piecesFrom_append {lim : Nat} {T : Bytes} (hl : lim ≤ T.length) : ∀ (off : Nat) (a b : List Morceau),
    PiecesFrom lim off (a ++ b) ↔ PiecesFrom lim off a ∧ PiecesFrom lim (off + (hideView T a).length) b := by
  intro off a b
  induction a generalizing off with
  | nil => simp [PiecesFrom, hideView]
  | cons p ps ih =>
    simp only [List.cons_append, PiecesFrom, ih]
    constructor
    · rintro ⟨h1, h2, h3, h4, h5⟩
      refine ⟨⟨h1, h2, h3, h4⟩, ?_⟩
      have : (hideView T (p :: ps)).length = p.size + (hideView T ps).length := by
        simp only [hideView, List.flatMap_cons, List.length_append, List.length_take, List.length_drop]; omega
      rw [this, ← Nat.add_assoc]; exact h5
    · rintro ⟨⟨h1, h2, h3, h4⟩, h5⟩
      have : (hideView T (p :: ps)).length = p.size + (hideView T ps).length := by
        simp only [hideView, List.flatMap_cons, List.length_append, List.length_take, List.length_drop]; omega
      rw [this, ← Nat.add_assoc] at h5
      exact ⟨h1, h2, h3, h4, h5⟩

/-! ### comments -/

/-- the loop without the end of the file -/
def ncFold (s : NcSt) : Bytes → Res NcSt
  | [] => .ok s
  | a :: l => (ncStep { s with pos := s.pos + 1 } a false).bind fun s' => ncFold s' l
theorem ncRun_append (l : Bytes) : ∀ (s : NcSt) (last : UInt8) (rest : Bytes), ∃ last', ncRun s last (l ++ rest) = (ncFold s l).bind fun s' => ncRun s' last' rest := by
  induction l with
  | nil => intro s last rest; exact ⟨last, rfl⟩
  | cons a l ih =>
    intro s last rest
    show ∃ last', (ncStep { s with pos := s.pos + 1 } a false).bind _ = ((ncStep { s with pos := s.pos + 1 } a false).bind _).bind _
    cases ncStep { s with pos := s.pos + 1 } a false with
    | error e => exact ⟨last, rfl⟩
    | ok s' => exact ih s' a rest
theorem ncFold_append (a b : Bytes) : ∀ (s : NcSt), ncFold s (a ++ b) = (ncFold s a).bind fun s' => ncFold s' b := by
  induction a with
  | nil => intro s; rfl
  | cons x a ih =>
    intro s
    show (ncStep { s with pos := s.pos + 1 } x false).bind _ = ((ncStep { s with pos := s.pos + 1 } x false).bind _).bind _
    cases ncStep { s with pos := s.pos + 1 } x false with
    | error e => rfl
    | ok s' => exact ih s'

theorem isBlank_iff (a : UInt8) : isBlank a = true ↔ a = 32 ∨ a = 9 := by simp [isBlank]

theorem nc_blanks (b : Bytes) (hb : ∀ a ∈ b, isBlank a = true) : ∀ (s : NcSt), s.status = .unknown →
    ∃ t, ncFold s b = .ok { s with tmp := t, pos := s.pos + b.length } := by
  induction b with
  | nil => intro s _; exact ⟨s.tmp, rfl⟩
  | cons a b ih =>
    intro s hs
    have ha := (isBlank_iff a).mp (hb a (by simp))
    have h1 : ncStep { s with pos := s.pos + 1 } a false = .ok { s with pos := s.pos + 1, tmp := { s.tmp with size := s.tmp.size + 1 } } := by
      unfold ncStep
      simp only [hs]
      rw [if_pos ha]
    obtain ⟨t, ht⟩ := ih (fun x hx => hb x (by simp [hx])) { s with pos := s.pos + 1, tmp := { s.tmp with size := s.tmp.size + 1 } } hs
    refine ⟨t, ?_⟩
    show (ncStep { s with pos := s.pos + 1 } a false).bind _ = _
    rw [h1]
    show ncFold _ b = _
    rw [ht]
    simp only [List.length_cons]
    congr 2
    omega
theorem nc_comment (b : Bytes) (hb : (10 : UInt8) ∉ b) : ∀ (s : NcSt), s.status = .comment → ncFold s b = .ok { s with pos := s.pos + b.length } := by
  induction b with
  | nil => intro s _; rfl
  | cons a b ih =>
    intro s hs
    have ha : a ≠ 10 := fun h => hb (by simp [h])
    have h1 : ncStep { s with pos := s.pos + 1 } a false = .ok { s with pos := s.pos + 1 } := by
      unfold ncStep
      simp only [hs]
      rw [if_neg ha]
    show (ncStep { s with pos := s.pos + 1 } a false).bind _ = _
    rw [h1]
    show ncFold _ b = _
    rw [ih (fun h => hb (by simp [h])) { s with pos := s.pos + 1 } hs]
    simp only [List.length_cons]
    congr 2
    omega
theorem nc_command (b : Bytes) (hb : (10 : UInt8) ∉ b) : ∀ (s : NcSt), s.status = .command →
    ncFold s b = .ok { s with tmp := { s.tmp with size := s.tmp.size + b.length }, pos := s.pos + b.length } := by
  induction b with
  | nil => intro s _; rfl
  | cons a b ih =>
    intro s hs
    have ha : a ≠ 10 := fun h => hb (by simp [h])
    have h1 : ncStep { s with pos := s.pos + 1 } a false = .ok { s with pos := s.pos + 1, tmp := { s.tmp with size := s.tmp.size + 1 } } := by
      unfold ncStep
      simp only [hs]
      rw [if_neg (by simp [ha])]
      rfl
    show (ncStep { s with pos := s.pos + 1 } a false).bind _ = _
    rw [h1]
    show ncFold _ b = _
    rw [ih (fun h => hb (by simp [h])) { s with pos := s.pos + 1, tmp := { s.tmp with size := s.tmp.size + 1 } } hs]
    simp only [List.length_cons]
    congr 2
    · congr 1; omega
    · omega

/-- what the loop maintains at the beginning of a line -/
structure NcInv (T : Bytes) (s : NcSt) (out pend : Bytes) (fresh : Bool) : Prop where
  status : s.status = .unknown
  com : s.lastCom = fresh
  pieces : PiecesFrom s.pos 0 s.parts.reverse
  view : hideView T s.parts.reverse = out
  off : s.lastOff = out.length
  back : fresh = false → ∃ b l, s.parts = b :: l ∧ b.start + b.size + pend.length = s.pos ∧ (T.drop (b.start + b.size)).take pend.length = pend

/-- the end of a command (an end of line, or the end of the file): the new pieces -/
theorem nc_push {T : Bytes} {s : NcSt} {out pend : Bytes} {fresh : Bool} (hi : NcInv T s out pend fresh) (bl r : Bytes) (hr : r ≠ [])
    (hT : (T.drop s.pos).take (bl ++ r).length = bl ++ r) (hlen : s.pos + (bl ++ r).length ≤ T.length) (t : Morceau) (st : NcSt)
    (ht : t = ⟨s.pos + bl.length, r.length, s.lastOff⟩)
    (hst : st.status = .unknown ∧ st.pos = s.pos + (bl ++ r).length ∧ st.lastCom = false ∧
      ((s.lastCom = true ∧ st.parts = t :: s.parts ∧ st.lastOff = t.off + t.size) ∨
       (s.lastCom = false ∧ ∃ b l, s.parts = b :: l ∧ st.parts = { b with size := st.pos - b.start } :: l ∧ st.lastOff = b.off + (st.pos - b.start)))) :
    NcInv T st (out ++ (if fresh then r else pend ++ (bl ++ r))) [] false := by
  obtain ⟨h1, h2, h3, h4⟩ := hst
  have hrl : 0 < r.length := List.length_pos_iff.mpr hr
  have hbr : (bl ++ r).length = bl.length + r.length := List.length_append
  have hslice : (T.drop (s.pos + bl.length)).take r.length = r := by
    have := congrArg (List.drop bl.length) hT
    rw [List.drop_take, List.drop_drop, List.drop_left, hbr, Nat.add_sub_cancel_left] at this
    exact this
  rcases h4 with ⟨hc, hp, hlo⟩ | ⟨hc, b, l, hb, hp, hlo⟩
  · have hf : fresh = true := by rw [← hi.com]; exact hc
    subst hf
    have hv : hideView T [t] = r := by simp [hideView, ht, hslice]
    refine ⟨h1, h3, ?_, ?_, ?_, ?_⟩
    · rw [hp, List.reverse_cons, piecesFrom_append (T := T) (by omega), hi.view]
      refine ⟨piecesFrom_mono (by omega) _ _ hi.pieces, ?_⟩
      rw [ht]
      exact ⟨by simp [hi.off], hrl, by dsimp only; omega, trivial⟩
    · rw [hp, List.reverse_cons, hideView_append, hi.view, hv]; simp
    · rw [hlo, ht, if_pos rfl, List.length_append, hi.off]
    · intro _
      refine ⟨t, s.parts, hp, ?_, by simp⟩
      rw [ht, h2, hbr]; simp; omega
  · have hf : fresh = false := by rw [← hi.com]; exact hc
    subst hf
    obtain ⟨b', l', hb', hpos, hpend⟩ := hi.back rfl
    rw [hb] at hb'
    cases hb'
    have hpi := hi.pieces
    have hvi := hi.view
    rw [hb, List.reverse_cons] at hpi hvi
    rw [hideView_append] at hvi
    rw [piecesFrom_append (T := T) (by omega)] at hpi
    obtain ⟨hp1, hp2, hp3, hp4, -⟩ := hpi
    have hvb : hideView T [b] = (T.drop b.start).take b.size := by simp [hideView]
    have hvb' : hideView T [{ b with size := st.pos - b.start }] = (T.drop b.start).take b.size ++ (pend ++ (bl ++ r)) := by
      simp only [hideView, List.flatMap_cons, List.flatMap_nil, List.append_nil]
      have hs : st.pos - b.start = b.size + (pend.length + (bl ++ r).length) := by omega
      have h2 : (T.drop (b.start + b.size)).drop pend.length = T.drop s.pos := by rw [List.drop_drop, hpos]
      rw [hs, List.take_add, List.drop_drop, List.take_add, h2, hpend, hT]
    have hbl : ((T.drop b.start).take b.size).length = b.size := by rw [List.length_take, List.length_drop]; omega
    refine ⟨h1, h3, ?_, ?_, ?_, ?_⟩
    · rw [hp, List.reverse_cons, piecesFrom_append (T := T) (by omega)]
      exact ⟨piecesFrom_mono (by omega) _ _ hp1, hp2, by dsimp only; omega, by dsimp only; omega, trivial⟩
    · rw [hp, List.reverse_cons, hideView_append, hvb']
      rw [← hvi, hvb]
      simp
    · rw [hlo, hp2]
      have hol := hvi
      rw [hvb] at hol
      simp only [Bool.false_eq_true, if_false, List.length_append, ← hol, hbl]
      simp only [List.length_append] at h2
      omega
    · intro _
      refine ⟨_, l, hp, ?_, by simp⟩
      simp; omega

theorem lineKind_split (l : Bytes) : ∃ bl r, l = bl ++ r ∧ (∀ a ∈ bl, isBlank a = true) ∧ l.dropWhile isBlank = r := by
  refine ⟨l.takeWhile isBlank, l.dropWhile isBlank, List.takeWhile_append_dropWhile.symm, ?_, rfl⟩
  intro a ha
  exact List.all_eq_true.mp (List.all_takeWhile (p := isBlank) (l := l)) a ha

theorem line_tail {body bl r' : Bytes} {c : UInt8} (h : body ++ [10] = bl ++ c :: r') (hno : (10 : UInt8) ∉ body) (hc : c ≠ 10) :
    ∃ m, r' = m ++ [10] ∧ (10 : UInt8) ∉ m := by
  rcases List.eq_nil_or_concat r' with h0 | ⟨m, x, hx⟩
  · subst h0
    have := List.append_inj_right' h rfl
    simp at this
    exact absurd this.symm hc
  · rw [List.concat_eq_append] at hx
    subst hx
    have h' : body ++ [10] = (bl ++ c :: m) ++ [x] := by rw [h]; simp
    have h1 := List.append_inj_left' h' rfl
    have h2 := List.append_inj_right' h' rfl
    simp at h2
    subst h2
    exact ⟨m, rfl, fun hm => hno (by rw [h1]; simp [hm])⟩

/-- a line -/
theorem nc_line {T : Bytes} {s : NcSt} {out pend : Bytes} {fresh : Bool} (hi : NcInv T s out pend fresh) {l : Bytes} (hl : IsLine l)
    (hT : (T.drop s.pos).take l.length = l) (hlen : s.pos + l.length ≤ T.length) :
    ∃ s', ncFold s l = .ok s' ∧ s'.pos = s.pos + l.length ∧ match lineKind l with
      | .blank => NcInv T s' out (pend ++ l) fresh
      | .comment => NcInv T s' out [] true
      | .command => NcInv T s' (out ++ (if fresh then l.dropWhile isBlank else pend ++ l)) [] false := by
  obtain ⟨body, hbody, hno⟩ := hl
  obtain ⟨bl, r, hr, hbl, hdw⟩ := lineKind_split l
  unfold lineKind
  rw [hdw]
  cases r with
  | nil =>
    exfalso
    have : (10 : UInt8) ∈ bl := by rw [List.append_nil] at hr; rw [← hr, hbody]; simp
    have := (isBlank_iff _).mp (hbl _ this)
    simp at this
  | cons c r' =>
    obtain ⟨t, ht⟩ := nc_blanks bl hbl s hi.status
    have hc : isBlank c = false := by
      have := List.head?_dropWhile_not isBlank l
      rw [hdw] at this
      simpa using this
    rw [hr, ncFold_append, ht]
    show ∃ s', (ncStep { s with tmp := t, pos := s.pos + bl.length + 1 } c false).bind (fun s' => ncFold s' r') = .ok s' ∧ _
    have hc2 : ¬ (c = 32 ∨ c = 9) := fun h => by rw [(isBlank_iff c).mpr h] at hc; cases hc
    by_cases h10 : c = 10
    · -- a blank line
      have hr' : r' = [] := by
        cases hb : r' with
        | nil => rfl
        | cons x y =>
          exfalso
          have h1 : body ++ [10] = bl ++ (10 :: x :: y) := by rw [← hbody, hr, h10, hb]
          have : (10 : UInt8) ∈ body := by
            have h2 : body = (bl ++ (10 :: x :: y)).dropLast := by rw [← h1]; simp
            rw [h2, List.dropLast_append_of_ne_nil (by simp)]
            simp
          exact hno this
      subst hr'
      have hstep : ncStep { s with tmp := t, pos := s.pos + bl.length + 1 } c false = .ok { s with tmp := { t with size := 0 }, pos := s.pos + bl.length + 1 } := by
        unfold ncStep
        simp only [hi.status]
        rw [if_neg hc2, if_pos h10]
      rw [hstep]
      refine ⟨_, rfl, by simp; omega, ?_⟩
      dsimp only
      rw [if_pos h10]
      refine ⟨hi.status, hi.com, piecesFrom_mono (by simp only; omega) _ _ hi.pieces, hi.view, hi.off, ?_⟩
      intro hf
      obtain ⟨b, l', h1, h2, h3⟩ := hi.back hf
      refine ⟨b, l', h1, by simp; omega, ?_⟩
      rw [List.length_append, List.take_add, h3, List.drop_drop, h2]
      congr 1
      rw [← hr]; exact hT
    · by_cases h35 : c = 35
      · -- a comment
        have hstep : ncStep { s with tmp := t, pos := s.pos + bl.length + 1 } c false = .ok { s with tmp := t, pos := s.pos + bl.length + 1, status := .comment } := by
          unfold ncStep
          simp only [hi.status]
          rw [if_neg hc2, if_neg h10, if_pos h35]
        rw [hstep]
        show ∃ s', ncFold _ r' = .ok s' ∧ _
        obtain ⟨m, hm, hmn⟩ := line_tail (by rw [← hbody, hr]) hno h10
        rw [hm, ncFold_append, nc_comment m hmn _ rfl]
        refine ⟨_, rfl, by simp; omega, ?_⟩
        dsimp only
        rw [if_neg h10, if_pos h35]
        exact ⟨rfl, rfl, piecesFrom_mono (by simp only; omega) _ _ hi.pieces, hi.view, hi.off, by simp⟩
      · -- a command
        have hstep : ncStep { s with tmp := t, pos := s.pos + bl.length + 1 } c false =
            .ok { s with tmp := ⟨s.pos + bl.length, 1, s.lastOff⟩, pos := s.pos + bl.length + 1, status := .command } := by
          unfold ncStep
          simp only [hi.status]
          rw [if_neg hc2, if_neg h10, if_neg h35]
          simp
        rw [hstep]
        show ∃ s', ncFold _ r' = .ok s' ∧ _
        obtain ⟨m, hm, hmn⟩ := line_tail (by rw [← hbody, hr]) hno h10
        rw [hm, ncFold_append, nc_command m hmn _ rfl]
        show ∃ s', (ncStep { s with tmp := ⟨s.pos + bl.length, 1 + m.length, s.lastOff⟩, pos := s.pos + bl.length + 1 + m.length + 1, status := .command } 10 false).bind
          (fun s' => ncFold s' []) = .ok s' ∧ _
        dsimp only
        rw [if_neg h10, if_neg h35]
        have hlr : l = bl ++ (c :: (m ++ [10])) := by rw [hr, hm]
        have hpush := nc_push hi bl (c :: (m ++ [10])) (by simp) (by rw [← hlr]; exact hT) (by rw [← hlr]; exact hlen)
            ⟨s.pos + bl.length, 1 + m.length + 1, s.lastOff⟩
        have hlb : s.lastCom = true ∨ s.lastCom = false := by cases s.lastCom <;> simp
        rcases hlb with hlc | hlc
        ·
          have he : ncStep { s with tmp := ⟨s.pos + bl.length, 1 + m.length, s.lastOff⟩, pos := s.pos + bl.length + 1 + m.length + 1, status := .command } 10 false =
            .ok { s with status := .unknown, parts := ⟨s.pos + bl.length, 1 + m.length + 1, s.lastOff⟩ :: s.parts, lastOff := s.lastOff + (1 + m.length + 1), lastCom := false,
                         tmp := ⟨s.pos + bl.length, 0, s.lastOff⟩, pos := s.pos + bl.length + 1 + m.length + 1 } := by
            unfold ncStep
            simp only [hlc]
            rfl
          rw [he]
          refine ⟨_, rfl, by simp; omega, ?_⟩
          exact hpush _ (by congr 1; simp; omega) ⟨rfl, by simp; omega, rfl, Or.inl ⟨hlc, rfl, rfl⟩⟩
        ·
          obtain ⟨b, l', hb, -⟩ := hi.back (by rw [← hi.com]; exact hlc)
          have he : ncStep { s with tmp := ⟨s.pos + bl.length, 1 + m.length, s.lastOff⟩, pos := s.pos + bl.length + 1 + m.length + 1, status := .command } 10 false =
            .ok { s with status := .unknown, parts := { b with size := s.pos + bl.length + 1 + m.length + 1 - b.start } :: l',
                         lastOff := b.off + (s.pos + bl.length + 1 + m.length + 1 - b.start), lastCom := false,
                         tmp := ⟨s.pos + bl.length, 0, s.lastOff⟩, pos := s.pos + bl.length + 1 + m.length + 1 } := by
            unfold ncStep
            simp only [hlc, hb]
            rfl
          rw [he]
          refine ⟨_, rfl, by simp; omega, ?_⟩
          exact hpush _ (by congr 1; simp; omega) ⟨rfl, by simp; omega, rfl, Or.inr ⟨hlc, b, l', hb, rfl, rfl⟩⟩

theorem nc_stop_unknown (s : NcSt) (a : UInt8) (h : s.status = .unknown) : ∃ s', ncStep s a true = .ok s' ∧ s'.parts = s.parts := by
  unfold ncStep
  simp only [h]
  by_cases h1 : a = 32 ∨ a = 9
  · rw [if_pos h1]; exact ⟨_, rfl, rfl⟩
  · rw [if_neg h1]
    by_cases h2 : a = 10
    · rw [if_pos h2]; exact ⟨_, rfl, rfl⟩
    · rw [if_neg h2]
      by_cases h3 : a = 35
      · rw [if_pos h3]; exact ⟨_, rfl, rfl⟩
      · rw [if_neg h3]; exact ⟨_, rfl, rfl⟩
theorem nc_stop_comment (s : NcSt) (a : UInt8) (h : s.status = .comment) : ∃ s', ncStep s a true = .ok s' ∧ s'.parts = s.parts := by
  unfold ncStep
  simp only [h]
  by_cases h2 : a = 10
  · rw [if_pos h2]; exact ⟨_, rfl, rfl⟩
  · rw [if_neg h2]; exact ⟨_, rfl, rfl⟩

/-- what follows the last end of line -/
theorem nc_last {T : Bytes} {s : NcSt} {out pend : Bytes} {fresh : Bool} (hi : NcInv T s out pend fresh) {l : Bytes} (hno : (10 : UInt8) ∉ l)
    (hT : T.drop s.pos = l) (hlen : s.pos + l.length = T.length) (a : UInt8) :
    ∃ s', ncRun s a l = .ok s' ∧ PiecesFrom T.length 0 s'.parts.reverse ∧ hideView T s'.parts.reverse = out ++ withoutComments fresh pend [l] := by
  obtain ⟨bl, r, hr, hbl, hdw⟩ := lineKind_split l
  obtain ⟨t, ht⟩ := nc_blanks bl hbl s hi.status
  have hpm := piecesFrom_mono (lim := s.pos) (lim' := T.length) (by omega) _ _ hi.pieces
  have hla : ∃ a', ncRun s a l = (ncFold s l).bind fun s' => ncStep s' a' true := by
    have := ncRun_append l s a []
    rw [List.append_nil] at this
    exact this
  obtain ⟨a', ha'⟩ := hla
  have htk : (T.drop s.pos).take l.length = l := by rw [hT]; simp
  cases r with
  | nil =>
    rw [List.append_nil] at hr
    subst hr
    have hk : lineKind l = .blank := by unfold lineKind; rw [hdw]
    obtain ⟨s', h1, h2⟩ := nc_stop_unknown { s with tmp := t, pos := s.pos + l.length } a' hi.status
    refine ⟨s', ?_, ?_, ?_⟩
    · rw [ha', ht]; exact h1
    · rw [h2]; exact hpm
    · rw [h2]
      simp only [withoutComments, hk, List.append_nil]
      exact hi.view
  | cons c r' =>
    have hc : isBlank c = false := by
      have := List.head?_dropWhile_not isBlank l
      rw [hdw] at this
      simpa using this
    have hc2 : ¬ (c = 32 ∨ c = 9) := fun h => by rw [(isBlank_iff c).mpr h] at hc; cases hc
    have h10 : c ≠ 10 := fun h => hno (by rw [hr]; simp [h])
    have hmn : (10 : UInt8) ∉ r' := fun h => hno (by rw [hr]; simp [h])
    have hf : ncFold s l = (ncStep { s with tmp := t, pos := s.pos + bl.length + 1 } c false).bind (fun s' => ncFold s' r') := by
      rw [hr, ncFold_append, ht]; rfl
    by_cases h35 : c = 35
    · have hk : lineKind l = .comment := by unfold lineKind; rw [hdw]; simp [h35]
      have hstep : ncStep { s with tmp := t, pos := s.pos + bl.length + 1 } c false = .ok { s with tmp := t, pos := s.pos + bl.length + 1, status := .comment } := by
        unfold ncStep
        simp only [hi.status]
        rw [if_neg hc2, if_neg h10, if_pos h35]
      obtain ⟨s', h1, h2⟩ := nc_stop_comment { s with tmp := t, pos := s.pos + bl.length + 1 + r'.length, status := .comment } a' rfl
      refine ⟨s', ?_, ?_, ?_⟩
      · rw [ha', hf, hstep]
        show (ncFold _ r').bind _ = _
        rw [nc_comment r' hmn _ rfl]
        exact h1
      · rw [h2]; exact hpm
      · rw [h2]
        simp only [withoutComments, hk, List.append_nil]
        exact hi.view
    · have hk : lineKind l = .command := by unfold lineKind; rw [hdw]; simp [h35, h10]
      have hstep : ncStep { s with tmp := t, pos := s.pos + bl.length + 1 } c false =
          .ok { s with tmp := ⟨s.pos + bl.length, 1, s.lastOff⟩, pos := s.pos + bl.length + 1, status := .command } := by
        unfold ncStep
        simp only [hi.status]
        rw [if_neg hc2, if_neg h10, if_neg h35]
        simp
      have hrun : ncRun s a l = ncStep { s with tmp := ⟨s.pos + bl.length, 1 + r'.length, s.lastOff⟩, pos := s.pos + bl.length + 1 + r'.length, status := .command } a' true := by
        rw [ha', hf, hstep]
        show (ncFold _ r').bind _ = _
        rw [nc_command r' hmn _ rfl]
        rfl
      have hpush := nc_push hi bl (c :: r') (by simp) (by rw [← hr]; exact htk) (by rw [← hr]; omega) ⟨s.pos + bl.length, 1 + r'.length, s.lastOff⟩
      have hlb : s.lastCom = true ∨ s.lastCom = false := by cases s.lastCom <;> simp
      have hfin : ∀ st, NcInv T st (out ++ (if fresh then c :: r' else pend ++ (bl ++ (c :: r')))) [] false → st.pos = s.pos + l.length →
          PiecesFrom T.length 0 st.parts.reverse ∧ hideView T st.parts.reverse = out ++ withoutComments fresh pend [l] := by
        intro st hst hp
        refine ⟨piecesFrom_mono (by omega) _ _ hst.pieces, ?_⟩
        rw [hst.view]
        simp only [withoutComments, hk, List.append_nil]
        rw [← hr, hdw]
      rcases hlb with hlc | hlc
      · have he : ncStep { s with tmp := ⟨s.pos + bl.length, 1 + r'.length, s.lastOff⟩, pos := s.pos + bl.length + 1 + r'.length, status := .command } a' true =
          .ok { s with status := .unknown, parts := ⟨s.pos + bl.length, 1 + r'.length, s.lastOff⟩ :: s.parts, lastOff := s.lastOff + (1 + r'.length), lastCom := false,
                       tmp := ⟨s.pos + bl.length, 0, s.lastOff⟩, pos := s.pos + bl.length + 1 + r'.length } := by
          unfold ncStep
          simp only [hlc]
          rw [if_pos (Or.inr trivial)]
          rfl
        rw [hrun, he]
        refine ⟨_, rfl, hfin _ ?_ (by rw [hr]; simp; omega)⟩
        exact hpush _ (by congr 1; simp; omega) ⟨rfl, by simp; omega, rfl, Or.inl ⟨hlc, rfl, rfl⟩⟩
      · obtain ⟨b, l', hb, -⟩ := hi.back (by rw [← hi.com]; exact hlc)
        have he : ncStep { s with tmp := ⟨s.pos + bl.length, 1 + r'.length, s.lastOff⟩, pos := s.pos + bl.length + 1 + r'.length, status := .command } a' true =
          .ok { s with status := .unknown, parts := { b with size := s.pos + bl.length + 1 + r'.length - b.start } :: l',
                       lastOff := b.off + (s.pos + bl.length + 1 + r'.length - b.start), lastCom := false,
                       tmp := ⟨s.pos + bl.length, 0, s.lastOff⟩, pos := s.pos + bl.length + 1 + r'.length } := by
          unfold ncStep
          simp only [hlc, hb]
          rw [if_pos (Or.inr trivial)]
          rfl
        rw [hrun, he]
        refine ⟨_, rfl, hfin _ ?_ (by rw [hr]; simp; omega)⟩
        exact hpush _ (by congr 1; simp; omega) ⟨rfl, by simp; omega, rfl, Or.inr ⟨hlc, b, l', hb, rfl, rfl⟩⟩

theorem nc_lines {T last : Bytes} (hlast : (10 : UInt8) ∉ last) (ls : List Bytes) : ∀ {s : NcSt} {out pend : Bytes} {fresh : Bool} (_ : NcInv T s out pend fresh)
    (_ : ∀ l ∈ ls, IsLine l) (_ : T.drop s.pos = ls.flatten ++ last) (_ : s.pos ≤ T.length) (a : UInt8),
    ∃ s', ncRun s a (ls.flatten ++ last) = .ok s' ∧ PiecesFrom T.length 0 s'.parts.reverse ∧
      hideView T s'.parts.reverse = out ++ withoutComments fresh pend (ls ++ [last]) := by
  induction ls with
  | nil =>
    intro s out pend fresh hi _ hT hlen a
    refine nc_last hi hlast hT ?_ a
    have := congrArg List.length hT
    rw [List.length_drop] at this
    simp at this
    omega
  | cons l ls ih =>
    intro s out pend fresh hi hls hT hlen a
    have hL : (T.drop s.pos).length = T.length - s.pos := List.length_drop
    have hL2 := congrArg List.length hT
    rw [hL] at hL2
    simp only [List.flatten_cons, List.length_append] at hL2
    obtain ⟨s', h1, h2, h3⟩ := nc_line hi (hls l (by simp)) (by rw [hT]; simp) (by omega)
    obtain ⟨a', ha'⟩ := ncRun_append l s a (ls.flatten ++ last)
    have hd : T.drop s'.pos = ls.flatten ++ last := by
      rw [h2, ← List.drop_drop, hT]; simp
    have hrun : ncRun s a ((l :: ls).flatten ++ last) = ncRun s' a' (ls.flatten ++ last) := by
      rw [List.flatten_cons, List.append_assoc, ha', h1]; rfl
    rw [hrun]
    have hls' : ∀ x ∈ ls, IsLine x := fun x hx => hls x (by simp [hx])
    cases hk : lineKind l with
    | blank =>
      rw [hk] at h3
      obtain ⟨s'', g1, g2, g3⟩ := ih h3 hls' hd (by omega) a'
      refine ⟨s'', g1, g2, ?_⟩
      simp only [List.cons_append, withoutComments, hk]; exact g3
    | comment =>
      rw [hk] at h3
      obtain ⟨s'', g1, g2, g3⟩ := ih h3 hls' hd (by omega) a'
      refine ⟨s'', g1, g2, ?_⟩
      simp only [List.cons_append, withoutComments, hk]; exact g3
    | command =>
      rw [hk] at h3
      obtain ⟨s'', g1, g2, g3⟩ := ih h3 hls' hd (by omega) a'
      refine ⟨s'', g1, g2, ?_⟩
      simp only [List.cons_append, withoutComments, hk]; rw [g3, List.append_assoc]

/-- no_comment -/
theorem ncPieces_view {text : Bytes} {ls : List Bytes} {last : Bytes} (h : IsText text ls last) :
    ∃ ps, ncPieces text = .ok ps ∧ PiecesFrom text.length 0 ps ∧ hideView text ps = withoutComments true [] (ls ++ [last]) := by
  have hi : NcInv text ⟨.unknown, ⟨0, 0, 0⟩, 0, true, [], 0⟩ [] [] true := ⟨rfl, rfl, trivial, rfl, rfl, by simp⟩
  obtain ⟨s', h1, h2, h3⟩ := nc_lines h.last ls hi h.lines (by simpa using h.eq) (by simp) 32
  refine ⟨_, ?_, h2, h3⟩
  unfold ncPieces
  have : ncRun ⟨.unknown, ⟨0, 0, 0⟩, 0, true, [], 0⟩ 32 text = .ok s' := by rw [h.eq]; exact h1
  rw [this]
  rfl

end Dar
