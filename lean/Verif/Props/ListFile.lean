import Verif.Spec.ListFile
import Verif.Lemmas.ListFile
import Verif.Props.Masks
import Mathlib.Data.List.Induction
/-! Property theorems C76 (listing files given to -[ and -]). -/
namespace Dar
open Lf

/-! ### Helper lemmas -/
namespace Lf

theorem endsWith_cut (bs t : Bytes) (i over : Nat) (hi : i < bs.length) (hl : t.length < i + 1 - over)
    (h : EndsWith (bs.take (i + 1)) t over) :
    bs = bs.take (i + 1 - over - t.length) ++ t ++ bs.drop (i + 1 - over) := by
  obtain ⟨pre, ov, e, el⟩ := h
  have hlen := congrArg List.length e
  simp only [List.length_take, List.length_append] at hlen
  have hp : pre.length = i + 1 - over - t.length := by omega
  have hb : bs = pre ++ t ++ (ov ++ bs.drop (i + 1)) := by
    conv => lhs; rw [← List.take_append_drop (i + 1) bs, e]
    simp
  have h1 : bs.take (i + 1 - over - t.length) = pre := by
    rw [hb, List.append_assoc, ← hp, List.take_left']
    rfl
  have h2 : bs.drop (i + 1 - over) = ov ++ bs.drop (i + 1) := by
    conv => lhs; rw [hb]
    exact List.drop_left' (by simp; omega)
  rw [h1, h2]; exact hb

theorem endsWith_head (bs t : Bytes) (i over : Nat) (hi : i < bs.length) (hl : ¬ t.length < i + 1 - over)
    (h : EndsWith (bs.take (i + 1)) t over) : ∃ rest, bs = t ++ rest := by
  obtain ⟨pre, ov, e, el⟩ := h
  have hlen := congrArg List.length e
  simp only [List.length_take, List.length_append] at hlen
  have hp : pre = [] := List.length_eq_zero_iff.mp (by omega)
  subst hp
  exact ⟨ov ++ bs.drop (i + 1), by
    conv => lhs; rw [← List.take_append_drop (i + 1) bs, e]
    simp⟩

theorem cutStream_sound (up : Bytes → Bytes) (seqs : List Bytes) (hs : [] ∉ seqs) (hne : seqs ≠ []) :
    ∀ (n : Nat) (bs : Bytes), bs.length ≤ n →
      (∃ ls, cutStream up (freshCut seqs) bs = .ok ls ∧ Cuts seqs up bs ls) ∨
      (cutStream up (freshCut seqs) bs = .error .bug ∧ HasEmptyLine seqs bs) := by
  intro n
  induction n with
  | zero =>
    intro bs h
    have : bs = [] := List.length_eq_zero_iff.mp (by omega)
    subst this
    left
    exact ⟨[], by rw [cutStream_none up _ (freshCut seqs) 0 [] rfl]; rfl, .done⟩
  | succ n ih =>
    intro bs hn
    rcases scan_ok seqs hs hne bs [] _ (freshCut_ok seqs hs) with ⟨e', he, _⟩ | ⟨t, ht, over, i, hi, he, hw⟩
    · left
      rw [cutStream_none up _ _ _ _ he]
      refine ⟨_, rfl, ?_⟩
      cases bs with
      | nil => exact .done
      | cons b bs => exact .last _ (by simp)
    · rw [List.nil_append] at hw
      by_cases hl : t.length < i + 1 - over
      · have hb := endsWith_cut bs t i over hi hl hw
        rw [cutStream_some up _ _ _ _ _ _ he hl (by omega)]
        have hln : bs.take (i + 1 - over - t.length) ≠ [] := by
          intro x
          have := congrArg List.length x
          rw [List.length_take, List.length_nil] at this; omega
        rcases ih (bs.drop (i + 1 - over)) (by rw [List.length_drop]; omega) with ⟨ls, h1, h2⟩ | ⟨h1, h2⟩
        · left
          rw [h1]
          refine ⟨_, rfl, ?_⟩
          have := Cuts.line (up := up) _ t _ ls hln ht h2
          rw [← hb] at this
          exact this
        · right
          rw [h1]
          refine ⟨rfl, ?_⟩
          have := HasEmptyLine.later _ t _ hln ht h2
          rw [← hb] at this
          exact this
      · right
        rw [cutStream_bug up _ _ _ _ _ _ he hl]
        obtain ⟨rest, hb⟩ := endsWith_head bs t i over hi hl hw
        exact ⟨rfl, by rw [hb]; exact .here t rest ht⟩

/-- Reading lines all of which have the same fate: the general pattern of the exact statements. -/
theorem cutStream_lines (up : Bytes → Bytes) (e0 : Cutter) {α : Type} (ps : List α) (txt : α → Bytes) (eol : α → Bytes)
    (last : Bytes) (hlast : ∃ e' n, scan e0 last = .ok (e', n, none))
    (h : ∀ p ∈ ps, ∀ rest, ∃ e', scan e0 (txt p ++ eol p ++ rest) =
      .ok (e', (txt p ++ eol p).length - 1, some ((eol p).length, 0)) ∧ eol p ≠ []) :
    cutStream up e0 ((ps.map (fun p => txt p ++ eol p)).flatten ++ last) =
      if ∃ p ∈ ps, txt p = [] then .error .bug
      else .ok (ps.map (fun p => up (txt p)) ++ if last = [] then [] else [last]) := by
  induction ps with
  | nil =>
    obtain ⟨e', n, hl⟩ := hlast
    rw [List.map_nil, List.flatten_nil, List.nil_append, cutStream_none up _ _ _ _ hl, if_neg (show ¬ ∃ p ∈ ([] : List α), txt p = [] from fun x => by obtain ⟨q, hq, _⟩ := x; cases hq)]
    cases last with
    | nil => rfl
    | cons x l => rfl
  | cons p ps ih =>
    have ih := ih (fun q hq => h q (List.mem_cons_of_mem _ hq))
    rw [List.map_cons, List.flatten_cons, List.append_assoc]
    obtain ⟨e', he, hne⟩ := h p List.mem_cons_self ((ps.map (fun p => txt p ++ eol p)).flatten ++ last)
    have hel : 0 < (eol p).length := List.length_pos_iff.mpr hne
    have hlen : (txt p ++ eol p).length = (txt p).length + (eol p).length := by simp
    by_cases hp : txt p = []
    · rw [cutStream_bug up _ _ _ _ _ _ he (by rw [hlen, hp]; simp; omega), if_pos ⟨p, List.mem_cons_self, hp⟩]
    · have htl : 0 < (txt p).length := List.length_pos_iff.mpr hp
      rw [cutStream_some up _ _ _ _ _ _ he (by omega) (by simp; omega)]
      have e1 : (txt p ++ eol p).length - 1 + 1 - 0 = (txt p ++ eol p).length := by omega
      rw [e1, List.drop_left' rfl, ih]
      have e2 : (txt p ++ eol p ++ ((ps.map (fun p => txt p ++ eol p)).flatten ++ last)).take
          ((txt p ++ eol p).length - (eol p).length) = txt p := by
        rw [List.append_assoc]
        exact List.take_left' (by omega)
      rw [e2]
      by_cases hx : ∃ q ∈ ps, txt q = []
      · rw [if_pos hx, if_pos (by obtain ⟨q, hq, e⟩ := hx; exact ⟨q, List.mem_cons_of_mem _ hq, e⟩)]; rfl
      · rw [if_neg hx, if_neg (show ¬ ∃ q ∈ p :: ps, txt q = [] from fun hy => by
          obtain ⟨q, hq, e⟩ := hy
          rcases List.mem_cons.mp hq with hq | hq
          · rw [hq] at e; exact hp e
          · exact hx ⟨q, hq, e⟩)]
        rfl

/-! the default sequences -/

def dfltSt (odd : Bool) : Cutter :=
  { curs := [Cur.fresh [10], { Cur.fresh [13, 10] with prog := if odd then 1 else 0 }], refp := 0 }

theorem dflt_fresh : freshCut [[10], [13, 10]] = dfltSt false := rfl

theorem dflt_cr (o : Bool) : (dfltSt o).eolReached 13 = .ok (dfltSt (!o), none) := by cases o <;> rfl

theorem dflt_lf (o : Bool) : (dfltSt o).eolReached 10 = .ok (dfltSt false, some (if o then 2 else 1, 0)) := by
  cases o <;> rfl

theorem dflt_other (o : Bool) (b : UInt8) (h1 : b ≠ 10) (h2 : b ≠ 13) :
    (dfltSt o).eolReached b = .ok (dfltSt false, none) := by
  have h1' : ¬ (10 : UInt8) = b := fun h => h1 h.symm
  have h2' : ¬ (13 : UInt8) = b := fun h => h2 h.symm
  cases o <;>
  simp [dfltSt, Cutter.eolReached, feedAll, Cur.feed, Cur.matched, Cur.fresh, h1', h2', bind, Except.bind]

theorem endCr_snoc (l : Bytes) (b : UInt8) : endCr (l ++ [b]) = if b = 13 then endCr l + 1 else 0 := by
  unfold endCr
  rw [List.reverse_append, List.reverse_singleton, List.singleton_append, List.takeWhile_cons]
  by_cases h : b = 13 <;> simp [h]

theorem dflt_scan (p : Bytes) (h : (10 : UInt8) ∉ p) :
    scan (dfltSt false) p = .ok (dfltSt (decide (endCr p % 2 = 1)), p.length, none) := by
  induction p using List.reverseRecOn with
  | nil => rfl
  | append_singleton l b ih =>
    have ih := ih (fun x => h (by simp [x]))
    have hb : b ≠ 10 := fun x => h (by simp [x])
    rw [scan_append l _ _ _ _ ih, scan, endCr_snoc]
    by_cases h13 : b = 13
    · subst h13
      rw [dflt_cr, if_pos rfl]
      have : (!decide (endCr l % 2 = 1)) = decide ((endCr l + 1) % 2 = 1) := by
        rcases Nat.mod_two_eq_zero_or_one (endCr l) with h0 | h0
        · have : (endCr l + 1) % 2 = 1 := by omega
          simp [h0, this]
        · have : (endCr l + 1) % 2 = 0 := by omega
          simp [h0, this]
      rw [this]
      simp [Except.map, bind, Except.bind, scan]
      omega
    · rw [dflt_other _ _ hb h13, if_neg h13]
      simp [Except.map, bind, Except.bind, scan]
      omega

theorem endCr_dropLast (p : Bytes) (h : endCr p ≠ 0) : p = p.dropLast ++ [13] := by
  induction p using List.reverseRecOn with
  | nil => simp [endCr] at h
  | append_singleton l b _ =>
    rw [endCr_snoc] at h
    by_cases hb : b = 13
    · simp [hb]
    · rw [if_neg hb] at h; exact absurd rfl h

/-- The end of line of the line `p`. -/
def dfltEol (p : Bytes) : Bytes := if endCr p % 2 = 1 then [13, 10] else [10]

theorem strip_eol (p : Bytes) : stripCr p ++ dfltEol p = p ++ [10] := by
  unfold stripCr dfltEol
  by_cases h : endCr p % 2 = 1
  · rw [if_pos h, if_pos h]
    have := endCr_dropLast p (by omega)
    conv => rhs; rw [this]
    simp
  · rw [if_neg h, if_neg h]

theorem dflt_noOver : NoOver [[10], [13, 10]] := by
  intro s hs t ht p q e
  have hl := congrArg List.length e
  simp only [List.mem_cons, List.not_mem_nil, or_false] at hs ht
  rcases hs with rfl | rfl <;> rcases ht with rfl | rfl <;> simp only [List.length_append, List.length_cons, List.length_nil] at hl
  · exact List.length_eq_zero_iff.mp (by omega)
  · -- LF in CR LF
    match p, hl, e with
    | [], _, e => simp at e
    | [_], hl, _ => exact List.length_eq_zero_iff.mp (by rw [List.length_cons, List.length_nil] at hl; omega)
    | _ :: _ :: _, hl, _ => rw [List.length_cons, List.length_cons] at hl; omega
  · exact List.length_eq_zero_iff.mp (by omega)
  · exact List.length_eq_zero_iff.mp (by omega)

/-! one-byte sequences -/

theorem one_noOver (seqs : List Bytes) (h : ∀ s ∈ seqs, s.length = 1) : NoOver seqs := by
  intro s hs t ht p q e
  have hl := congrArg List.length e
  rw [List.length_append, List.length_append, h s hs, h t ht] at hl
  exact List.length_eq_zero_iff.mp (by omega)

theorem one_miss (seqs : List Bytes) (h : ∀ s ∈ seqs, s.length = 1) (hne : seqs ≠ []) (b : UInt8) (hb : [b] ∉ seqs) :
    (freshCut seqs).eolReached b = .ok (freshCut seqs, none) := by
  have hs : [] ∉ seqs := fun x => by have := h _ x; simp at this
  rcases eolReached_ok seqs hs hne [] _ b (freshCut_ok seqs hs) with ⟨e', he, ok⟩ | ⟨s, hm, over, _, hw⟩
  · have hfd : ∀ c ∈ (freshCut seqs).curs, fd b c = c ∧ hitNow b c = false := by
      intro c hc
      obtain ⟨s, hm, rfl⟩ := List.mem_map.mp hc
      have hl := h s hm
      match s, hl with
      | [x], _ =>
        have hx : x ≠ b := fun e => hb (e ▸ hm)
        simp [fd, hitNow, Cur.fresh, hx]
    rw [Cutter.eolReached, feedAll_eq b _ (freshCut_ok seqs hs).lt]
    have hmap : (freshCut seqs).curs.map (fd b) = (freshCut seqs).curs := by
      conv => rhs; rw [← List.map_id (freshCut seqs).curs]
      exact List.map_congr_left (fun c hc => (hfd c hc).1)
    have hany : (freshCut seqs).curs.any (hitNow b) = false := by
      rw [List.any_eq_false]
      intro c hc; rw [(hfd c hc).2]; exact Bool.false_ne_true
    have href : refAfter b (freshCut seqs).curs (freshCut seqs).refp = 0 := by
      rcases (refAfter_spec b (freshCut seqs).curs 0).2.2 with h | ⟨c, hc, hk, _⟩
      · exact h
      · rw [(hfd c hc).2] at hk; cases hk
    simp only [bind, Except.bind, hmap, hany, href, Bool.not_false, Bool.true_and, Bool.or_false]
    have hall : (freshCut seqs).curs.all (fun c => c.bypass || c.matched) = false := by
      cases hq : seqs with
      | nil => exact absurd hq hne
      | cons s ss =>
        have hl := h s (by rw [hq]; exact List.mem_cons_self)
        simp [freshCut, Cur.fresh, Cur.matched, hl]
    rw [hall]
    rfl
  · exfalso
    obtain ⟨pre, ov, e, _⟩ := hw
    have hl := congrArg List.length e
    simp only [List.nil_append, List.length_append, List.length_cons, List.length_nil, h s hm] at hl
    have h1 : pre = [] := List.length_eq_zero_iff.mp (by omega)
    have h2 : ov = [] := List.length_eq_zero_iff.mp (by omega)
    subst h1; subst h2
    simp at e
    exact hb (e ▸ hm)

theorem one_hit (seqs : List Bytes) (h : ∀ s ∈ seqs, s.length = 1) (hne : seqs ≠ []) (b : UInt8) (hb : [b] ∈ seqs) :
    (freshCut seqs).eolReached b = .ok (freshCut seqs, some (1, 0)) := by
  have hs : [] ∉ seqs := fun x => by have := h _ x; simp at this
  rcases eolReached_ok seqs hs hne [] _ b (freshCut_ok seqs hs) with ⟨e', he, ok⟩ | ⟨s, hm, over, he, hw⟩
  · exfalso
    have hn := eolReached_noOver seqs hs (one_noOver seqs h) [] _ b (freshCut_ok seqs hs)
      (by intro c hc; obtain ⟨q, _, rfl⟩ := List.mem_map.mp hc; exact ⟨rfl, rfl⟩) rfl _ he
    -- the cursor of `[b]` is complete, hence bypassed
    rw [Cutter.eolReached, feedAll_eq b _ (freshCut_ok seqs hs).lt] at he
    have hany : (freshCut seqs).curs.any (hitNow b) = true := by
      rw [List.any_eq_true]
      exact ⟨Cur.fresh [b], List.mem_map_of_mem hb, by simp [hitNow, Cur.fresh]⟩
    simp only [bind, Except.bind, hany, Bool.not_true, Bool.false_and, Bool.or_true, if_true, Bool.false_eq_true, if_false] at he
    by_cases hall : (bypassOrLarger (refAfter b (freshCut seqs).curs (freshCut seqs).refp) ((freshCut seqs).curs.map (fd b))).2 = true
    · rw [if_pos hall] at he
      cases hf : findLarger (bypassOrLarger (refAfter b (freshCut seqs).curs (freshCut seqs).refp) ((freshCut seqs).curs.map (fd b))).1
          (refAfter b (freshCut seqs).curs (freshCut seqs).refp) with
      | error x => rw [hf] at he; cases he
      | ok o => rw [hf] at he; cases o <;> simp at he
    · rw [if_neg hall] at he
      injection he with he
      have he : _ = e' := congrArg Prod.fst he
      have hc := hn.1 rfl (afterBy (refAfter b (freshCut seqs).curs (freshCut seqs).refp) (fd b (Cur.fresh [b]))) (by
        rw [← he]
        exact List.mem_map_of_mem (f := afterBy _) (List.mem_map_of_mem (List.mem_map_of_mem hb)))
      have hF : (fd b (Cur.fresh [b])).prog = (fd b (Cur.fresh [b])).seq.length := by simp [fd, Cur.fresh]
      have hB : (fd b (Cur.fresh [b])).bypass = false := by simp [fd, Cur.fresh]
      rcases setBypass_cases (fd b (Cur.fresh [b])) (refAfter b (freshCut seqs).curs (freshCut seqs).refp) hB with ⟨_, e1⟩ | ⟨h1, _⟩
      · unfold afterBy at hc
        rw [e1] at hc
        simp at hc
      · exact h1.1 hF
  · obtain ⟨pre, ov, e, eo⟩ := hw
    have hl := congrArg List.length e
    simp only [List.nil_append, List.length_append, List.length_cons, List.length_nil, h s hm] at hl
    have : over = 0 := by omega
    subst this
    rw [he, h s hm]

theorem one_scan (seqs : List Bytes) (h : ∀ s ∈ seqs, s.length = 1) (hne : seqs ≠ []) (p : Bytes)
    (hp : ∀ b ∈ p, [b] ∉ seqs) : scan (freshCut seqs) p = .ok (freshCut seqs, p.length, none) := by
  induction p with
  | nil => rfl
  | cons b p ih =>
    rw [scan, one_miss seqs h hne b (hp b List.mem_cons_self)]
    simp only [bind, Except.bind]
    rw [ih (fun c hc => hp c (List.mem_cons_of_mem _ hc))]
    rfl

end Lf

/-! ### The property -/

/-- Nothing of the file is lost or invented, whatever the end of line sequences: the lines found are the text between
some of the end of line sequences, in their order, and the only failure is the internal error met on an empty line.  The
file is read in one go (it is at most 20480 bytes long), or no sequence is found inside another one, unless at its end. -/
theorem C76_nothing_lost_partial (up : Bytes → Bytes) (hup : ∀ l, l ≠ [] → up l ≠ []) (given : List Bytes)
    (hs : [] ∉ given) (reads : List Bytes) (h : reads.length ≤ 1 ∨ NoOver (seqsOf given)) :
    (∃ ls, linesOf up given reads = .ok ls ∧ Cuts (seqsOf given) up reads.flatten ls) ∨
    (linesOf up given reads = .error .bug ∧ HasEmptyLine (seqsOf given) reads.flatten) := by
  rw [linesOf_eq up hup given hs reads h]
  exact cutStream_sound up _ (seqsOf_nil given hs) (seqsOf_ne given) _ _ (Nat.le_refl _)

/-- The hypothesis is met by the default sequences, whatever the size of the file. -/
example (reads : List Bytes) : reads.length ≤ 1 ∨ NoOver (seqsOf []) := Or.inr dflt_noOver

/-- The way the file is read, by pieces of at most 20480 bytes or otherwise, does not change the lines. -/
theorem C76_chunking_partial (up : Bytes → Bytes) (hup : ∀ l, l ≠ [] → up l ≠ []) (given : List Bytes)
    (hs : [] ∉ given) (hno : NoOver (seqsOf given)) (reads reads' : List Bytes) (h : reads.flatten = reads'.flatten) :
    linesOf up given reads = linesOf up given reads' := by
  rw [linesOf_eq up hup given hs reads (Or.inr hno), linesOf_eq up hup given hs reads' (Or.inr hno), h]

/-- It does when a sequence is found inside another one: with "to" and "toAtoAZ" as ends of line, the same file is read
when it comes in one piece, and makes the program build a text from an end that is before its beginning when it comes in two
pieces ("Lto", "AtoAtQ"). -/
theorem C76_chunking_counterexample :
    linesOf id [[116, 111], [116, 111, 65, 116, 111, 65, 90]] [[76, 116, 111, 65, 116, 111, 65, 116, 81]] =
      .ok [[76], [65], [65, 116, 81]] ∧
    linesOf id [[116, 111], [116, 111, 65, 116, 111, 65, 90]] [[76, 116, 111], [65, 116, 111, 65, 116, 81]] =
      .error .ub := ⟨rfl, rfl⟩

/-- A file with the default ends of line: the lines are what is between the line feeds, without the carriage return before
the line feed when the number of carriage returns there is odd; what follows the last line feed is a line if it is not empty,
and is taken as it is.  An empty line makes the program stop with an internal error. -/
theorem C76_default (up : Bytes → Bytes) (hup : ∀ l, l ≠ [] → up l ≠ []) (ps : List Bytes) (last : Bytes)
    (hps : ∀ p ∈ ps, (10 : UInt8) ∉ p) (hlast : (10 : UInt8) ∉ last) (reads : List Bytes)
    (hr : reads.flatten = (ps.map (fun p => p ++ [10])).flatten ++ last) :
    linesOf up [] reads =
      if ∃ p ∈ ps, stripCr p = [] then .error .bug
      else .ok (ps.map (fun p => up (stripCr p)) ++ if last = [] then [] else [last]) := by
  rw [linesOf_eq up hup [] (by simp) reads (Or.inr dflt_noOver), hr]
  have h1 : (ps.map (fun p => p ++ [10])) = ps.map (fun p => stripCr p ++ dfltEol p) :=
    List.map_congr_left (fun p _ => (strip_eol p).symm)
  rw [h1]
  refine cutStream_lines up (freshCut (seqsOf [])) ps stripCr dfltEol last ⟨_, _, dflt_scan last hlast⟩ ?_
  intro p hp rest
  refine ⟨dfltSt false, ?_, by unfold dfltEol; split <;> simp⟩
  rw [strip_eol]
  have hsc := scan_append p _ _ _ [10] (dflt_scan p (hps p hp))
  rw [scan, dflt_lf] at hsc
  have h2 := scan_some_append (p ++ [10]) (dfltSt false) (dfltSt false) (0 + p.length)
    (if decide (endCr p % 2 = 1) then 2 else 1, 0) rest hsc
  show scan (dfltSt false) _ = _
  rw [h2]
  have h3 : (dfltEol p).length = if decide (endCr p % 2 = 1) = true then 2 else 1 := by
    unfold dfltEol
    by_cases h : endCr p % 2 = 1
    · rw [if_pos h, decide_eq_true h]; rfl
    · rw [if_neg h, decide_eq_false h]; rfl
  rw [h3]
  simp

/-- Every file is of this shape. -/
theorem C76_default_shape (text : Bytes) : ∃ (ps : List Bytes) (last : Bytes), (∀ p ∈ ps, (10 : UInt8) ∉ p) ∧
    (10 : UInt8) ∉ last ∧ text = (ps.map (fun p => p ++ [10])).flatten ++ last := by
  induction text with
  | nil => exact ⟨[], [], by simp, by simp, rfl⟩
  | cons b t ih =>
    obtain ⟨ps, last, h1, h2, h3⟩ := ih
    by_cases hb : b = 10
    · refine ⟨[] :: ps, last, ?_, h2, by rw [h3, hb]; simp⟩
      intro p hp
      rcases List.mem_cons.mp hp with rfl | hp
      · simp
      · exact h1 p hp
    · cases ps with
      | nil =>
        refine ⟨[], b :: last, by simp, ?_, by rw [h3]; simp⟩
        intro x
        rcases List.mem_cons.mp x with x | x
        · exact hb x.symm
        · exact h2 x
      | cons p ps =>
        refine ⟨(b :: p) :: ps, last, ?_, h2, by rw [h3]; simp⟩
        intro q hq
        rcases List.mem_cons.mp hq with rfl | hq
        · intro x
          rcases List.mem_cons.mp x with x | x
          · exact hb x.symm
          · exact h1 p List.mem_cons_self x
        · exact h1 q (List.mem_cons_of_mem _ hq)

/-- What is documented is what is done for the lines that do not end by two carriage returns or more. -/
theorem C76_crlf_partial (l : Bytes) (h : endCr l ≤ 1) : stripCr l = docStrip l := by
  unfold stripCr docStrip
  by_cases h1 : endCr l = 1
  · rw [if_pos (by omega), if_pos]
    rw [endCr_dropLast l (by omega)]; simp
  · rw [if_neg (by omega), if_neg]
    intro hx
    have h0 : endCr l = 0 := by omega
    obtain ⟨l', rfl⟩ := List.getLast?_eq_some_iff.mp hx
    rw [endCr_snoc, if_pos rfl] at h0
    omega

/-- With two carriage returns before the line feed, neither belongs to the end of line. -/
theorem C76_crlf_counterexample : linesOf id [] [[97, 13, 13, 10, 98, 13, 10]] = .ok [[97, 13, 13], [98]] := rfl

/-- An empty line in the file, even followed by others, makes the program stop with an internal error. -/
theorem C76_empty_line_counterexample :
    linesOf id [] [[97, 10, 10, 98, 10]] = .error .bug ∧ linesOf id [] [[13, 10, 97, 10]] = .error .bug := ⟨rfl, rfl⟩

/-- Without regard to the case, the last line is not put in upper case when no end of line follows it: the paths looked for
being in upper case, this line has no effect. -/
theorem C76_last_line_counterexample (up : Bytes → Bytes) (ha : up [97] = [65]) (hup : ∀ l, l ≠ [] → up l ≠ []) :
    linesOf up [] [[97, 10, 97]] = .ok [[65], [97]] := by
  have := C76_default up hup [[97]] [97] (by decide) (by decide) [[97, 10, 97]] rfl
  rw [this, if_neg (by decide)]
  show Except.ok ([up [97]] ++ _) = _
  rw [ha]; rfl

/-- The end of the file does not end the search of a longer sequence: with "\n" and "\n\r" the last line keeps its line
feed. -/
theorem C76_end_of_file_counterexample :
    linesOf id [[10], [10, 13]] [[97, 10, 98, 10]] = .ok [[97], [98, 10]] := rfl

/-- A sequence that begins inside a failed attempt is missed: with "aab" as end of line, the text "xaaaby" is a single line. -/
theorem C76_overlap_counterexample :
    linesOf id [[97, 97, 98]] [[120, 97, 97, 97, 98, 121]] = .ok [[120, 97, 97, 97, 98, 121]] := rfl

/-- One-byte ends of line (a null byte, for example): the lines are exactly what is between them. -/
theorem C76_single_byte (up : Bytes → Bytes) (hup : ∀ l, l ≠ [] → up l ≠ []) (given : List Bytes)
    (h1 : ∀ s ∈ given, s.length = 1) (hne : given ≠ []) (ps : List (Bytes × UInt8)) (last : Bytes)
    (hps : ∀ p ∈ ps, (∀ b ∈ p.1, [b] ∉ given) ∧ [p.2] ∈ given) (hlast : ∀ b ∈ last, [b] ∉ given) (reads : List Bytes)
    (hr : reads.flatten = (ps.map (fun p => p.1 ++ [p.2])).flatten ++ last) :
    linesOf up given reads =
      if ∃ p ∈ ps, p.1 = [] then .error .bug
      else .ok (ps.map (fun p => up p.1) ++ if last = [] then [] else [last]) := by
  have he : seqsOf given = given := by unfold seqsOf; rw [if_neg hne]
  have hs : [] ∉ given := fun x => by have := h1 _ x; simp at this
  rw [linesOf_eq up hup given hs reads (Or.inr (by rw [he]; exact one_noOver given h1)), hr, he]
  refine cutStream_lines up (freshCut given) ps Prod.fst (fun p => [p.2]) last ⟨_, _, one_scan given h1 hne last hlast⟩ ?_
  intro p hp rest
  refine ⟨freshCut given, ?_, by simp⟩
  have hsc := scan_append p.1 _ _ _ [p.2] (one_scan given h1 hne p.1 (hps p hp).1)
  rw [scan, one_hit given h1 hne p.2 (hps p hp).2] at hsc
  have h2 := scan_some_append (p.1 ++ [p.2]) (freshCut given) (freshCut given) (0 + p.1.length) (1, 0) rest hsc
  rw [h2]
  simp

/-- A case: null bytes. -/
example : linesOf id [[0]] [[97, 98, 0, 10], [99, 0]] = .ok [[97, 98], [10, 99]] := rfl

/-- An empty sequence is refused. -/
theorem C76_empty_sequence (up : Bytes → Bytes) (given : List Bytes) (h : [] ∈ given) (reads : List Bytes) :
    linesOf up given reads = .error .range := by
  unfold linesOf Cutter.make seqsOf
  have hne : given ≠ [] := fun x => by rw [x] at h; cases h
  rw [if_neg hne, if_pos h]; rfl

/-! ### From the file to the selection -/

/-- A line of the list: the names of a path, absolute or relative to the prefix. -/
structure ListLine where
  absolute : Bool
  names : List Bytes

def ListLine.text (l : ListLine) : Bytes := (if l.absolute then [47] else []) ++ joinSlash l.names

/-- The absolute path it designates. -/
def ListLine.path (pre : PathT) (l : ListLine) : PathT :=
  ⟨if l.absolute then l.names else pre.dirs ++ l.names, false, false⟩

/-- Ordinary names, without line feed; the last one does not end by a carriage return; a relative line is not empty. -/
def ListLine.good (l : ListLine) : Prop :=
  (∀ d ∈ l.names, isName d ∧ (0 : UInt8) ∉ d ∧ (10 : UInt8) ∉ d) ∧ l.text.getLast? ≠ some 13 ∧
  (l.absolute = false → l.names ≠ [])

theorem Lf.reparse_rel (names : List Bytes) (hne : names ≠ []) (h : ∀ d ∈ names, isName d ∧ (0 : UInt8) ∉ d) :
    pathOf (joinSlash names) false = .ok ⟨names, true, false⟩ := by
  have := C25_display_parse ⟨names, true, false⟩ (by
    right; left
    exact ⟨fun _ => hne, 0, names, by simp, fun d hd => (h d hd).1⟩) rfl (by
    rintro ⟨u, ⟨w, _, rfl⟩, hd⟩
    have hd : names = [w ++ [58, 47]] := hd
    exact (h (w ++ [58, 47]) (by rw [hd]; simp)).1.2.1 (by simp))
  simpa [PathT.display] using this

theorem Lf.withPrefix_good (pre : PathT) (hpre : AbsNames pre) (ls : List ListLine) (h : ∀ l ∈ ls, l.good) :
    withPrefix pre (ls.map ListLine.text) = .ok ((ls.map (ListLine.path pre)).map PathT.display) := by
  induction ls with
  | nil => rfl
  | cons l ls ih =>
    have hg := h l List.mem_cons_self
    rw [List.map_cons, withPrefix, ih (fun x hx => h x (List.mem_cons_of_mem _ hx))]
    have hn : ∀ d ∈ l.names, isName d ∧ (0 : UInt8) ∉ d := fun d hd => ⟨(hg.1 d hd).1, (hg.1 d hd).2.1⟩
    cases hab : l.absolute with
    | true =>
      have hA : AbsNames ⟨l.names, false, false⟩ := ⟨rfl, rfl, hn⟩
      have ht : l.text = (⟨l.names, false, false⟩ : PathT).display := by
        unfold ListLine.text PathT.display; rw [hab]; rfl
      have hp : l.path pre = ⟨l.names, false, false⟩ := by unfold ListLine.path; rw [hab]; rfl
      rw [ht, hA.reparse]
      simp only [bind, Except.bind, List.map_cons, hp]
      rfl
    | false =>
      have ht : l.text = joinSlash l.names := by unfold ListLine.text; rw [hab]; rfl
      have hp : l.path pre = ⟨pre.dirs ++ l.names, false, false⟩ := by unfold ListLine.path; rw [hab]; rfl
      rw [ht, reparse_rel l.names (hg.2.2 hab) hn]
      have hf : l.names.filter (· ≠ pDot) = l.names := filter_names _ (fun d hd => (hn d hd).1.2.2.1)
      have hadd : pre.addPath ⟨l.names, true, false⟩ = .ok ⟨pre.dirs ++ l.names, false, false⟩ := by
        unfold PathT.addPath
        rw [if_neg (by simp), hpre.1, hpre.2.1]
        simp only [hf]
        rw [pathReduce_fix]
        · rfl
        · right; left
          refine ⟨by simp, 0, pre.dirs ++ l.names, by simp, ?_⟩
          intro d hd
          rcases List.mem_append.mp hd with hd | hd
          · exact (hpre.2.2 d hd).1
          · exact (hn d hd).1
      simp only [bind, Except.bind, hadd, List.map_cons, hp, if_true]

theorem Lf.text_free (l : ListLine) (h : l.good) : (10 : UInt8) ∉ l.text := by
  have hj : ∀ ns : List Bytes, (∀ d ∈ ns, (10 : UInt8) ∉ d) → (10 : UInt8) ∉ joinSlash ns := by
    intro ns
    induction ns with
    | nil => intro _; simp [joinSlash]
    | cons d ns ih =>
      intro hd
      have h1 := hd d List.mem_cons_self
      have h2 := ih (fun e he => hd e (List.mem_cons_of_mem _ he))
      cases ns with
      | nil => exact h1
      | cons e ns =>
        show (10 : UInt8) ∉ d ++ 47 :: joinSlash (e :: ns)
        intro x
        rcases List.mem_append.mp x with x | x
        · exact h1 x
        · rcases List.mem_cons.mp x with x | x
          · cases x
          · exact h2 x
  unfold ListLine.text
  intro x
  rcases List.mem_append.mp x with x | x
  · split at x <;> simp at x
  · exact hj _ (fun d hd => (h.1 d hd).2.2) x

theorem Lf.text_ne (l : ListLine) (h : l.good) : l.text ≠ [] := by
  unfold ListLine.text
  cases hab : l.absolute with
  | true => simp
  | false =>
    have hn := h.2.2 hab
    have hg := h.1
    cases hq : l.names with
    | nil => exact absurd hq hn
    | cons d ns =>
      have hd := (hg d (by rw [hq]; exact List.mem_cons_self)).1.1
      cases ns with
      | nil => simpa [joinSlash] using hd
      | cons e ns => simp [joinSlash]

theorem Lf.strip_text (l : ListLine) (h : l.good) (cr : Bool) :
    stripCr (l.text ++ if cr then [13] else []) = l.text := by
  have h0 : endCr l.text = 0 := by
    cases hq : endCr l.text with
    | zero => rfl
    | succ n =>
      exfalso
      have := endCr_dropLast l.text (by omega)
      exact h.2.1 (by rw [this]; simp)
  cases cr with
  | true =>
    unfold stripCr
    simp only [if_true]
    rw [endCr_snoc, if_pos rfl, h0, if_pos rfl]
    simp
  | false =>
    unfold stripCr
    simp [h0]

/-- The file that lists the given paths, one per line, each followed by a line feed or by a carriage return and a line
feed, the last end of line being possibly absent. -/
def listText (ls : List (ListLine × Bool)) (last : Option ListLine) : Bytes :=
  (ls.map (fun l => l.1.text ++ (if l.2 then [13] else []) ++ [10])).flatten ++ (last.map ListLine.text).getD []

/-- A listing file, case sensitive: with -[ an entry is selected if and only if it is one of the paths listed or a
directory leading to one; with -] it is excluded if and only if it is one of them.  Relative paths are taken from the prefix.
The lines may end with LF or CR LF, the last one with nothing. -/
theorem C76_selection (pre : PathT) (hpre : AbsNames pre) (ls : List (ListLine × Bool)) (last : Option ListLine)
    (hg : ∀ l ∈ ls.map Prod.fst ++ last.toList, l.good) (reads : List Bytes) (hr : reads.flatten = listText ls last) :
    ∃ lines full, linesOf id [] reads = .ok lines ∧ withPrefix pre lines = .ok full ∧
      (∀ t, AbsNames t → ∃ b, mlCovered (mlBuild full) true t.display = .ok b ∧
        (b = true ↔ ∃ l ∈ ls.map Prod.fst ++ last.toList, t.dirs <+: (l.path pre).dirs)) ∧
      (∀ t, AbsNames t → ∃ b, mlCovered (mlBuild full) false t.display = .ok b ∧
        (b = true ↔ ∃ l ∈ ls.map Prod.fst ++ last.toList, t.dirs = (l.path pre).dirs)) := by
  have hgl : ∀ l ∈ ls, l.1.good := fun l hl => hg l.1 (List.mem_append_left _ (List.mem_map_of_mem hl))
  have hd := C76_default id (fun l h => h) (ls.map (fun l => l.1.text ++ if l.2 then [13] else [])) ((last.map ListLine.text).getD [])
    (by
      intro p hp x
      obtain ⟨l, hl, rfl⟩ := List.mem_map.mp hp
      rcases List.mem_append.mp x with x | x
      · exact text_free l.1 (hgl l hl) x
      · split at x <;> simp at x)
    (by
      cases last with
      | none => simp
      | some l => exact text_free l (hg l (by simp)))
    reads (by rw [hr, List.map_map]; rfl)
  have hst : ∀ l ∈ ls, stripCr (l.1.text ++ if l.2 then [13] else []) = l.1.text := fun l hl => strip_text l.1 (hgl l hl) l.2
  rw [if_neg (show ¬ ∃ p ∈ ls.map (fun l => l.1.text ++ if l.2 then [13] else []), stripCr p = [] from fun hx => by
    obtain ⟨p, hp, e⟩ := hx
    obtain ⟨l, hl, rfl⟩ := List.mem_map.mp hp
    rw [hst l hl] at e
    exact text_ne l.1 (hgl l hl) e)] at hd
  have hlines : linesOf id [] reads = .ok ((ls.map Prod.fst ++ last.toList).map ListLine.text) := by
    rw [hd, List.map_map, List.map_append]
    have h1 : ls.map ((fun p => id (stripCr p)) ∘ fun l => l.1.text ++ if l.2 then [13] else []) =
        (ls.map Prod.fst).map ListLine.text := by
      rw [List.map_map]
      exact List.map_congr_left (fun l hl => hst l hl)
    rw [h1]
    cases last with
    | none => simp
    | some l =>
      have := text_ne l (hg l (by simp))
      simp [this]
  have hA : ∀ e ∈ (ls.map Prod.fst ++ last.toList).map (ListLine.path pre), AbsNames e := by
    intro e he
    obtain ⟨l, hl, rfl⟩ := List.mem_map.mp he
    refine ⟨rfl, rfl, ?_⟩
    have hn : ∀ d ∈ l.names, isName d ∧ (0 : UInt8) ∉ d := fun d hd => ⟨((hg l hl).1 d hd).1, ((hg l hl).1 d hd).2.1⟩
    intro d hd
    have hd : d ∈ (if l.absolute then l.names else pre.dirs ++ l.names) := hd
    split at hd
    · exact hn d hd
    · rcases List.mem_append.mp hd with hd | hd
      · exact hpre.2.2 d hd
      · exact hn d hd
  refine ⟨_, _, hlines, withPrefix_good pre hpre _ hg, ?_, ?_⟩
  · intro t ht
    obtain ⟨b, h1, h2⟩ := C27_list_include _ hA t ht
    refine ⟨b, h1, h2.trans ?_⟩
    simp only [List.mem_map, exists_exists_and_eq_and]
  · intro t ht
    obtain ⟨b, h1, h2⟩ := C27_list_exclude (((ls.map Prod.fst ++ last.toList).map (ListLine.path pre)).map PathT.display) t.display
    refine ⟨b, h1, h2.trans ?_⟩
    constructor
    · intro hx
      obtain ⟨e, he, hed⟩ := List.mem_map.mp hx
      have h3 := (hA e he).reparse
      rw [hed, ht.reparse] at h3
      injection h3 with h3
      obtain ⟨l, hl, rfl⟩ := List.mem_map.mp he
      exact ⟨l, hl, by rw [h3]⟩
    · rintro ⟨l, hl, e⟩
      have : t = l.path pre := by
        obtain ⟨d, r, u⟩ := t
        have h5 : r = false := ht.1
        have h6 : u = false := ht.2.1
        dsimp only at e
        rw [h5, h6]
        unfold ListLine.path
        unfold ListLine.path at e
        dsimp only at e
        rw [e]
      rw [this]
      exact List.mem_map_of_mem (List.mem_map_of_mem hl)

/-- A case: prefix /r, the file "a/b\r\n/c" read in two pieces. -/
example : (ListLine.mk false [[97], [98]]).good ∧ (ListLine.mk true [[99]]).good ∧ AbsNames ⟨[[114]], false, false⟩ ∧
    ([[97, 47, 98, 13], [10, 47, 99]] : List Bytes).flatten =
      listText [(⟨false, [[97], [98]]⟩, true)] (some ⟨true, [[99]]⟩) := by
  refine ⟨⟨?_, by decide, by simp⟩, ⟨?_, by decide, by simp⟩, ⟨rfl, rfl, ?_⟩, rfl⟩ <;> simp [isName]

/-- An absolute path is kept as it is written: "/a/" (or "/a//b") designates nothing in an exclusion list. -/
theorem C76_trailing_slash_counterexample : ∃ full, withPrefix ⟨[], false, false⟩ [[47, 97, 47]] = .ok full ∧
    mlCovered (mlBuild full) false [47, 97] = .ok false :=
  ⟨[[47, 97, 47]], rfl, by
    obtain ⟨b, h1, h2⟩ := C27_list_exclude [[47, 97, 47]] [47, 97]
    cases b with
    | false => exact h1
    | true => exact absurd (h2.mp rfl) (by decide)⟩

end Dar
