import Verif.Lemmas.Layers2
/- Lemmas for Props/Layers.lean: the whole writing, and the reading. -/
namespace Dar

section
attribute [local instance] escNormal

theorem LowInv.isSome {env : ArcEnv} {h : HdrBase} {hb P : Bytes} {s : Stk} {eops : List EscOp} (hi : LowInv env h hb P s eops) : s.esc.isSome = h.tapeMarks := by
  cases he : s.esc with
  | none => rw [(hi.unmarked he).1]; rfl
  | some e => rw [(hi.marked e he).1]; rfl

theorem mark_spec {env : ArcEnv} {h : HdrBase} {hb P : Bytes} {s : Stk} {eops : List EscOp} {z : Option (Codec × Nat)} (hblk : 0 < env.block)
    (hi : LowInv env h hb P s eops) (hc : CompIdle z s.comp) (hm : h.tapeMarks = true) (t : SeqT) (ht : t ≠ .notASequence) :
    ∃ s', s.mark t = .ok s' ∧ LowInv env h hb P s' (eops ++ [.mark t]) ∧ CompIdle z s'.comp := by
  unfold Stk.mark
  rw [sync_idle hblk hi hc]
  have hs := hi.isSome
  rw [hm] at hs
  obtain ⟨e, he⟩ := Option.isSome_iff_exists.mp hs
  obtain ⟨b', e1, h1⟩ := hi.mark hblk he ht
  simp only [he, if_neg ht, e1, Except.map]
  exact ⟨_, rfl, h1 _ rfl rfl, hc⟩

/-- One operation. -/
theorem op_spec {env : ArcEnv} {h : HdrBase} {hb P : Bytes} {s : Stk} {eops : List EscOp} {z : Option (Codec × Nat)} (hblk : 0 < env.block) (hz : ZOk z)
    (hi : LowInv env h hb P s eops) (hc : CompIdle z s.comp) (o : ArcOp) (ho : o ≠ .mark .notASequence) :
    ∃ s' p, s.op o = .ok (s', p) ∧ LowInv env h hb P s' (eops ++ lowOp z h.tapeMarks o) ∧ CompIdle z s'.comp ∧
      ∀ stored l, o = .item stored l → p = some s.belowPos := by
  have hs := hi.isSome
  cases o with
  | mark t =>
    unfold Stk.op lowOp
    simp only [hs]
    cases hm : h.tapeMarks with
    | true =>
      obtain ⟨s', e, h1, h2⟩ := mark_spec hblk hi hc hm t (fun hh => ho (by rw [hh]))
      exact ⟨s', none, by simp [e, Except.map], by simpa using h1, h2, fun _ _ hh => by cases hh⟩
    | false =>
      exact ⟨s, none, by simp, by simpa using hi, hc, fun _ _ hh => by cases hh⟩
  | direct b =>
    unfold Stk.op lowOp
    simp only [hs]
    cases hm : h.tapeMarks with
    | true =>
      obtain ⟨s', e, h1, h2⟩ := hi.write hblk b
      exact ⟨s', none, by simp [sync_idle hblk hi hc, e, Except.map], by simpa using h1, by rw [h2]; exact hc, fun _ _ hh => by cases hh⟩
    | false =>
      exact ⟨s, none, by simp, by simpa using hi, hc, fun _ _ hh => by cases hh⟩
  | item stored l =>
    unfold Stk.op lowOp
    obtain ⟨s', e, h1, h2⟩ := item_idle hblk hz hi hc stored l
    exact ⟨s', _, by simp only [e, Except.map], h1, h2, fun _ _ _ => rfl⟩

/-- The operations. -/
theorem ops_spec {env : ArcEnv} {h : HdrBase} {hb P : Bytes} {z : Option (Codec × Nat)} (hblk : 0 < env.block) (hz : ZOk z) (ops : List ArcOp) :
    ∀ (s : Stk) (eops : List EscOp), LowInv env h hb P s eops → CompIdle z s.comp → ArcOp.mark .notASequence ∉ ops →
    ∃ s' ps, s.ops ops = .ok (s', ps) ∧ LowInv env h hb P s' (eops ++ lowOps z h.tapeMarks ops) ∧ CompIdle z s'.comp ∧
      ∀ pre stored l post, ops = pre ++ .item stored l :: post → ∃ A B, CutMark (eops ++ lowOps z h.tapeMarks pre) A B ∧ (h.tapeMarks = false → A = []) ∧
        ps[pre.length]? = some (some (P.length + (lowEnc h.tapeMarks A).length + (untilMark B).length)) := by
  induction ops with
  | nil =>
    intro s eops hi hc _
    exact ⟨s, [], rfl, by simpa [lowOps] using hi, hc, fun pre stored l post hh => by simp at hh⟩
  | cons o ops ih =>
    intro s eops hi hc hm
    simp only [List.mem_cons, not_or] at hm
    obtain ⟨s1, p, e1, h1, h2, h3⟩ := op_spec hblk hz hi hc o (fun hh => hm.1 hh.symm)
    obtain ⟨s2, ps, e2, h4, h5, h6⟩ := ih s1 _ h1 h2 hm.2
    have hl : ∀ l, eops ++ lowOp z h.tapeMarks o ++ lowOps z h.tapeMarks l = eops ++ lowOps z h.tapeMarks (o :: l) := by
      intro l; simp [lowOps]
    refine ⟨s2, p :: ps, by simp only [Stk.ops, e1, e2], by rw [← hl]; exact h4, h5, ?_⟩
    intro pre stored l post hh
    cases pre with
    | nil =>
      simp only [List.nil_append, List.cons.injEq] at hh
      obtain ⟨A, B, q1, q2, q3⟩ := hi.pos hblk
      refine ⟨A, B, by simpa [lowOps] using q1, q2, ?_⟩
      rw [h3 stored l hh.1, q3]; rfl
    | cons o' pre =>
      simp only [List.cons_append, List.cons.injEq] at hh
      obtain ⟨rfl, hh⟩ := hh
      obtain ⟨A, B, q1, q2, q3⟩ := h6 pre stored l post hh
      exact ⟨A, B, by rw [← hl]; exact q1, q2, by simpa using q3⟩

/-- What is under the mark layer once it is flushed. -/
theorem LowInv.flush {env : ArcEnv} {h : HdrBase} {hb P : Bytes} {s : Stk} {eops : List EscOp} (hblk : 0 < env.block) (hi : LowInv env h hb P s eops) (t : Bytes) :
    ∃ b', s.bot.write (s.held ++ t) = .ok b' ∧ BotInv env h hb b' (P ++ lowEnc h.tapeMarks eops ++ t) := by
  unfold Stk.held
  cases he : s.esc with
  | none =>
    obtain ⟨h1, h2, h3⟩ := hi.unmarked he
    obtain ⟨b', e, h4⟩ := h3.write hblk t
    refine ⟨b', e, ?_⟩
    rw [h1]; exact h4
  | some e =>
    obtain ⟨h1, h2, h3, h4, o, A, B, e1, h5, h6, h7, h8⟩ := hi.marked e he
    obtain ⟨b', e2, h9⟩ := h5.write hblk (e.pend ++ t)
    refine ⟨b', e2, ?_⟩
    obtain ⟨o2, p2, q1, q2⟩ := escRun_spec _ h3 h4 [] [] (by simp)
    rw [e1] at q1
    injection q1 with q1
    injection q1 with q1 q1'
    simp only [List.nil_append] at q1 q2
    rw [h1]
    simp only [lowEnc, if_true]
    have : P ++ encOps eops ++ t = P ++ o ++ (e.pend ++ t) := by
      unfold encOps encStream
      rw [← q2, q1, q1']
      simp only [List.append_assoc]
    rw [this]; exact h9

/-! ### Reading -/

theorem plainReads_drop (d : Bytes) (k : Nat) : ∀ (ns : List Nat), plainReads d k ns = plainReads (d.drop k) 0 ns := by
  intro ns
  induction ns generalizing d k with
  | nil => rfl
  | cons n ns ih =>
    simp only [plainReads, List.drop_zero, Nat.zero_add]
    rw [ih d, ih (d.drop k), List.drop_drop]

theorem plainReads_prefix (d e : Bytes) : ∀ (ns : List Nat), ns.sum ≤ d.length → plainReads (d ++ e) 0 ns = plainReads d 0 ns := by
  intro ns
  induction ns generalizing d with
  | nil => intro _; rfl
  | cons n ns ih =>
    intro h
    rw [List.sum_cons] at h
    simp only [plainReads, List.drop_zero, Nat.zero_add]
    have h1 : (d ++ e).take n = d.take n := by rw [List.take_append_of_le_length (by omega)]
    have h2 : (d.take n).length = n := by rw [List.length_take]; omega
    rw [h1, h2, plainReads_drop, plainReads_drop d, List.drop_append_of_le_length (by omega), ih (d.drop n) (by rw [List.length_drop]; omega)]

theorem escReads_spec : ∀ (ns : List Nat) (st : EscRd) (d : Bytes) (ms : List (SeqT × Bytes)), Rep st d ms → TailOk d ms →
    escReads st ns = .ok (plainReads d 0 ns) := by
  intro ns
  induction ns with
  | nil => intro st d ms _ _; rfl
  | cons n ns ih =>
    intro st d ms h ht
    obtain ⟨st', e, h'⟩ := escRead_exact st n d ms h ht
    have ht' : TailOk (d.drop n) ms := tailOk_suffix (d1 := d.take n) (by rwa [List.take_append_drop])
    simp only [escReads, e, ih st' _ _ h' ht', plainReads, List.drop_zero, Nat.zero_add]
    rw [plainReads_drop d]
    congr 2
    congr 1
    by_cases hn : n ≤ d.length
    · rw [List.length_take, Nat.min_eq_left hn]
    · rw [List.length_take, Nat.min_eq_right (by omega), List.drop_eq_nil_of_le (by omega), List.drop_eq_nil_of_le (le_refl _)]

/-- What follows the catalogue looks like neither a mark nor the start of a mark. -/
def TailClean (t : Bytes) : Prop := (∀ k, ¬ escPattern <+: t.drop k) ∧ ¬ endsPartial t

theorem notPat_straddle (d t : Bytes) (b : UInt8) (hb : NotPat b) (ht : ∀ k, ¬ escPattern <+: (b :: t).drop k) :
    ∀ k, escPattern <+: (d ++ b :: t).drop k → k + 5 ≤ d.length := by
  intro k hk
  by_contra hn
  by_cases h1 : d.length ≤ k
  · apply ht (k - d.length)
    rwa [List.drop_append, List.drop_eq_nil_of_le h1, List.nil_append] at hk
  · obtain ⟨u, hu⟩ := hk
    have h2 : escPattern[d.length - k]? = some b := by
      have : (escPattern ++ u)[d.length - k]? = some b := by
        rw [hu, List.getElem?_drop, show k + (d.length - k) = d.length by omega, List.getElem?_append_right (le_refl _)]
        simp
      rwa [List.getElem?_append_left (by simp only [escPattern, List.length_cons, List.length_nil]; omega)] at this
    exact hb (List.mem_of_getElem? h2)

theorem notPat_partial (d t : Bytes) (b : UInt8) (hb : NotPat b) (ht : ¬ endsPartial (b :: t)) : ¬ endsPartial (d ++ b :: t) := by
  rintro ⟨k, h1, h2, h3⟩
  apply ht
  by_cases hk : k ≤ (b :: t).length
  · refine ⟨k, h1, h2, ?_⟩
    apply List.suffix_of_suffix_length_le h3 (List.suffix_append _ _)
    rw [List.length_take]; omega
  · exfalso
    have hs : b :: t <:+ escPattern.take k := by
      apply List.suffix_of_suffix_length_le (List.suffix_append d (b :: t)) h3
      rw [List.length_take]
      simp only [escPattern, List.length_cons, List.length_nil] at hk ⊢
      omega
    exact hb (List.mem_of_mem_take (hs.subset (by simp)))

theorem tailOk_write (t : Bytes) (ht : ∀ d, ¬ endsPartial (d ++ t)) : ∀ (ops : List EscOp) (d : Bytes),
    TailOk (d ++ (opsMeaning (ops ++ [.write t])).1) (opsMeaning (ops ++ [.write t])).2 := by
  intro ops
  induction ops with
  | nil => intro d; simpa [opsMeaning, TailOk] using ht d
  | cons o ops ih =>
    intro d
    cases o with
    | write a => simpa [opsMeaning] using ih (d ++ a)
    | mark t' => simpa [opsMeaning, TailOk] using ih []
    | sync => simpa [opsMeaning] using ih d

theorem escData_le (d : Bytes) : d.length ≤ (escData d).length := by
  induction h : d.length using Nat.strong_induction_on generalizing d with
  | _ n ih =>
    cases d with
    | nil => simp at h; omega
    | cons b d =>
      by_cases hp : escPattern <+: b :: d
      · obtain ⟨v, hv⟩ := hp
        rw [← hv] at h ⊢
        rw [escData_pattern, List.length_append]
        have h6 : (escSeq SeqT.notASequence).length = 6 := rfl
        have h5 : (escPattern).length = 5 := rfl
        rw [List.length_append, h5] at h
        have := ih v.length (by omega) v rfl
        omega
      · rw [escData_cons _ _ hp]
        simp only [List.length_cons] at h ⊢
        have := ih d.length (by omega) d rfl
        omega

/-- The content of an archive under the mark layer: the start, what the operations became, what follows the catalogue. -/
theorem content_marks (P : Bytes) (E0 : List EscOp) (t : SeqT) (c : Bytes) (b : UInt8) (tl : Bytes) (hb : NotPat b) (hc : TailClean (b :: tl)) :
    P ++ encOps (E0 ++ [.mark t, .write c]) ++ b :: tl = P ++ encOps (E0 ++ [.mark t, .write c] ++ [.write (b :: tl)]) := by
  have h1 := encOps_mark_append t E0 [.write c]
  have h2 := encOps_mark_append t E0 [.write c, .write (b :: tl)]
  rw [List.append_assoc, List.append_assoc]
  rw [h1, show E0 ++ ([EscOp.mark t, .write c] ++ [.write (b :: tl)]) = E0 ++ .mark t :: [.write c, .write (b :: tl)] from rfl, h2]
  have h3 : encOps [.write c, .write (b :: tl)] = encOps [.write c] ++ b :: tl := by
    simp only [encOps, opsMeaning, encStream, encMarks, List.append_nil]
    exact escData_append_clean c (b :: tl) (notPat_straddle c tl b hb hc.1)
  rw [h3]
  simp only [List.append_assoc]

/-- Going to a recorded position (with marks). -/
theorem drop_marks (P : Bytes) (X A B : List EscOp) (zb : Bytes) (rest : List EscOp) (h : CutMark X A B) (hn : NoPatternIn (untilMark B) (zb ++ untilMark rest)) :
    (P ++ encOps (X ++ .write zb :: rest)).drop (P.length + (encOps A).length + (untilMark B).length) = encStream (zb ++ untilMark rest) (opsMeaning rest).2 := by
  rw [h.enc]
  have h1 : encOps (B ++ .write zb :: rest) = untilMark B ++ encStream (zb ++ untilMark rest) (opsMeaning rest).2 := by
    unfold encOps
    rw [opsMeaning_append _ _ h.2.2]
    simp only [opsMeaning, untilMark_eq, encStream]
    rw [escData_clean _ _ hn, List.append_assoc]
  rw [h1, Nat.add_assoc, ← List.drop_drop, List.drop_left, ← List.drop_drop, List.drop_left, List.drop_left]

/-- Going to a recorded position (without marks). -/
theorem drop_plain (P : Bytes) (X : List EscOp) (zb : Bytes) (rest : List EscOp) (tail : Bytes) (h : OnlyWrites X) :
    (P ++ untilMark (X ++ .write zb :: rest) ++ tail).drop (P.length + 0 + (untilMark X).length) = zb ++ (untilMark rest ++ tail) := by
  rw [untilMark_append _ _ h, Nat.add_zero, ← List.drop_drop]
  simp only [untilMark, List.append_assoc]
  rw [List.drop_left, List.drop_left]

end
end Dar
