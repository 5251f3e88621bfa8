import Verif.Lemmas.Escape2
/-
Lemmas on the escape layer: looking at the next mark, skipping to a mark.
-/
namespace Dar

variable [EscByte]

theorem escNextMark_spec (st : EscRd) (d : Bytes) (ms : List (SeqT × Bytes)) (h : Rep st d ms) :
    (∃ st', escNextMark st = .ok (if d = [] then ms.head?.map Prod.fst else none, st') ∧ Rep st' d ms) ∨
    (escNextMark st = .error .bug ∧ escPattern <+: d) := by
  rw [escNextMark]
  split
  · rename_i he
    left
    obtain ⟨d2, hd2, hs⟩ := h.stream
    have hle := h.escLe
    have : d ≠ [] := by
      intro hd
      rw [hd] at hd2
      have := congrArg List.length hd2
      simp at this; omega
    rw [if_neg this]
    exact ⟨st, rfl, h⟩
  · rename_i he
    rcases miniRead_spec st d ms h (by omega) with
      ⟨st2, e, r2, z1, z2, z3, z4, z5, z6, z8, z9⟩ | ⟨st2, e, r2, z1, z2, z3, z4, z5, z6, z7⟩
    · rw [e]; simp only
      split
      · rename_i hl; right; exact ⟨rfl, z9 hl⟩
      · rename_i hl
        left
        split
        · rename_i h0
          have hz := z1 h0
          obtain ⟨d2, hd2, hs⟩ := r2.stream
          have hc := r2.compat
          rw [h0] at hd2 hs hc
          simp at hd2 hs hc
          subst hd2
          obtain ⟨c, s, hcs⟩ := compat_six hc (by omega)
          rw [hcs, getD5_pattern]
          have e2' : encStream d ms = escPattern ++ c :: (s ++ st2.below) := by rw [← hs, hcs]; simp
          rcases encStream_pattern _ _ _ _ e2' with ⟨d', x1, x2, x3⟩ | ⟨t, d', ms', x1, x2, x3, x4⟩
          · rw [hz.1] at x1; simp [escPattern] at x1
          · have htr : t ≠ .notASequence := r2.real (t, d') (by rw [x2]; exact List.mem_cons_self)
            rw [x3, char2type_type2char]
            simp only
            rw [if_neg htr, if_pos x1]
            exact ⟨st2, by rw [x2]; rfl, r2⟩
        · rename_i h0
          have : d ≠ [] := by
            intro hd
            obtain ⟨d2, hd2, hs⟩ := r2.stream
            have hle := r2.escLe
            rw [hd] at hd2
            have := congrArg List.length hd2
            simp at this; omega
          rw [if_neg this]
          exact ⟨st2, rfl, r2⟩
    · rw [e]; simp only
      left
      subst z3
      exact ⟨st2, by simp, r2⟩

theorem rep_end (st : EscRd) (hb : st.buf = []) (hbe : st.below = []) (he : st.esc = 0) (ha : 0 < st.alloc) :
    Rep st [] [] := by
  refine ⟨by simp [he], by simp [hb, compat_nil], ⟨[], by simp [hb], by simp [hb, hbe, encStream_nil, escData_nil]⟩, ha,
    fun _ => Or.inl hbe, by simp [RealMarks]⟩

theorem escSkipF_end (t : SeqT) (jump : Bool) (unj : List SeqT) (f : Nat) (st : EscRd)
    (hb : st.buf = []) (hbe : st.below = []) (ha : 0 < st.alloc) (hf : 0 < f) :
    ∃ st', escSkipF t jump unj f st = .ok (false, st') ∧ Rep st' [] [] := by
  cases f with
  | zero => omega
  | succ f =>
      rw [escSkipF, if_neg (by simp [hb])]
      simp only [hbe, List.take_nil, List.drop_nil, if_true]
      refine ⟨_, rfl, rep_end _ rfl rfl ?_ ha⟩
      simp [trouveAmorce_eq, firstCompat]

theorem escSkipF_spec (t : SeqT) (jump : Bool) (unj : List SeqT) (f : Nat) (st : EscRd) (d : Bytes)
    (ms : List (SeqT × Bytes)) (h : Rep st d ms) (hef : st.eof = false) (hf : st.meas + 1 < f) :
    ∃ st' x, escSkipF t jump unj f st = .ok ((skipSpec t jump unj d ms).1, st') ∧
      Rep st' x (skipSpec t jump unj d ms).2.2 ∧
      ((skipSpec t jump unj d ms).1 = true → x = (skipSpec t jump unj d ms).2.1) ∧
      x <:+ (skipSpec t jump unj d ms).2.1 := by
  induction f generalizing st d ms with
  | zero => omega
  | succ f ih =>
      rw [escSkipF]
      have hsub : ∀ (d1 d2 : Bytes), (skipSpec t jump unj d1 ms).1 = (skipSpec t jump unj d2 ms).1 ∧
          (skipSpec t jump unj d1 ms).2.2 = (skipSpec t jump unj d2 ms).2.2 ∧
          ((skipSpec t jump unj d1 ms).1 = true → (skipSpec t jump unj d1 ms).2.1 = (skipSpec t jump unj d2 ms).2.1) ∧
          (d1 <:+ d2 → (skipSpec t jump unj d1 ms).2.1 <:+ (skipSpec t jump unj d2 ms).2.1) := by
        intro d1 d2
        cases ms with
        | nil => simp [skipSpec]
        | cons m ms =>
            obtain ⟨t', d'⟩ := m
            simp only [skipSpec]
            split
            · simp
            · split
              · simp
              · simp
      have widen : ∀ (d1 : Bytes) (r : Res (Bool × EscRd)), d1 <:+ d →
          (∃ st' x, r = .ok ((skipSpec t jump unj d1 ms).1, st') ∧
            Rep st' x (skipSpec t jump unj d1 ms).2.2 ∧
            ((skipSpec t jump unj d1 ms).1 = true → x = (skipSpec t jump unj d1 ms).2.1) ∧
            x <:+ (skipSpec t jump unj d1 ms).2.1) →
          (∃ st' x, r = .ok ((skipSpec t jump unj d ms).1, st') ∧
            Rep st' x (skipSpec t jump unj d ms).2.2 ∧
            ((skipSpec t jump unj d ms).1 = true → x = (skipSpec t jump unj d ms).2.1) ∧
            x <:+ (skipSpec t jump unj d ms).2.1) := by
        rintro d1 r hd ⟨st', x, a1, a2, a3, a4⟩
        obtain ⟨s1, s2, s3, s4⟩ := hsub d1 d
        refine ⟨st', x, by rw [a1, s1], by rw [← s2]; exact a2, ?_, a4.trans (s4 hd)⟩
        intro ht
        rw [← s1] at ht
        rw [a3 ht, s3 ht]
      by_cases hlt : st.esc < st.buf.length
      · rw [if_pos hlt]
        simp only
        obtain ⟨hrep, htk, hlen⟩ := rep_drop st d ms h st.esc (le_refl _)
        simp only [Nat.sub_self] at hrep
        apply widen (d.drop st.esc) _ (List.drop_suffix _ _)
        have hm1 : EscRd.meas { st with buf := st.buf.drop st.esc, esc := 0 } ≤ st.meas := by
          simp [EscRd.meas]
        have hef1 : ({ st with buf := st.buf.drop st.esc, esc := 0 } : EscRd).eof = false := hef
        have hal1 : ({ st with buf := st.buf.drop st.esc, esc := 0 } : EscRd).alloc = st.alloc := rfl
        have hes1 : ({ st with buf := st.buf.drop st.esc, esc := 0 } : EscRd).esc = 0 := rfl
        generalize ({ st with buf := st.buf.drop st.esc, esc := 0 } : EscRd) = st1 at *
        generalize d.drop st.esc = e1 at *
        rcases miniRead_spec st1 e1 ms hrep hes1 with
          ⟨st2, e, r2, z1, z2, z3, z4, z5, z6, z8, z9⟩ | ⟨st2, e, r2, z1, z2, z3, z4, z5, z6, z7⟩
        · rw [e]; simp only
          split
          · rename_i h6
            have hl6 : 6 ≤ (st2.buf.drop st2.esc).length := by simp; omega
            obtain ⟨y1, y2⟩ := z5 hl6
            obtain ⟨d2, hd2, hs⟩ := r2.stream
            have hd20 : d2 = [] := by
              have := (y1.symm.trans hd2)
              rwa [List.self_eq_append_right] at this
            subst hd20
            obtain ⟨c, s, hcs⟩ := compat_six r2.compat hl6
            have hg : st2.buf.getD (st2.esc + 5) 0 = c := by
              have : (st2.buf.drop st2.esc).getD 5 0 = c := by rw [hcs, getD5_pattern]
              simpa [List.getD_eq_getElem?_getD] using this
            have hdr : st2.buf.drop (st2.esc + 6) = s := by
              rw [← List.drop_drop, hcs]; simp [escPattern]
            rw [hg, hdr]
            have e2' : encStream [] ms = escPattern ++ c :: (s ++ st2.below) := by rw [← hs, hcs]; simp
            rcases encStream_pattern _ _ _ _ e2' with ⟨d', x1, x2, x3⟩ | ⟨t', d', ms', x1, x2, x3, x4⟩
            · simp [escPattern] at x1
            · have htr : t' ≠ .notASequence := r2.real (t', d') (by rw [x2]; exact List.mem_cons_self)
              rw [x3, char2type_type2char]
              simp only
              rw [if_neg htr]
              have hreal : RealMarks ms' := by
                intro m hm; apply r2.real; rw [x2]; exact List.mem_cons_of_mem _ hm
              have hrep3 : Rep { st2 with buf := s, esc := trouveAmorce s } d' ms' := by
                rw [trouveAmorce_eq]
                obtain ⟨d3, q1, q2⟩ := encStream_firstCompat s st2.below d' ms' x4.symm
                refine ⟨firstCompat_le s, firstCompat_compat s, ⟨d3, q1, q2⟩, r2.alloc, ?_, hreal⟩
                intro he; simp [z8, hef1] at he
              have hs3 : EscRd.meas { st2 with buf := s, esc := trouveAmorce s } < st2.meas := by
                have := congrArg List.length hcs
                simp [escPattern] at this
                simp [EscRd.meas]; omega
              subst x2
              by_cases htt : t' = t
              · rw [if_pos htt]
                simp only [skipSpec, if_pos htt]
                exact ⟨_, d', rfl, hrep3, fun _ => rfl, List.suffix_refl _⟩
              · rw [if_neg htt]
                by_cases hj : jump = true ∧ t' ∉ unj
                · rw [if_pos hj]
                  simp only [skipSpec, if_neg htt, if_pos hj]
                  exact ih _ d' ms' hrep3 (by simp [z8, hef1]) (by omega)
                · rw [if_neg hj]
                  simp only [skipSpec, if_neg htt, if_neg hj]
                  refine ⟨_, e1, rfl, ⟨r2.escLe, r2.compat, r2.stream, r2.alloc, ?_, r2.real⟩, by simp,
                    List.suffix_refl _⟩
                  intro _; right; exact ⟨y1, by simp; omega⟩
          · rename_i h6
            obtain ⟨hrep3, _, _⟩ := rep_drop st2 e1 ms r2 st2.esc (le_refl _)
            simp only [Nat.sub_self] at hrep3
            have hm3 : EscRd.meas { st2 with buf := st2.buf.drop st2.esc, esc := 0 } ≤ st2.meas := by
              simp [EscRd.meas]
            have hm2 : st2.meas < st1.meas := by
              by_cases h20 : st2.esc = 0
              · have := (z1 h20).2.2; omega
              · exact z2 (by omega)
            obtain ⟨s1, s2, s3, s4⟩ := hsub (e1.drop st2.esc) e1
            obtain ⟨st', x, a1, a2, a3, a4⟩ := ih _ _ ms hrep3 (by simp [z8, hef1]) (by omega)
            refine ⟨st', x, by rw [a1, s1], by rw [← s2]; exact a2, ?_, a4.trans (s4 (List.drop_suffix _ _))⟩
            intro ht
            rw [← s1] at ht
            rw [a3 ht, s3 ht]
        · rw [e]; simp only
          subst z3
          obtain ⟨st', q1, q2⟩ := escSkipF_end t jump unj f { st2 with buf := [], esc := 0, eof := false } rfl z2 r2.alloc (by omega)
          exact ⟨st', [], by rw [q1]; rfl, q2, by simp [skipSpec], by simp⟩
      · rw [if_neg hlt]
        simp only
        obtain ⟨hle, hcompat, ⟨d2, hd2, hs⟩, halloc, heof, hreal⟩ := h
        have hesc : st.esc = st.buf.length := by omega
        rw [hesc] at hd2 hs
        simp at hd2 hs
        split
        · rename_i hnb
          have hbe : st.below = [] := by
            have := congrArg List.length hnb
            exact List.eq_nil_of_length_eq_zero (by simp at this; rcases this with h | h <;> [omega; simp [h]])
          have := encStream_short d2 ms (by rw [← hs, hbe]; simp)
          have hms := this.1
          subst hms
          simp only [skipSpec]
          refine ⟨_, [], rfl, rep_end _ hnb (by simp [hbe]) ?_ halloc, by simp, by simp⟩
          simp only [hnb]; simp [trouveAmorce_eq, firstCompat]
        · rename_i hnb
          have hsplit : st.below.take st.alloc ++ st.below.drop st.alloc = encStream d2 ms := by
            rw [List.take_append_drop]; exact hs
          obtain ⟨d3, q1, q2⟩ := encStream_firstCompat _ _ d2 ms hsplit
          have hl : 0 < (st.below.take st.alloc).length := List.length_pos_iff.mpr hnb
          apply widen d2 _ (by rw [hd2]; exact List.suffix_append _ _)
          apply ih
          · rw [trouveAmorce_eq]
            exact ⟨firstCompat_le _, firstCompat_compat _, ⟨d3, q1, q2⟩, halloc, by simp [hef], hreal⟩
          · exact hef
          · simp only [EscRd.meas, List.length_drop, List.length_take] at hf hl ⊢; omega

theorem escSkip_spec (t : SeqT) (jump : Bool) (unj : List SeqT) (st : EscRd) (d : Bytes)
    (ms : List (SeqT × Bytes)) (h : Rep st d ms) :
    ∃ st' x, escSkip t jump unj st = .ok ((skipSpec t jump unj d ms).1, st') ∧
      Rep st' x (skipSpec t jump unj d ms).2.2 ∧
      ((skipSpec t jump unj d ms).1 = true → x = (skipSpec t jump unj d ms).2.1) ∧
      x <:+ (skipSpec t jump unj d ms).2.1 := by
  apply escSkipF_spec
  · exact ⟨h.escLe, h.compat, h.stream, h.alloc, by simp, h.real⟩
  · rfl
  · simp [EscRd.meas]

end Dar
