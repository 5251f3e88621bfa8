import Verif.Lemmas.Cache
/- Property theorems C15 (the cache is transparent). -/
namespace Dar

theorem refill_spec (c : Cache) (h : c.Inv) (hn : c.next ≥ c.last) (hm : c.mode ≠ .wo) (want : Nat) (got : Bytes) (hg : got.length ≤ want) :
    ∃ c' b e, c.refill want got = .ok (c', got ++ b, e) ∧ c'.Inv ∧ c'.view = c.view ∧ c'.mode = c.mode ∧
      b = (c.view.drop c.pos).take b.length ∧ c'.pos = c.pos + b.length ∧ got.length + b.length ≤ want ∧
      (e = true → c.view.length ≤ c'.pos) ∧ (e = false → (got ++ b).length < want → c'.next < c'.last) := by
  have hn' : c.next = c.last := by have := h.next; omega
  unfold Cache.refill
  obtain ⟨c1, h1, i1, p1, v1, o1, n1, m1, s1, -⟩ := flushIfNeeded_spec c h
  have n1 := n1 hn'
  have q1 : c1.pos = c.pos := by simp only [Cache.pos]; omega
  rw [h1]
  change ∃ c' b e, (if want - got.length < c1.size then _ else _) = _ ∧ _
  by_cases hw : want - got.length < c1.size
  · rw [if_pos hw]
    have fin : ∃ c2, (if c1.eof = 0 ∨ c1.off + c1.last < c1.eof then c1.fulfillRead else .ok c1) = .ok c2 ∧ c2.Inv ∧ c2.view = c1.view ∧ c2.pos = c1.pos ∧
        c2.mode = c1.mode ∧ (c2.next ≥ c2.last → c1.view.length ≤ c1.pos) := by
      by_cases he : c1.eof = 0 ∨ c1.off + c1.last < c1.eof
      · rw [if_pos he]
        obtain ⟨c2, a1, a2, a3, a4, a5, a6, a7, a8⟩ := fulfill_spec c1 i1 p1 n1 (by rw [m1]; exact hm) he
        exact ⟨c2, a1, a2, a4, a5, a6, a8⟩
      · rw [if_neg he]
        refine ⟨c1, rfl, i1, rfl, rfl, rfl, fun _ => ?_⟩
        rw [view_of_clean c1 p1]
        rcases i1.eof with hh | hh
        · exact absurd (.inl hh) he
        · simp only [Cache.pos]; push Not at he; omega
    obtain ⟨c2, a1, a2, a3, a4, a5, a6⟩ := fin
    rw [a1]
    change ∃ c' b e, Except.ok _ = _ ∧ _
    refine ⟨c2, [], decide (c2.next ≥ c2.last), by simp, a2, by rw [a3, v1], by rw [a5, m1], by simp, by rw [a4, q1]; simp, by simpa using hg, ?_, ?_⟩
    · intro hh
      rw [a4, ← v1]; exact a6 (by simpa using hh)
    · intro hh _
      simpa using hh
  · rw [if_neg hw]
    simp only [Flat.read]
    have hrp := i1.refpos p1
    have hcl : Cache.clearBuffer { c1 with ref := ⟨c1.ref.data, c1.ref.pos + ((c1.ref.data.drop c1.ref.pos).take (want - got.length)).length⟩ } =
        .ok { c1 with ref := ⟨c1.ref.data, c1.ref.pos + ((c1.ref.data.drop c1.ref.pos).take (want - got.length)).length⟩, off := c1.off + c1.next, next := 0, buf := [] } := by
      unfold Cache.clearBuffer
      change (if c1.pending = true then _ else _) = _
      rw [p1]
      rfl
    rw [hcl]
    change ∃ c' b e, Except.ok _ = _ ∧ _
    have f1 : c1.ftw = c1.size := by by_contra hc; rw [i1.pending_iff.mpr hc] at p1; cases p1
    have hd : c.view = c1.ref.data := by rw [← v1, view_of_clean c1 p1]
    have hpos : c.pos = c1.ref.pos := by rw [← q1, hrp]; simp only [Cache.pos]; omega
    refine ⟨_, (c1.ref.data.drop c1.ref.pos).take (want - got.length), _, rfl, ?_, ?_, ?_, ?_, ?_, ?_, ?_, ?_⟩
    · refine ⟨i1.size, Nat.zero_le _, Nat.zero_le _, .inl f1, fun i hi => by simp [Cache.last] at hi, fun _ => by simp [Cache.last], fun _ => f1, ?_⟩
      rcases i1.eof with he | he
      · exact .inl he
      · exact .inr ⟨he.1, by simp [Cache.pending, Cache.last]⟩
    · rw [hd]
      exact view_of_clean _ (by simp [Cache.pending, Cache.last])
    · exact m1
    · rw [hd, hpos]; simp
    · rw [hpos]; simp [Cache.pos]
    · simp; omega
    · intro hh
      simp only [decide_eq_true_eq, List.length_append, List.length_take, List.length_drop] at hh
      rw [hd]; simp only [Cache.pos, Nat.add_zero, List.length_take, List.length_drop]; omega
    · intro hh hlt
      simp only [decide_eq_false_iff_not] at hh
      exact absurd hlt hh

theorem take_two (d : Bytes) (p m k : Nat) (h : m ≤ k) (hm : p + m ≤ d.length ∨ True) :
    (d.drop p).take m ++ (d.drop (p + m)).take (k - m) = (d.drop p).take k := by
  have : (d.drop p).take k = ((d.drop p).take m) ++ ((d.drop p).drop m).take (k - m) := by
    rw [← List.take_add]; congr 1; omega
  rw [this, List.drop_drop]

theorem readLoop_spec : ∀ (fuel : Nat) (c : Cache), c.Inv → c.mode ≠ .wo → ∀ (want : Nat) (got : Bytes), got.length ≤ want → want - got.length < fuel →
    ∃ c', c.readLoop want got fuel = .ok (c', got ++ (c.view.drop c.pos).take (want - got.length)) ∧ c'.Inv ∧ c'.view = c.view ∧
      c'.pos = c.pos + ((c.view.drop c.pos).take (want - got.length)).length ∧ c'.mode = c.mode := by
  intro fuel
  induction fuel with
  | zero => intro c _ _ want got _ hh; omega
  | succ fuel ih =>
    intro c h hm want got hg hfu
    rw [Cache.readLoop]
    have step : ∃ c' b e, (if c.next ≥ c.last then c.refill want got else .ok (c, got, false)) = .ok (c', got ++ b, e) ∧ c'.Inv ∧ c'.view = c.view ∧ c'.mode = c.mode ∧
      b = (c.view.drop c.pos).take b.length ∧ c'.pos = c.pos + b.length ∧ got.length + b.length ≤ want ∧
      (e = true → c.view.length ≤ c'.pos) ∧ (e = false → (got ++ b).length < want → c'.next < c'.last) := by
      by_cases hn : c.next ≥ c.last
      · rw [if_pos hn]; exact refill_spec c h hn hm want got hg
      · rw [if_neg hn]
        exact ⟨c, [], false, by simp, h, rfl, rfl, by simp, by simp, by simpa using hg, by simp, fun _ _ => by omega⟩
    obtain ⟨c1, b, e, h1, i1, v1, m1, hb, p1, hle, he1, he2⟩ := step
    rw [h1]
    change ∃ c', (if ¬ e = true ∧ (got ++ b).length < want then _ else _) = _ ∧ _
    by_cases hcont : ¬ e = true ∧ (got ++ b).length < want
    · rw [if_pos hcont]
      have hlt := he2 (by simpa using hcont.1) hcont.2
      have hlen := hcont.2
      rw [List.length_append] at hlen
      generalize hmm : min (want - (got ++ b).length) (c1.last - c1.next) = m
      rw [List.length_append] at hmm
      rw [if_pos (by omega)]
      have hchunk : (c1.buf.drop c1.next).take m = (c.view.drop (c.pos + b.length)).take m := by
        rw [← v1, ← p1]
        exact (i1.drop_view c1.next m (by omega)).symm
      have hcl : ((c1.buf.drop c1.next).take m).length = m := by
        rw [List.length_take, List.length_drop]; unfold Cache.last at hlt hmm; omega
      have i2 : ({ c1 with next := c1.next + m } : Cache).Inv := by
        refine ⟨i1.size, ?_, i1.last, ?_, i1.same, i1.refpos, i1.ro, i1.eof⟩
        · show c1.next + m ≤ c1.last; omega
        · rcases i1.ftw with hh | hh
          · exact .inl hh
          · exact .inr ⟨by simp only; omega, hh.2⟩
      have hgl : (got ++ b ++ (c1.buf.drop c1.next).take m).length ≤ want := by
        rw [List.length_append, List.length_append, hcl]; omega
      obtain ⟨c2, r1, r2, r3, r4, r5⟩ := ih _ i2 (by simp only; rw [m1]; exact hm) want (got ++ b ++ (c1.buf.drop c1.next).take m) hgl (by
        rw [List.length_append, List.length_append, hcl]; omega)
      have hv2 : ({ c1 with next := c1.next + m } : Cache).view = c.view := by rw [← v1]; rfl
      have hp2 : ({ c1 with next := c1.next + m } : Cache).pos = c.pos + b.length + m := by
        simp only [Cache.pos] at p1 ⊢; omega
      rw [r1, hv2, hp2]
      have key : (c.view.drop c.pos).take (want - got.length) =
          b ++ ((c1.buf.drop c1.next).take m ++ (c.view.drop (c.pos + b.length + m)).take (want - (got ++ b ++ (c1.buf.drop c1.next).take m).length)) := by
        rw [List.length_append, List.length_append, hcl]
        rw [← take_two c.view c.pos b.length (want - got.length) (by omega) (.inr trivial), ← hb, hchunk]
        congr 1
        rw [show want - (got.length + b.length + m) = (want - got.length - b.length) - m by omega]
        exact (take_two c.view _ m _ (by omega) (.inr trivial)).symm
      refine ⟨c2, ?_, r2, by rw [r3, hv2], ?_, by rw [r5]; exact m1⟩
      · rw [key]; simp
      · rw [r4, hp2, hv2, key]; simp only [List.length_append, hcl]; omega
    · rw [if_neg hcont]
      have key : (c.view.drop c.pos).take (want - got.length) = b := by
        by_cases he : e = true
        · have hend := he1 he
          rw [← take_two c.view c.pos b.length (want - got.length) (by omega) (.inr trivial), ← hb]
          rw [List.drop_eq_nil_of_le (by omega)]; simp
        · have : b.length = want - got.length := by
            by_contra hc
            exact hcont ⟨he, by rw [List.length_append]; omega⟩
          rw [← this]; exact hb.symm
      exact ⟨c1, by rw [key], i1, v1, by rw [key]; exact p1, m1⟩

/-- **C15**: reading through the cache gives what reading the file gives. -/
theorem C15_read (c : Cache) (h : c.Inv) (hm : c.mode ≠ .wo) (n : Nat) :
    ∃ c', c.read n = .ok (c', (c.abs.read n).2) ∧ c'.Inv ∧ c'.abs = (c.abs.read n).1 ∧ c'.mode = c.mode := by
  obtain ⟨c', h1, h2, h3, h4, h5⟩ := readLoop_spec (n + 1) c h hm n [] (Nat.zero_le _) (by simp)
  refine ⟨c', ?_, h2, ?_, h5⟩
  · unfold Cache.read; rw [if_neg hm, h1]; simp [Flat.read, Cache.abs]
  · simp only [Cache.abs, Flat.read, h3, h4]; simp

/-! ### Writing -/

theorem writeFill_spec (c : Cache) (h : c.Inv) (hm : c.mode ≠ .ro) (b : Bytes) (hb : b ≠ []) (hl : b.length ≤ c.size - c.next) (he : c.eof = 0) :
    (c.writeFill b).Inv ∧ (c.writeFill b).view = patch c.view c.pos b ∧ (c.writeFill b).pos = c.pos + b.length ∧ (c.writeFill b).mode = c.mode ∧
      (c.writeFill b).size = c.size ∧ (c.writeFill b).eof = 0 := by
  have hpos : 0 < b.length := List.length_pos_iff.mpr hb
  have hn := h.next
  have hls := h.last
  have hlast : (c.writeFill b).last = max c.last (c.next + b.length) := by
    unfold Cache.writeFill Cache.last at *; simp; omega
  have hget : ∀ i, (c.writeFill b).buf[i]? = if i < c.next then c.buf[i]? else if i < c.next + b.length then b[i - c.next]? else c.buf[i]? := by
    intro i
    have htl : (c.buf.take c.next).length = c.next := by rw [List.length_take]; unfold Cache.last at hn; omega
    simp only [Cache.writeFill, List.append_assoc]
    by_cases h1 : i < c.next
    · rw [if_pos h1, List.getElem?_append_left (by omega), List.getElem?_take_of_lt h1]
    · rw [if_neg h1, List.getElem?_append_right (by omega), htl]
      by_cases h2 : i < c.next + b.length
      · rw [if_pos h2, List.getElem?_append_left (by omega)]
      · rw [if_neg h2, List.getElem?_append_right (by omega), List.getElem?_drop]; congr 1; omega
  -- where the data to write starts
  have hftw : (c.writeFill b).ftw = if c.pending then c.ftw else c.next := by
    unfold Cache.writeFill Cache.pending
    by_cases hp : c.ftw < c.last
    · simp [hp]
    · simp [hp, Nat.le_of_not_lt hp]
  have hf : (c.writeFill b).ftw ≤ c.next := by
    rw [hftw]
    split_ifs with hp
    · rcases h.ftw with hh | hh
      · exact absurd hh (h.pending_iff.mp hp)
      · exact hh.1
    · exact le_refl _
  have hpend : (c.writeFill b).pending = true := by
    unfold Cache.pending; rw [hlast]; simp; omega
  have hsame : ∀ i, i < (c.writeFill b).ftw → c.ref.data[c.off + i]? = c.buf[i]? := by
    intro i hi
    rw [hftw] at hi
    split_ifs at hi with hp
    · exact h.same i (by unfold Cache.pending at hp; simp at hp; omega) hi
    · have : c.ftw = c.size := by by_contra hc; exact hp (h.pending_iff.mpr hc)
      exact h.same i (by omega) (by omega)
  have hlen : c.off + (c.writeFill b).ftw ≤ c.ref.data.length ∨ (c.writeFill b).ftw = 0 := by
    by_cases hz : (c.writeFill b).ftw = 0
    · exact .inr hz
    · left
      have := hsame ((c.writeFill b).ftw - 1) (by omega)
      by_contra hc
      rw [get_none_of_len _ _ (by omega)] at this
      unfold Cache.last at hn
      rw [List.getElem?_eq_getElem (by omega)] at this
      cases this
  refine ⟨⟨h.size, ?_, ?_, ?_, ?_, ?_, ?_, ?_⟩, ?_, ?_, rfl, rfl, he⟩
  · rw [hlast]; simp only [Cache.writeFill]; omega
  · rw [hlast]; simp only [Cache.writeFill]; omega
  · right
    refine ⟨?_, ?_⟩
    · have : (c.writeFill b).next = c.next + b.length := rfl
      omega
    · rw [hlast]; omega
  · intro i hi hif
    rw [hget i, if_pos (by omega)]
    exact hsame i hif
  · intro hp; rw [hpend] at hp; cases hp
  · intro hr; exact absurd hr hm
  · exact .inl he
  · -- the view
    have hvn : (c.writeFill b).view = patch c.ref.data (c.off + (c.writeFill b).ftw) ((c.writeFill b).buf.drop (c.writeFill b).ftw) := by
      unfold Cache.view; rw [if_pos hpend]; rfl
    have hne : (c.writeFill b).buf.drop (c.writeFill b).ftw ≠ [] := by
      intro hh
      have := congrArg List.length hh
      simp only [List.length_drop, List.length_nil] at this
      unfold Cache.last at hlast; omega
    have hvo : ∀ i, c.view[i]? = if c.off + (c.writeFill b).ftw ≤ i ∧ i < c.off + c.last then c.buf[i - c.off]? else
        (if i < c.off + (c.writeFill b).ftw ∧ c.pending = true then (if i < c.ref.data.length then c.ref.data[i]? else some 0) else c.ref.data[i]?) := by
      intro i
      by_cases hin : c.off ≤ i ∧ i < c.off + c.last
      · have := h.view_get (i - c.off) (by omega)
        rw [show c.off + (i - c.off) = i by omega] at this
        by_cases h2 : c.off + (c.writeFill b).ftw ≤ i
        · rw [if_pos ⟨h2, hin.2⟩]; exact this
        · rw [if_neg (by omega), this]
          have h3 := hsame (i - c.off) (by omega)
          rw [show c.off + (i - c.off) = i by omega] at h3
          have h4 : i < c.ref.data.length := by rcases hlen with hh | hh <;> omega
          rw [← h3]
          simp [h4]
      · rw [if_neg (by omega)]
        unfold Cache.view
        by_cases hp : c.pending = true
        · have hlt : c.ftw < c.last := by unfold Cache.pending at hp; simpa using hp
          rw [hftw, if_pos hp, if_pos hp]
          have hne2 : c.buf.drop c.ftw ≠ [] := by
            intro hh; have := congrArg List.length hh; simp at this; unfold Cache.last at hlt; omega
          rw [patch_get _ _ _ hne2]
          simp only [List.length_drop]
          have : c.buf.length = c.last := rfl
          by_cases h5 : i < c.off + c.ftw
          · simp [h5, hp]
          · rw [if_neg h5, if_neg (by omega), if_neg (by omega)]
        · rw [if_neg hp, if_neg (fun hh => hp hh.2)]
    have hvlen : c.view.length = if c.pending then max c.ref.data.length (c.off + c.last) else c.ref.data.length := by
      unfold Cache.view
      by_cases hp : c.pending = true
      · have hlt : c.ftw < c.last := by unfold Cache.pending at hp; simpa using hp
        have hne2 : c.buf.drop c.ftw ≠ [] := by
          intro hh; have := congrArg List.length hh; simp at this; unfold Cache.last at hlt; omega
        rw [if_pos hp, if_pos hp, patch_length _ _ _ hne2, List.length_drop]
        have : c.buf.length = c.last := rfl
        omega
      · rw [if_neg hp, if_neg hp]
    have hclean : c.pending = false → c.last = 0 ∨ c.off + c.last ≤ c.ref.data.length := by
      intro hp
      have hf2 : c.ftw = c.size := by by_contra hc; rw [h.pending_iff.mpr hc] at hp; cases hp
      by_cases hz : c.last = 0
      · exact .inl hz
      · right
        have := h.same (c.last - 1) (by omega) (by omega)
        by_contra hc
        rw [get_none_of_len _ _ (by omega), List.getElem?_eq_getElem (by unfold Cache.last at *; omega)] at this
        cases this
    apply List.ext_getElem?
    intro i
    rw [hvn, patch_get _ _ _ hne, patch_get _ _ b hb, hvlen]
    simp only [List.length_drop, List.getElem?_drop, hget, Cache.pos, hvo]
    have hbl : (c.writeFill b).buf.length = max c.last (c.next + b.length) := hlast
    rw [hbl]
    generalize hF : (c.writeFill b).ftw = F at *
    by_cases hp : c.pending = true
    · have : c.ftw < c.last := by unfold Cache.pending at hp; simpa using hp
      simp only [hp, if_true, and_true]
      split_ifs <;> first | rfl | omega | (congr 1; omega) | skip
      all_goals (first | (rw [get_none_of_len _ _ (by omega)]) | skip)
    · have hp' : c.pending = false := by simpa using hp
      have hcl := hclean hp'
      rw [if_neg hp] at hftw
      simp only [hp', Bool.false_eq_true, if_false, and_false]
      split_ifs <;> first | rfl | omega | (congr 1; omega) | skip
      all_goals (first | (rw [get_none_of_len _ _ (by omega)]) | skip)
  · simp only [Cache.pos, Cache.writeFill]; omega

theorem writeDirect_spec (c : Cache) (h : c.Inv) (hp : c.pending = false) (b : Bytes) (he : c.eof = 0) :
    (c.writeDirect b).Inv ∧ (c.writeDirect b).view = patch c.view c.pos b ∧ (c.writeDirect b).pos = c.pos + b.length ∧ (c.writeDirect b).mode = c.mode ∧
      (c.writeDirect b).eof = 0 := by
  have f1 : c.ftw = c.size := by by_contra hc; rw [h.pending_iff.mpr hc] at hp; cases hp
  refine ⟨⟨h.size, Nat.zero_le _, Nat.zero_le _, .inl f1, fun i hi => by simp [Cache.last, Cache.writeDirect] at hi, fun _ => ?_, fun _ => f1, .inl he⟩, ?_, ?_, rfl, he⟩
  · simp [Cache.writeDirect, Cache.last, Flat.write, Flat.skip]
  · rw [view_of_clean (c.writeDirect b) (by simp [Cache.pending, Cache.last, Cache.writeDirect]), view_of_clean c hp]
    rfl
  · simp [Cache.writeDirect, Cache.pos]

theorem Cache.Inv.eof0 {c : Cache} (h : c.Inv) : ({ c with eof := 0 } : Cache).Inv :=
  ⟨h.size, h.next, h.last, h.ftw, h.same, h.refpos, h.ro, .inl rfl⟩

theorem writeLoop_spec : ∀ (fuel : Nat) (c : Cache), c.Inv → c.mode ≠ .ro → c.eof = 0 → ∀ (b : Bytes), b.length < fuel →
    ∃ c', c.writeLoop b fuel = .ok c' ∧ c'.Inv ∧ c'.view = patch c.view c.pos b ∧ c'.pos = c.pos + b.length ∧ c'.mode = c.mode ∧ c'.eof = 0 := by
  intro fuel
  induction fuel with
  | zero => intro c _ _ _ b hh; omega
  | succ fuel ih =>
    intro c h hm he b hfu
    rw [Cache.writeLoop]
    by_cases hb : b = []
    · subst hb; rw [if_pos rfl]; exact ⟨c, rfl, h, (patch_nil _ _).symm, rfl, rfl, he⟩
    · rw [if_neg hb]
      have hbl : 0 < b.length := List.length_pos_iff.mpr hb
      have step : ∃ c1, (if c.size - c.next = 0 then c.flushIfNeeded else .ok c) = .ok c1 ∧ c1.Inv ∧ c1.view = c.view ∧ c1.pos = c.pos ∧ c1.mode = c.mode ∧ c1.eof = 0 ∧
          (c1.size - c1.next = 0 → c1.pending = false) := by
        by_cases hz : c.size - c.next = 0
        · rw [if_pos hz]
          have hnl : c.next = c.last := by have := h.next; have := h.last; omega
          obtain ⟨c1, h1, i1, p1, v1, o1, n1, m1, s1, d1⟩ := flushIfNeeded_spec c h
          have n1 := n1 hnl
          refine ⟨c1, h1, i1, v1, by simp only [Cache.pos]; omega, m1, ?_, fun _ => p1⟩
          rcases d1 with d1 | d1
          · rw [d1]; exact he
          · unfold Cache.flushIfNeeded at h1
            rw [if_pos d1.2] at h1
            obtain ⟨c2, g1, g2, g3, g4, g5, g6, g7, g8, g9, g10⟩ := flush_spec c h d1.2
            rw [g1] at h1; injection h1 with h1; rw [← h1]; exact g9
        · rw [if_neg hz]; exact ⟨c, rfl, h, rfl, rfl, rfl, he, fun hh => absurd hh hz⟩
      obtain ⟨c1, h1, i1, v1, q1, m1, e1, z1⟩ := step
      rw [h1]
      change ∃ c', (if c1.size - c1.next < b.length ∧ ¬ c1.pending = true then _ else _) = _ ∧ _
      by_cases hdir : c1.size - c1.next < b.length ∧ ¬ c1.pending = true
      · rw [if_pos hdir]
        obtain ⟨a1, a2, a3, a4, a5⟩ := writeDirect_spec c1 i1 (by simpa using hdir.2) b e1
        exact ⟨_, rfl, a1, by rw [a2, v1, q1], by rw [a3, q1], by rw [a4, m1], a5⟩
      · rw [if_neg hdir]
        have hroom : 0 < c1.size - c1.next := by
          by_contra hc
          exact hdir ⟨by omega, by rw [z1 (by omega)]; simp⟩
        change ∃ c', Cache.writeLoop (c1.writeFill (b.take (min b.length (c1.size - c1.next)))) (b.drop (min b.length (c1.size - c1.next))) fuel = _ ∧ _
        generalize hmm : min b.length (c1.size - c1.next) = m
        have hne : b.take m ≠ [] := by
          intro hh; have := congrArg List.length hh; rw [List.length_take, List.length_nil] at this; omega
        have htl : (b.take m).length = m := by rw [List.length_take]; omega
        obtain ⟨a1, a2, a3, a4, a5, a6⟩ := writeFill_spec c1 i1 (by rw [m1]; exact hm) (b.take m) hne (by rw [htl]; omega) e1
        obtain ⟨c2, r1, r2, r3, r4, r5, r6⟩ := ih _ a1 (by rw [a4, m1]; exact hm) a6 (b.drop m) (by rw [List.length_drop]; omega)
        refine ⟨c2, r1, r2, ?_, ?_, by rw [r5, a4, m1], r6⟩
        · rw [r3, a2, a3, patch_append, List.take_append_drop, v1, q1]
        · rw [r4, a3, htl, q1, List.length_drop]; omega

theorem shift_eof (c : Cache) : Cache.shiftByHalf { c with eof := 0 } = c.shiftByHalf.map (fun c' => { c' with eof := 0 }) := by
  unfold Cache.shiftByHalf
  change (if c.last ≤ c.size / 2 then _ else _) = Except.map _ (if c.last ≤ c.size / 2 then _ else _)
  by_cases h1 : c.last ≤ c.size / 2
  · rw [if_pos h1, if_pos h1]; rfl
  · rw [if_neg h1, if_neg h1]
    change (if c.ftw < (if c.next < c.last - c.size / 2 then c.next else c.last - c.size / 2) then _ else _) =
      Except.map _ (if c.ftw < (if c.next < c.last - c.size / 2 then c.next else c.last - c.size / 2) then _ else _)
    by_cases h2 : c.ftw < (if c.next < c.last - c.size / 2 then c.next else c.last - c.size / 2)
    · rw [if_pos h2, if_pos h2]; rfl
    · rw [if_neg h2, if_neg h2]; rfl

theorem clear_eof (c : Cache) : Cache.clearBuffer { c with eof := 0 } = c.clearBuffer.map (fun c' => { c' with eof := 0 }) := by
  obtain ⟨mode, size, shifted, buf, next, ftw, off, eof, ref⟩ := c
  simp only [Cache.clearBuffer, Cache.pending, Cache.last]
  by_cases h1 : ftw < buf.length
  · simp [h1]; rfl
  · simp [h1]; rfl

theorem flushPart_eof (c : Cache) : Cache.flushPart { c with eof := 0 } = { c.flushPart with eof := 0 } := by
  obtain ⟨mode, size, shifted, buf, next, ftw, off, eof, ref⟩ := c
  simp only [Cache.flushPart, Cache.pending, Cache.last]
  by_cases h1 : ftw < buf.length
  · simp [h1]
  · simp [h1]

theorem writeLoop_eof (fuel : Nat) : ∀ (c : Cache) (b : Bytes),
    Cache.writeLoop { c with eof := 0 } b fuel = (c.writeLoop b fuel).map (fun c' => { c' with eof := 0 }) := by
  have fl : ∀ c : Cache, Cache.flushIfNeeded { c with eof := 0 } = c.flushIfNeeded.map (fun c' => { c' with eof := 0 }) := by
    intro c
    unfold Cache.flushIfNeeded
    change (if c.pending = true then _ else _) = _
    by_cases hp : c.pending = true
    · rw [if_pos hp, if_pos hp]
      unfold Cache.flushWrite
      simp only
      by_cases hm : c.mode = .ro
      · rw [if_pos hm, if_pos hm]; rfl
      · rw [if_neg hm, if_neg hm]
        rw [flushPart_eof]
        by_cases hs : c.shifted = true
        · rw [if_pos hs, if_pos hs, shift_eof]
        · rw [if_neg hs, if_neg hs, clear_eof]
    · rw [if_neg hp, if_neg hp]; rfl
  induction fuel with
  | zero => intro c b; rfl
  | succ fuel ih =>
    intro c b
    rw [Cache.writeLoop, Cache.writeLoop]
    by_cases hb : b = []
    · rw [if_pos hb, if_pos hb]; rfl
    · rw [if_neg hb, if_neg hb]
      have step : (if c.size - c.next = 0 then Cache.flushIfNeeded { c with eof := 0 } else .ok { c with eof := 0 }) =
          (if c.size - c.next = 0 then c.flushIfNeeded else .ok c).map (fun c' => ({ c' with eof := 0 } : Cache)) := by
        split_ifs
        · exact fl c
        · rfl
      change ((if c.size - c.next = 0 then Cache.flushIfNeeded { c with eof := 0 } else .ok { c with eof := 0 }) >>= _) = _
      rw [step]
      cases (if c.size - c.next = 0 then c.flushIfNeeded else .ok c) with
      | error e => rfl
      | ok c1 =>
        change (if c1.size - c1.next < b.length ∧ ¬ c1.pending = true then _ else _) = Except.map _ (if c1.size - c1.next < b.length ∧ ¬ c1.pending = true then _ else _)
        by_cases hdir : c1.size - c1.next < b.length ∧ ¬ c1.pending = true
        · rw [if_pos hdir, if_pos hdir]; rfl
        · rw [if_neg hdir, if_neg hdir]
          exact ih (c1.writeFill (b.take (min b.length (c1.size - c1.next)))) (b.drop (min b.length (c1.size - c1.next)))

/-- **C15**: writing through the cache. -/
theorem C15_write (c : Cache) (h : c.Inv) (hm : c.mode ≠ .ro) (b : Bytes) :
    ∃ c', c.write b = .ok c' ∧ c'.Inv ∧ c'.abs = c.abs.write b ∧ c'.mode = c.mode := by
  obtain ⟨c', h1, h2, h3, h4, h5, h6⟩ := writeLoop_spec (b.length + 1) _ h.eof0 hm rfl b (by omega)
  rw [writeLoop_eof] at h1
  unfold Cache.write
  rw [if_neg hm]
  cases hw : c.writeLoop b (b.length + 1) with
  | error e => rw [hw] at h1; cases h1
  | ok c1 =>
    rw [hw] at h1
    injection h1 with h1
    by_cases hb : b = []
    · subst hb
      have : c1 = c := by rw [Cache.writeLoop, if_pos rfl] at hw; injection hw with hw; exact hw.symm
      subst this
      exact ⟨_, rfl, h, by simp [Flat.write, Cache.abs, patch_nil], rfl⟩
    · have hbl : 0 < b.length := List.length_pos_iff.mpr hb
      refine ⟨c', ?_, h2, ?_, h5⟩
      · change Except.ok _ = _
        rw [if_pos hbl, ← h1]
      · simp only [Cache.abs, Flat.write, h3, h4]; rfl

/-- **C15**: seeking through the cache. -/
theorem C15_skip (c : Cache) (h : c.Inv) (p : Nat) : ∃ c', c.skip p = .ok (c', true) ∧ c'.Inv ∧ c'.abs = c.abs.skip p ∧ c'.mode = c.mode := by
  unfold Cache.skip
  by_cases hin : p ≥ c.off ∧ p ≤ c.off + c.last
  · rw [if_pos hin]
    refine ⟨_, rfl, ?_⟩
    rcases h.ftw with hf | hf
    · simp only [hf, ne_eq, not_true_eq_false, and_false, if_false]
      have hp : c.pending = false := c.not_pending_of_size h.last hf
      refine ⟨⟨h.size, ?_, h.last, .inl rfl, ?_, ?_, fun _ => rfl, ?_⟩, ?_, trivial⟩
      · show p - c.off ≤ c.last; omega
      · intro i hi hlt; exact h.same i hi (by rw [hf]; exact hlt)
      · intro _; exact h.refpos hp
      · rcases h.eof with he | he
        · exact .inl he
        · exact .inr ⟨he.1, by simp only [Cache.pending, Cache.last] at hp ⊢; rw [hf] at hp; exact hp⟩
      · have e1 : ({ c with ftw := c.size, next := p - c.off } : Cache).view = c.view := by
          unfold Cache.view Cache.pending; rw [hf]; rfl
        rw [hf] at *
        simp only [Cache.abs, e1, Flat.skip, Cache.pos]
        congr 1; omega
    · have hsz := h.last
      have hpend : c.pending = true := by unfold Cache.pending; simp; exact hf.2
      by_cases hlow : c.ftw > p - c.off
      · rw [if_pos ⟨hlow, by omega⟩]
        have hlt2 : p - c.off < c.last := by omega
        have hpe : ({ c with ftw := p - c.off, next := p - c.off } : Cache).pending = true := decide_eq_true hlt2
        refine ⟨⟨h.size, ?_, h.last, .inr ⟨le_refl _, ?_⟩, ?_, ?_, ?_, ?_⟩, ?_, rfl⟩
        · show p - c.off ≤ c.last; omega
        · show p - c.off < c.last; omega
        · intro i hi hlt; exact h.same i hi (by simp only at hlt; omega)
        · intro hp; rw [hpe] at hp; cases hp
        · intro hr; have := h.ro hr; omega
        · rcases h.eof with he | he
          · exact .inl he
          · rw [hpend] at he; cases he.2
        · simp only [Cache.abs, Flat.skip, Cache.pos]
          congr 1
          · unfold Cache.view
            rw [if_pos hpend, if_pos hpe]
            simp only
            have hs : patch c.ref.data (c.off + (p - c.off)) ((c.buf.drop (p - c.off)).take (c.ftw - (p - c.off))) = c.ref.data := by
              apply patch_same
              intro i hi
              rw [List.length_take] at hi
              rw [List.getElem?_take, if_pos (by omega), List.getElem?_drop, Nat.add_assoc]
              exact h.same _ (by omega) (by omega)
            have hl : ((c.buf.drop (p - c.off)).take (c.ftw - (p - c.off))).length = c.ftw - (p - c.off) := by
              rw [List.length_take, List.length_drop]; unfold Cache.last at hf; omega
            have := patch_append c.ref.data (c.off + (p - c.off)) ((c.buf.drop (p - c.off)).take (c.ftw - (p - c.off))) (c.buf.drop c.ftw)
            rw [hs, hl] at this
            rw [show c.off + (p - c.off) + (c.ftw - (p - c.off)) = c.off + c.ftw by omega] at this
            have h0 := List.take_append_drop (c.ftw - (p - c.off)) (c.buf.drop (p - c.off))
            rw [List.drop_drop, show p - c.off + (c.ftw - (p - c.off)) = c.ftw by omega] at h0
            rw [h0] at this
            exact this.symm
          · omega
      · rw [if_neg (fun hh => hlow hh.1)]
        refine ⟨⟨h.size, ?_, h.last, .inr ⟨?_, hf.2⟩, h.same, h.refpos, h.ro, h.eof⟩, ?_, rfl⟩
        · show p - c.off ≤ c.last; omega
        · show c.ftw ≤ p - c.off; omega
        · simp only [Cache.abs, Flat.skip, Cache.pos]
          congr 1; omega
  · rw [if_neg hin]
    obtain ⟨c1, h1, i1, p1, v1, o1, n1, m1, s1, -⟩ := flushIfNeeded_spec c h
    have f1 : c1.ftw = c1.size := by by_contra hc; rw [i1.pending_iff.mpr hc] at p1; cases p1
    rw [h1]
    refine ⟨_, rfl, ⟨i1.size, Nat.zero_le _, Nat.zero_le _, .inl f1, fun i hi => by simp [Cache.last] at hi, fun _ => rfl, fun _ => f1, ?_⟩, ?_, m1⟩
    · rcases i1.eof with he | he
      · exact .inl he
      · exact .inr ⟨he.1, by simp [Cache.pending, Cache.last]⟩
    · simp only [Cache.abs, Flat.skip, Cache.pos, Nat.add_zero]
      congr 1
      rw [view_of_clean _ (by simp [Cache.pending, Cache.last])]
      simp only
      rw [← view_of_clean c1 p1, v1]

/-- **C15**: going to the end through the cache, from a position inside the file. -/
theorem C15_skip_to_eof (c : Cache) (h : c.Inv) (hpos : c.abs.pos ≤ c.abs.data.length) :
    ∃ c', c.skipEof = .ok (c', true) ∧ c'.Inv ∧ c'.abs = c.abs.skipEof ∧ c'.mode = c.mode := by
  unfold Cache.skipEof
  obtain ⟨c1, h1, i1, p1, v1, o1, n1, m1, s1, d1⟩ := flushIfNeeded_spec c h
  have f1 : c1.ftw = c1.size := by by_contra hc; rw [i1.pending_iff.mpr hc] at p1; cases p1
  have hd : c1.ref.data = c.view := by rw [← view_of_clean c1 p1, v1]
  -- the cached data are in the file
  have hin : c1.off + c1.last ≤ c1.ref.data.length := by
    by_cases hz : c1.last = 0
    · rcases d1 with d1 | d1
      · simp only [Cache.abs, Cache.pos] at hpos
        rw [hd]; rw [d1] at hz ⊢; omega
      · -- after a flush, the data flushed are in the file
        have hlt : c.ftw < c.last := by have := d1.2; unfold Cache.pending at this; simpa using this
        have hne2 : c.buf.drop c.ftw ≠ [] := by
          intro hh; have := congrArg List.length hh; simp at this; unfold Cache.last at hlt; omega
        have : c.view.length = max c.ref.data.length (c.off + c.last) := by
          unfold Cache.view
          rw [if_pos d1.2, patch_length _ _ _ hne2, List.length_drop]
          have : c.buf.length = c.last := rfl
          omega
        rw [hd, this]; omega
    · have := i1.same (c1.last - 1) (by omega) (by have := i1.last; omega)
      by_contra hc
      rw [get_none_of_len _ _ (by omega), List.getElem?_eq_getElem (by unfold Cache.last at *; omega)] at this
      cases this
  rw [h1]
  have step : ∃ c2, (if c1.eof = 0 then (.ok { c1 with ref := c1.ref.skipEof, eof := c1.ref.data.length } : Res Cache) else do
      let (c, _) ← c1.skip c1.eof
      .ok c) = .ok c2 ∧ c2.ref.data = c1.ref.data ∧ c2.pending = false ∧ c2.ftw = c2.size ∧ 10 ≤ c2.size ∧ c2.last ≤ c2.size ∧
      (∀ i, i < c2.last → c2.ref.data[c2.off + i]? = c2.buf[i]?) ∧ c2.off + c2.last ≤ c2.eof ∧ c2.eof = c1.ref.data.length ∧
      (c2.off + c2.last = c2.eof → c2.ref.pos = c2.eof) ∧ (c2.off + c2.last < c2.eof → c2.ref.pos = c2.eof) ∧ c2.mode = c1.mode := by
    by_cases he : c1.eof = 0
    · rw [if_pos he]
      refine ⟨_, rfl, rfl, p1, f1, i1.size, i1.last, fun i hi => i1.same i hi (by have := i1.last; have : i < c1.last := hi; omega), hin, rfl, fun _ => rfl, fun _ => rfl, rfl⟩
    · rw [if_neg he]
      have hlen : c1.eof = c1.ref.data.length := by rcases i1.eof with hh | hh; exact absurd hh he; exact hh.1
      obtain ⟨c2, g1, g2, g3, gm⟩ := C15_skip c1 i1 c1.eof
      rw [g1]
      have g4 : c2.pending = false ∧ c2.ref.data = c1.ref.data ∧ c2.eof = c1.eof ∧ c2.off + c2.last = c1.eof ∧ c2.ref.pos = c1.eof := by
        unfold Cache.skip at g1
        by_cases hcase : c1.eof ≥ c1.off ∧ c1.eof ≤ c1.off + c1.last
        · rw [if_pos hcase] at g1
          injection g1 with g1; injection g1 with g1 _
          have hfs : ¬ (c1.ftw > c1.eof - c1.off ∧ c1.ftw ≠ c1.size) := by rw [f1]; simp
          rw [if_neg hfs] at g1
          have r := i1.refpos p1
          subst g1
          refine ⟨p1, rfl, rfl, ?_, ?_⟩
          · show c1.off + c1.last = c1.eof; omega
          · show c1.ref.pos = c1.eof; omega
        · rw [if_neg hcase] at g1
          unfold Cache.flushIfNeeded at g1
          rw [if_neg (by rw [p1]; simp)] at g1
          injection g1 with g1; injection g1 with g1 _
          subst g1
          exact ⟨by simp [Cache.pending, Cache.last], rfl, rfl, rfl, rfl⟩
      have f2 : c2.ftw = c2.size := by by_contra hc; have := g4.1; rw [g2.pending_iff.mpr hc] at this; cases this
      exact ⟨c2, rfl, g4.2.1, g4.1, f2, g2.size, g2.last, fun i hi => g2.same i hi (by have := g2.last; omega), by omega, by omega, fun _ => by omega, fun _ => by omega, gm⟩
  obtain ⟨c2, h2, d2, p2, f2, z2, l2, s2, k2, e2, r2, r2', mm2⟩ := step
  change ∃ c', ((if c1.eof = 0 then (.ok { c1 with ref := c1.ref.skipEof, eof := c1.ref.data.length } : Res Cache) else do
      let (c, _) ← c1.skip c1.eof
      .ok c) >>= fun c => c.eofEnd >>= fun c => .ok (c, true)) = .ok (c', true) ∧ _
  rw [h2]
  change ∃ c', (c2.eofEnd >>= fun c => .ok (c, true)) = .ok (c', true) ∧ _
  unfold Cache.eofEnd
  by_cases hlt : c2.off + c2.last < c2.eof
  · rw [if_pos hlt]
    unfold Cache.clearBuffer
    rw [if_neg (by rw [p2]; simp)]
    refine ⟨_, rfl, ⟨z2, Nat.zero_le _, Nat.zero_le _, .inl f2, fun i hi => by simp [Cache.last] at hi, fun _ => ?_, fun _ => f2, .inr ⟨by rw [e2, ← d2], by simp [Cache.pending, Cache.last]⟩⟩, ?_, by rw [← m1]; exact mm2⟩
    · simp only [Cache.last, List.length_nil, Nat.add_zero]; exact r2' hlt
    · simp only [Cache.abs, Flat.skipEof, Cache.pos, Nat.add_zero]
      congr 1
      · rw [view_of_clean _ (by simp [Cache.pending, Cache.last])]; simp only; rw [d2, hd]
      · rw [e2, hd]
  · rw [if_neg hlt, if_neg (by omega)]
    have heq : c2.off + c2.last = c2.eof := by omega
    refine ⟨_, rfl, ⟨z2, le_refl _, l2, .inl f2, fun i hi _ => s2 i hi, fun _ => ?_, fun _ => f2, .inr ⟨by rw [e2, ← d2], p2⟩⟩, ?_, by rw [← m1]; exact mm2⟩
    · show c2.ref.pos = c2.off + c2.last; rw [r2 heq, heq]
    · simp only [Cache.abs, Flat.skipEof, Cache.pos]
      congr 1
      · rw [view_of_clean ({ c2 with next := c2.last } : Cache) p2]; simp only; rw [d2, hd]
      · show c2.off + c2.last = _; rw [heq, e2, hd]

/-- **C15**: once flushed, the file below has the content the user of the cache sees. -/
theorem C15_sync (c : Cache) (h : c.Inv) (hm : c.mode ≠ .ro) : ∃ c', c.syncWrite = .ok c' ∧ c'.ref.data = c.abs.data ∧ c'.abs.data = c.abs.data ∧
    (c.next = c.last → c'.Inv ∧ c'.abs = c.abs) := by
  unfold Cache.syncWrite
  rw [if_neg hm]
  by_cases hp : c.pending = true
  · obtain ⟨c', h1, h2, h3, h4, h5, h6, h7, h8, h9, h10⟩ := flush_spec c h hp
    refine ⟨c', h1, h4, ?_, fun hn => ⟨h2, ?_⟩⟩
    · show c'.view = c.view; rw [view_of_clean c' h3, h4]
    · simp only [Cache.abs, Cache.pos]
      rw [view_of_clean c' h3, h4]; congr 1; omega
  · have hp' : c.pending = false := by simpa using hp
    have f1 : c.ftw = c.size := by by_contra hc; exact hp (h.pending_iff.mpr hc)
    have e : c.flushPart = { c with ftw := c.size, next := c.last } := by
      unfold Cache.flushPart; rw [if_neg hp]
    have i1 : c.flushPart.Inv := by
      rw [e]
      refine ⟨h.size, le_refl _, h.last, .inl rfl, fun i hi hlt => h.same i hi (by rw [f1]; exact hlt), fun _ => h.refpos hp', fun _ => rfl, ?_⟩
      rcases h.eof with he | he
      · exact .inl he
      · exact .inr ⟨he.1, Cache.not_pending_of_size _ h.last rfl⟩
    have p1 : c.flushPart.pending = false := by rw [e]; exact Cache.not_pending_of_size _ h.last rfl
    have hr : c.flushPart.ref = c.ref := by rw [e]
    have q1 : c.next = c.last → c.flushPart.pos = c.pos := by intro hn; rw [e]; show c.off + c.last = c.off + c.next; omega
    have n1 : c.flushPart.next = c.flushPart.last := by rw [e]; rfl
    unfold Cache.flushWrite
    rw [if_neg hm]
    split_ifs
    · obtain ⟨c', j1, j2, j3, j4, j5, j6, j7, j8, j9, j10, j11, j12⟩ := shift_spec _ i1 p1
      have hv : c'.view = c.view := by rw [view_of_clean c' j4, view_of_clean c hp', j3, hr]
      refine ⟨c', j1, ?_, hv, fun hn => ⟨j2, ?_⟩⟩
      · show c'.ref.data = c.view; rw [← view_of_clean c' j4, hv]
      · simp only [Cache.abs]; rw [hv, j5, q1 hn]
    · obtain ⟨c', j1, j2, j3⟩ := clear_spec _ i1 p1
      have hnp : c'.pending = false := by rw [j2]; simp [Cache.pending, Cache.last]
      have hv : c'.view = c.view := by rw [view_of_clean c' hnp, view_of_clean c hp', j2, ← hr]
      refine ⟨c', j1, ?_, hv, fun hn => ⟨j3 n1, ?_⟩⟩
      · show c'.ref.data = c.view; rw [← view_of_clean c' hnp, hv]
      · simp only [Cache.abs]; rw [hv, ← q1 hn, j2]; rfl

/-! ### Sessions -/

/-- operations of a user of the file -/
inductive SessOp where
  | read (n : Nat) | write (b : Bytes) | skip (p : Nat) | toEof
  deriving Repr

/-- their effect on a file and the data read -/
def Flat.run (f : Flat) : List SessOp → Flat × List Bytes
  | [] => (f, [])
  | .read n :: l => let r := (f.read n).1.run l; (r.1, (f.read n).2 :: r.2)
  | .write b :: l => (f.write b).run l
  | .skip p :: l => (f.skip p).run l
  | .toEof :: l => f.skipEof.run l
/-- their effect through the cache -/
def Cache.run (c : Cache) : List SessOp → Res (Cache × List Bytes)
  | [] => .ok (c, [])
  | .read n :: l => do let (c, b) ← c.read n; let (c, r) ← c.run l; .ok (c, b :: r)
  | .write b :: l => do let c ← c.write b; c.run l
  | .skip p :: l => do let (c, _) ← c.skip p; c.run l
  | .toEof :: l => do let (c, _) ← c.skipEof; c.run l

/-- The session never goes to the end from beyond the end. -/
def Inside (f : Flat) : List SessOp → Prop
  | [] => True
  | .read n :: l => Inside (f.read n).1 l
  | .write b :: l => Inside (f.write b) l
  | .skip p :: l => Inside (f.skip p) l
  | .toEof :: l => f.pos ≤ f.data.length ∧ Inside f.skipEof l

/-- **C15**: any session of reads, writes, seeks gives through the cache the data it gives directly on the file. -/
theorem C15_session_from (l : List SessOp) : ∀ (c : Cache), c.Inv → c.mode = .rw → Inside c.abs l →
    ∃ c', c.run l = .ok (c', (c.abs.run l).2) ∧ c'.Inv ∧ c'.mode = .rw ∧ c'.abs = (c.abs.run l).1 := by
  induction l with
  | nil => intro c h hm _; exact ⟨c, rfl, h, hm, rfl⟩
  | cons o l ih =>
    intro c h hm hin
    cases o with
    | read n =>
      obtain ⟨c1, h1, i1, a1, m1⟩ := C15_read c h (by rw [hm]; simp) n
      simp only [Inside] at hin
      obtain ⟨c2, r1, r2, r3, r4⟩ := ih c1 i1 (m1.trans hm) (by rw [a1]; exact hin)
      rw [a1] at r1 r4
      refine ⟨c2, ?_, r2, r3, r4⟩
      rw [Cache.run, h1]
      change (c1.run l >>= fun x => Except.ok (x.1, _ :: x.2)) = _
      rw [r1]; rfl
    | write b =>
      obtain ⟨c1, h1, i1, a1, m1⟩ := C15_write c h (by rw [hm]; simp) b
      simp only [Inside] at hin
      obtain ⟨c2, r1, r2, r3, r4⟩ := ih c1 i1 (m1.trans hm) (by rw [a1]; exact hin)
      rw [a1] at r1 r4
      refine ⟨c2, ?_, r2, r3, r4⟩
      rw [Cache.run, h1]
      exact r1
    | skip p =>
      obtain ⟨c1, h1, i1, a1, m1⟩ := C15_skip c h p
      simp only [Inside] at hin
      obtain ⟨c2, r1, r2, r3, r4⟩ := ih c1 i1 (m1.trans hm) (by rw [a1]; exact hin)
      rw [a1] at r1 r4
      refine ⟨c2, ?_, r2, r3, r4⟩
      rw [Cache.run, h1]
      exact r1
    | toEof =>
      simp only [Inside] at hin
      obtain ⟨c1, h1, i1, a1, m1⟩ := C15_skip_to_eof c h hin.1
      obtain ⟨c2, r1, r2, r3, r4⟩ := ih c1 i1 (m1.trans hm) (by rw [a1]; exact hin.2)
      rw [a1] at r1 r4
      refine ⟨c2, ?_, r2, r3, r4⟩
      rw [Cache.run, h1]
      exact r1

theorem cacheNew_inv (mode : GfMode) (size : Nat) (shifted : Bool) (f : Flat) (hs : 10 ≤ size) :
    ∃ c, cacheNew mode size shifted f = .ok c ∧ c.Inv ∧ c.mode = mode ∧ c.abs = f := by
  unfold cacheNew
  rw [if_neg (by omega)]
  have hp : (⟨mode, size, shifted, [], 0, size, f.pos, 0, f⟩ : Cache).pending = false := by simp [Cache.pending, Cache.last]
  refine ⟨_, rfl, ⟨hs, Nat.zero_le _, Nat.zero_le _, .inl rfl, fun i hi => by simp [Cache.last] at hi, fun _ => rfl, fun _ => rfl, .inl rfl⟩, rfl, ?_⟩
  simp only [Cache.abs, view_of_clean _ hp, Cache.pos, Nat.add_zero]

/-- **C15**: a new cache over a file, any session of reads, writes and seeks, then a flush: the user reads what the
file alone would have given, and the file ends with the content it would have had without cache. -/
theorem C15_session (size : Nat) (hs : 10 ≤ size) (shifted : Bool) (f : Flat) (l : List SessOp) (hin : Inside f l) :
    ∃ c c' c'', cacheNew .rw size shifted f = .ok c ∧ c.run l = .ok (c', (f.run l).2) ∧ c'.pos = (f.run l).1.pos ∧
      c'.syncWrite = .ok c'' ∧ c''.ref.data = (f.run l).1.data := by
  obtain ⟨c, h1, h2, h3, h4⟩ := cacheNew_inv .rw size shifted f hs
  obtain ⟨c', r1, r2, r3, r4⟩ := C15_session_from l c h2 h3 (by rw [h4]; exact hin)
  obtain ⟨c'', s1, s2, s3, s4⟩ := C15_sync c' r2 (by rw [r3]; simp)
  rw [h4] at r1 r4
  exact ⟨c, c', c'', h1, r1, by rw [← r4]; rfl, s1, by rw [s2, r4]⟩

/-- A session with data written over the end of the cache, reading back, going to the end. -/
def c15Ops : List SessOp := [.write [1, 2, 3, 4, 5, 6, 7], .write [8, 9, 10, 11, 12], .skip 5, .read 4, .skip 30, .write [7], .toEof, .skip 2, .read 12]
example : Inside ⟨[9, 9, 9], 0⟩ c15Ops := by simp [Inside, c15Ops, Flat.read, Flat.write, Flat.skip, Flat.skipEof, patch]
example : (Flat.run ⟨[9, 9, 9], 0⟩ c15Ops).2 = [[6, 7, 8, 9], [3, 4, 5, 6, 7, 8, 9, 10, 11, 12, 0, 0]] := by decide
example : ∃ c c', cacheNew .rw 10 false ⟨[9, 9, 9], 0⟩ = .ok c ∧ c.run c15Ops = .ok (c', [[6, 7, 8, 9], [3, 4, 5, 6, 7, 8, 9, 10, 11, 12, 0, 0]]) :=
  ⟨_, _, rfl, rfl⟩

/-! ### What a cache does otherwise than a file -/

/-- the cache of 10 bytes over the file 0..19 after 4 bytes have been read -/
def c15File : Flat := ⟨[0, 1, 2, 3, 4, 5, 6, 7, 8, 9, 10, 11, 12, 13, 14, 15, 16, 17, 18, 19], 0⟩

/-- **C15** (a defect of the code): a relative seek going out of the cached zone starts from the beginning of the cached
zone and not from the current position: from position 4, moving 12 bytes forward leads to 12 and not to 16. -/
theorem C15_skip_relative_counterexample : ∃ c c' c'', cacheNew .rw 10 false c15File = .ok c ∧ c.read 4 = .ok (c', [0, 1, 2, 3]) ∧
    c'.skipRel 12 = .ok (c'', true) ∧ c''.pos = 12 ∧ ((c15File.read 4).1.skipRel 12).1.pos = 16 :=
  ⟨_, _, _, rfl, rfl, rfl, rfl, rfl⟩

/-- **C15** (a defect of the code): data written after a short relative seek backward are lost. -/
theorem C15_lost_write_counterexample : ∃ c c1 c2 c3 c4 c5, cacheNew .rw 10 false ⟨[0, 1, 2, 3, 4, 5, 6, 7], 0⟩ = .ok c ∧ c.read 4 = .ok (c1, [0, 1, 2, 3]) ∧
    c1.write [90] = .ok c2 ∧ c2.skipRel (-3) = .ok (c3, true) ∧ c3.write [91] = .ok c4 ∧ c4.syncWrite = .ok c5 ∧
    c5.ref.data = [0, 1, 2, 3, 90, 5, 6, 7] ∧
    ((((Flat.mk [0, 1, 2, 3, 4, 5, 6, 7] 0).read 4).1.write [90]).skipRel (-3)).1.write [91] = ⟨[0, 1, 91, 3, 90, 5, 6, 7], 3⟩ :=
  ⟨_, _, _, _, _, _, rfl, rfl, rfl, rfl, rfl, rfl, rfl, rfl⟩

/-- **C15** (a defect of the code): flushing moves the position when the data read in advance have not been consumed. -/
theorem C15_sync_moves_counterexample : ∃ c c1 c2 c3 c4, cacheNew .rw 10 false c15File = .ok c ∧ c.read 4 = .ok (c1, [0, 1, 2, 3]) ∧
    c1.write [90] = .ok c2 ∧ c2.pos = 5 ∧ c2.syncWrite = .ok c3 ∧ c3.pos = 10 ∧ c3.read 2 = .ok (c4, [10, 11]) :=
  ⟨_, _, _, _, _, rfl, rfl, rfl, rfl, rfl, rfl, rfl⟩

/-- **C15** (a defect of the code): in read-only mode, after the read cache has been dropped, a read larger than the cache
gives the data following those which had been read in advance: from position 4, bytes 10 to 19. -/
theorem C15_flush_read_counterexample : ∃ c c1 c2 c3, cacheNew .ro 10 false c15File = .ok c ∧ c.read 4 = .ok (c1, [0, 1, 2, 3]) ∧
    c1.flushRead = .ok c2 ∧ c2.pos = 4 ∧ c2.read 10 = .ok (c3, [10, 11, 12, 13, 14, 15, 16, 17, 18, 19]) :=
  ⟨_, _, _, _, rfl, rfl, rfl, rfl, rfl⟩

/-- **C15** (a defect of the code): going to the end from a position beyond the end is reported as a bug of the program. -/
theorem C15_eof_from_beyond_counterexample : ∃ c c1, cacheNew .rw 10 false ⟨[1, 2, 3], 0⟩ = .ok c ∧ c.skip 12 = .ok (c1, true) ∧ c1.skipEof = .error .bug :=
  ⟨_, _, rfl, rfl, rfl⟩

end Dar
