import Verif.Lemmas.XformWrite07
import Verif.Spec.Xform
import Verif.Props.Slices
namespace Dar

theorem room_recent {iname dname : Bytes} {first other : Nat} (hi : LabelOk iname) (h : Room iname dname false (.slices first other)) :
    ∃ c, newSlices (newHdr iname dname false (.slices first other)) = .ok c ∧ c.lay.otherHdr + 1 < other := by
  obtain ⟨h1, h2⟩ := h
  unfold headLen at h1 h2
  generalize hh : newHdr iname dname false (.slices first other) = g at h1 h2 ⊢
  have hg : g = ⟨SAUV_MAGIC, iname, dname, flagAtEnd, first, other, 0, 0, false⟩ := by rw [← hh]; rfl
  obtain ⟨n, hn, hout⟩ := out_recent g (by rw [hg]) (by rw [hg]) (by rw [hg]; exact hi.1)
  have hb := (hout true g.flag 0 0).2.1
  have hbl := (hout true flagAtEnd 0 0).1
  have e0 : ({ g with firstHdr := 0, otherHdr := 0 } : SliceHdr) = g := by rw [hg]
  have ef : g.flag = flagAtEnd := by rw [hg]
  rw [e0] at hb hbl
  rw [ef] at hb
  generalize g.out true flagAtEnd = b at hb hbl h1 h2
  simp only [Bool.false_eq_true, if_false] at h2
  have hm : sliceMin = 16 := rfl
  rw [hm] at hn
  have hw : g.write 0 true false = .ok (b, { g with firstHdr := b.length, otherHdr := b.length }) := by
    unfold SliceHdr.write
    rw [hb]
    simp only [Bool.false_eq_true, not_false_eq_true, true_and, hg, and_self, if_true, if_false, Nat.zero_add, hm]
    rw [if_neg (by omega), if_neg (by omega), if_neg (by omega)]
  refine ⟨_, by unfold newSlices; rw [if_neg (by rw [hg, hm]; simp only; omega), if_neg (by rw [hg, hm]; simp only; omega), hw], ?_⟩
  show b.length + 1 < other
  exact h2

theorem room_old {iname dname : Bytes} {first other : Nat} (hi : LabelOk iname) (h : Room iname dname true (.slices first other)) :
    ∃ c, newSlices (newHdr iname dname true (.slices first other)) = .ok c := by
  obtain ⟨h1, h2⟩ := h
  unfold headLen at h1
  generalize hh : newHdr iname dname true (.slices first other) = g at h1 ⊢
  have hg : g = ⟨SAUV_MAGIC, iname, dname, flagAtEnd, first, other, 0, 0, true⟩ := by rw [← hh]; rfl
  have hb := bytes_old g (by rw [hg]) (by rw [hg]) true
  rw [out_old g (by rw [hg]) (by rw [hg])] at h1
  have ef : g.flag = flagAtEnd := by rw [hg]
  rw [ef] at hb
  have hbl : 16 ≤ (be32 SAUV_MAGIC ++ g.iname ++ [flagAtEnd] ++ (if g.firstSize ≠ g.otherSize ∧ true = true then [83] ++ putInt g.otherSize else [78])).length := by
    rw [hg]
    simp only [List.length_append, be32_len, hi.1, LABEL_SIZE, List.length_cons, List.length_nil]
    split_ifs <;> simp
    omega
  generalize (be32 SAUV_MAGIC ++ g.iname ++ [flagAtEnd] ++ (if g.firstSize ≠ g.otherSize ∧ true = true then [83] ++ putInt g.otherSize else [78])) = b at hb h1 hbl
  simp only [if_true] at h2
  have hm : sliceMin = 16 := rfl
  have hw : g.write 0 true false = .ok (b, { g with firstHdr := b.length, otherHdr := 16 }) := by
    unfold SliceHdr.write
    rw [hb]
    simp only [Bool.false_eq_true, not_false_eq_true, true_and, hg, and_self, if_true, Nat.zero_add, hm]
    rw [if_neg (by omega), if_neg (by omega), if_neg (by omega)]
  exact ⟨_, by unfold newSlices; rw [if_neg (by rw [hg, hm]; simp only; omega), if_neg (by rw [hg, hm]; simp only; omega), hw]⟩

theorem sized_prod {c : SarCfg} {d : Bytes} {files : List Bytes} (h : c.Ok) (hp : sarProduce c [d] = .ok files) : Sized (.slices c.lay.firstSize c.lay.otherSize) files := by
  obtain ⟨files', e1, _, _, e4⟩ := C13_slices h [d]
  rw [hp] at e1
  injection e1 with e1
  subst e1
  intro i f hf
  obtain ⟨a1, a2, _⟩ := e4 i f hf
  have e : c.size (i + 1) = if i = 0 then c.lay.firstSize else c.lay.otherSize := by
    unfold SarCfg.size
    by_cases hz : i = 0
    · rw [if_pos hz, if_pos (by omega)]
    · rw [if_neg hz, if_neg (by omega)]
  rw [e] at a1 a2
  exact ⟨a1, a2⟩

theorem newOut_isSingle {h : SliceHdr} {o0 : XOut} (e : newOut h .single = .ok o0) : ∃ b, o0 = .single h.old b := by
  simp only [newOut] at e
  cases hw : h.write 0 true false with
  | error x => rw [hw] at e; cases e
  | ok p => rw [hw] at e; injection e with e; exact ⟨_, e.symm⟩

/-- a new archive, whatever the destination -/
theorem create_out (goOn : Nat → Bool) (iname dname : Bytes) (old : Bool) (dst : XDst) (hi : LabelOk iname) (hd : LabelOk dname) (hr : Room iname dname old dst) (l : List Bytes)
    (hne : l.flatten ≠ []) : ∃ o0 o files c s chunks, newOut (newHdr iname dname old dst) dst = .ok o0 ∧ o0.writes l = (o, none) ∧ o.close false = files ∧
      Created goOn iname dname old l.flatten files c s chunks ∧ Sized dst files := by
  cases dst with
  | single =>
    cases old with
    | false =>
      obtain ⟨o0, o, files, c, s, ch, e1, e2, e3, e4⟩ := created_single goOn iname dname hi hd l hne
      refine ⟨o0, o, files, c, s, ch, e1, e2, e3, e4, ?_⟩
      rw [← e3]
      cases o with
      | single a b => rfl
      | slices a b =>
        obtain ⟨b', e⟩ := newOut_isSingle e1
        rw [e, writes_single] at e2
        cases e2
    | true =>
      obtain ⟨o0, o, files, c, s, ch, e1, e2, e3, e4⟩ := created_single_old goOn iname dname hi l hne
      refine ⟨o0, o, files, c, s, ch, e1, e2, e3, e4, ?_⟩
      rw [← e3]
      cases o with
      | single a b => rfl
      | slices a b =>
        obtain ⟨b', e⟩ := newOut_isSingle e1
        rw [e, writes_single] at e2
        cases e2
  | slices first other =>
    cases old with
    | false =>
      obtain ⟨c, hc, hroom⟩ := room_recent hi hr
      obtain ⟨hok, hf, ho, _⟩ := newSlices_recent iname dname first other hi hd c hc hroom
      obtain ⟨o, files, s, ch, e1, e2, e3⟩ := created_recent goOn iname dname first other hi hd c hc hroom l
      refine ⟨_, o, files, c, s, ch, by unfold newOut; simp only [hc], e1, e2, e3, ?_⟩
      have := sized_prod hok e3.prod
      rw [hf, ho] at this
      exact this
    | true =>
      obtain ⟨c, hc⟩ := room_old hi hr
      obtain ⟨_, _, _, hlay, _⟩ := newSlices_old iname dname first other c hi hc
      obtain ⟨o, files, c', s, ch, e1, e2, e3, _, _, _, _, e8, e9⟩ := created_old goOn iname dname first other hi c hc l hne
      refine ⟨_, o, files, c', s, ch, by unfold newOut; simp only [hc], e1, e2, e3, ?_⟩
      have := sized_prod e9 e8
      rw [hlay] at this
      exact this

theorem created_read {goOn : Nat → Bool} {iname dname : Bytes} {old : Bool} {d : Bytes} {files : List Bytes} {c : SarCfg} {s : SliceHdr} {chunks : List Bytes}
    (h : Created goOn iname dname old d files c s chunks) : (XSrc.slices files).read goOn = .ok (s, d) := by
  have hs := h.set
  rw [h.asFiles] at hs ⊢
  rw [setOk_read hs h.pieces, h.data]

/-! ### through a pipe -/

theorem pipeCopy_old : ∀ (n : Nat) (d : Bytes), d.length < n → ∃ l, pipeCopy true n d = (l, none) ∧ l.flatten = d := by
  intro n
  induction n with
  | zero => intro d h; omega
  | succ n ih =>
    intro d h
    unfold pipeCopy
    simp only [List.length_take, List.length_drop]
    by_cases h0 : d.length = 0
    · rw [if_pos (by omega)]; exact ⟨[], rfl, by rw [List.length_eq_zero_iff.mp h0]; rfl⟩
    · have hg : genericBuffer = 102400 := rfl
      rw [if_neg (by omega), if_neg (by simp)]
      obtain ⟨l, e1, e2⟩ := ih (d.drop genericBuffer) (by rw [List.length_drop]; omega)
      rw [e1]
      exact ⟨_, rfl, by rw [List.flatten_cons, e2, List.take_append_drop]⟩

theorem pipeCopy_recent : ∀ (n : Nat) (d : Bytes), d.length + 1 < n → ∃ l, pipeCopy false n (d ++ [flagTerminal]) = (l, none) ∧ l.flatten = d := by
  intro n
  induction n with
  | zero => intro d h; omega
  | succ n ih =>
    intro d h
    have hg : genericBuffer = 102400 := rfl
    unfold pipeCopy
    simp only [List.length_take, List.length_drop, List.length_append, List.length_cons, List.length_nil]
    rw [if_neg (by omega)]
    by_cases hr : d.length + 1 ≤ genericBuffer
    · rw [if_pos ⟨by omega, trivial⟩, List.take_of_length_le (by simp; omega), List.drop_eq_nil_of_le (by simp; omega)]
      simp only [List.getLast?_concat, List.dropLast_concat, ne_eq, not_true, if_false]
      by_cases h0 : d.length = 0
      · rw [if_pos h0]; exact ⟨[], rfl, by rw [List.length_eq_zero_iff.mp h0]; rfl⟩
      · rw [if_neg h0]
        cases n with
        | zero => omega
        | succ n =>
          refine ⟨[d], ?_, by simp⟩
          simp [pipeCopy]
    · rw [if_neg (by omega), List.take_append_of_le_length (by omega), List.drop_append_of_le_length (by omega)]
      obtain ⟨l, e1, e2⟩ := ih (d.drop genericBuffer) (by rw [List.length_drop]; omega)
      rw [e1]
      exact ⟨_, rfl, by rw [List.flatten_cons, e2, List.take_append_drop]⟩

theorem pipeCopy_ends : ∀ (n : Nat) (s : Bytes) (l : List Bytes), pipeCopy false n s = (l, none) → s = l.flatten ++ [flagTerminal] ∨ (s = [] ∧ l = []) := by
  intro n
  induction n with
  | zero => intro s l h; cases h
  | succ n ih =>
    intro s l h
    have hg : genericBuffer = 102400 := rfl
    unfold pipeCopy at h
    simp only at h
    by_cases h0 : (s.take genericBuffer).length = 0
    · rw [if_pos h0] at h
      injection h with h1 h2
      rw [List.length_take] at h0
      exact Or.inr ⟨List.length_eq_zero_iff.mp (by omega), h1.symm⟩
    · rw [if_neg h0] at h
      by_cases hr : (s.drop genericBuffer).length = 0
      · have hs : s.take genericBuffer = s := List.take_of_length_le (by rw [List.length_drop] at hr; omega)
        rw [if_pos ⟨hr, trivial⟩, hs] at h
        rw [hs] at h0
        by_cases hl : s.getLast? ≠ some flagTerminal
        · rw [if_pos hl] at h; cases h
        · rw [if_neg hl] at h
          push Not at hl
          have hse : s = s.dropLast ++ [flagTerminal] := by
            obtain ⟨ys, hys⟩ := List.getLast?_eq_some_iff.mp hl
            rw [hys, List.dropLast_concat]
          by_cases hd : s.dropLast.length = 0
          · rw [if_pos hd] at h
            injection h with h1 h2
            rw [← h1]
            rw [List.length_eq_zero_iff.mp hd] at hse
            exact Or.inl hse
          · rw [if_neg hd] at h
            rw [List.length_eq_zero_iff.mp hr] at h
            cases hp : pipeCopy false n [] with
            | mk l' e =>
              rw [hp] at h
              simp only [Prod.mk.injEq] at h
              obtain ⟨h1, h2⟩ := h
              subst h2
              rcases ih [] l' hp with h3 | ⟨_, h3⟩
              · simp at h3
              · subst h3
                left
                rw [← h1]
                simpa using hse
      · rw [if_neg (by intro hc; exact hr hc.1)] at h
        cases hp : pipeCopy false n (s.drop genericBuffer) with
        | mk l' e =>
          rw [hp] at h
          simp only [Prod.mk.injEq] at h
          obtain ⟨h1, h2⟩ := h
          subst h2
          rcases ih _ l' hp with h3 | ⟨h3, _⟩
          · left
            rw [← h1, List.flatten_cons, List.append_assoc, ← h3, List.take_append_drop]
          · rw [h3] at hr; exact absurd rfl hr

/-- an unsliced archive read from a pipe -/
theorem created_pipe (goOn : Nat → Bool) (iname dname : Bytes) (old : Bool) (hi : LabelOk iname) (hd : LabelOk dname) (l : List Bytes) (hne : l.flatten ≠ []) :
    ∃ o0 o f s, newOut (newHdr iname dname old .single) .single = .ok o0 ∧ o0.writes l = (o, none) ∧ o.close false = [f] ∧ (XSrc.pipe f).read goOn = .ok (s, l.flatten) ∧
      s.iname = iname ∧ s.dname = (if old then iname else dname) ∧ s.old = old := by
  cases old with
  | false =>
    obtain ⟨b, e1, e2, e3⟩ := newOut_single iname dname hi hd
    obtain ⟨_, e4⟩ := e3 goOn (l.flatten ++ [flagTerminal]) (by simp)
    obtain ⟨p, e5, e6⟩ := pipeCopy_recent ((l.flatten ++ [flagTerminal]).length + 1) l.flatten (by simp)
    refine ⟨_, _, b ++ (l.flatten ++ [flagTerminal]), ⟨SAUV_MAGIC, iname, dname, flagTerminal, 0, 0, b.length, b.length, false⟩, e1, writes_single _ _ _, by simp [XOut.close], ?_, rfl, rfl, rfl⟩
    unfold XSrc.read
    rw [take_pipe e4, e5]
    simp only [e6]
  | true =>
    have e1 := newOut_single_old iname dname hi
    have hl : (be32 SAUV_MAGIC ++ iname ++ [flagTerminal] ++ [78] ++ l.flatten).length = 16 + l.flatten.length := by
      simp [be32_len, hi.1, LABEL_SIZE]; omega
    obtain ⟨p, e5, e6⟩ := pipeCopy_old (l.flatten.length + 1) l.flatten (by omega)
    have e4 : pipeStart goOn (be32 SAUV_MAGIC ++ iname ++ [flagTerminal] ++ [78] ++ l.flatten) = .ok (⟨SAUV_MAGIC, iname, iname, flagTerminal, 0, 0, 16, 16, true⟩, l.flatten) := by
      unfold pipeStart
      rw [hl, sliceRead_none goOn none (16 + l.flatten.length) iname l.flatten flagTerminal ⟨SAUV_MAGIC, iname, List.replicate LABEL_SIZE 0, flagTerminal, 0, 0, 16, 16, true⟩ hi.1]
      · simp only; rw [if_neg (by decide)]
      · unfold sliceOld; simp [hdr0, sliceMin, LABEL_SIZE]
    refine ⟨_, _, be32 SAUV_MAGIC ++ iname ++ [flagTerminal] ++ [78] ++ l.flatten, ⟨SAUV_MAGIC, iname, iname, flagTerminal, 0, 0, 16, 16, true⟩, e1, writes_single _ _ _, by simp [XOut.close], ?_, rfl, rfl, rfl⟩
    unfold XSrc.read
    rw [take_pipe e4, e5]
    simp only [e6]

end Dar
