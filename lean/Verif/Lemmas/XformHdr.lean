import Verif.Model.Xform
import Verif.Props.Headers
import Verif.Props.Slices
namespace Dar

/-- names that the program can draw: ten bytes, not all null -/
def LabelOk (l : Bytes) : Prop := l.length = LABEL_SIZE ∧ labelCleared l = false

/-- the header and the flag of each slice, as the reader finds them -/
structure SetOk (goOn : Nat → Bool) (c : SarCfg) (files : List Bytes) (s : SliceHdr) : Prop where
  lay : s.lay = c.lay
  ok : c.Ok
  each : ∀ (i : Nat) f, files[i]? = some f → ∃ h, openHdr goOn f = .ok (h, c.hlen (i + 1)) ∧ h.iname = s.iname ∧ (i = 0 → h = s) ∧
    ∀ fl, sarFlagOf c f = some fl → (fl = flagTerminal ∨ fl = flagNonTerminal) → openFlag h f = .ok fl

/-! ### the bytes of a header, recent format -/

theorem bytes_recent (h : SliceHdr) (ho : h.old = false) (hm : h.magic = SAUV_MAGIC) : ∃ t, t ≠ [] ∧ ∀ (fl : UInt8) (a : Bool) (x y : Nat),
    ({ h with flag := fl, firstHdr := x, otherHdr := y } : SliceHdr).bytes a false = .ok (be32 SAUV_MAGIC ++ h.iname ++ [fl] ++ t) := by
  obtain ⟨l, hl⟩ : ∃ l, h.tlvs false = .ok l := by unfold SliceHdr.tlvs; simp
  refine ⟨[84] ++ tlvsDump l, by simp, ?_⟩
  intro fl a x y
  have ht : ({ h with flag := fl, firstHdr := x, otherHdr := y } : SliceHdr).tlvs false = .ok l := by
    rw [← hl]; unfold SliceHdr.tlvs; simp
  unfold SliceHdr.bytes
  rw [if_neg (by simp)]
  dsimp only
  rw [if_neg (by rw [ho]; simp), ht]
  simp only [hm, List.append_assoc]

theorem out_recent (h : SliceHdr) (ho : h.old = false) (hm : h.magic = SAUV_MAGIC) (hi : h.iname.length = LABEL_SIZE) : ∃ n, sliceMin ≤ n ∧ ∀ (a : Bool) (fl : UInt8) (x y : Nat),
    (({ h with firstHdr := x, otherHdr := y } : SliceHdr).out a fl).length = n ∧ h.bytes a false = .ok (({ h with firstHdr := x, otherHdr := y } : SliceHdr).out true h.flag) ∧
    ({ h with firstHdr := x, otherHdr := y } : SliceHdr).out a fl = ({ h with firstHdr := x, otherHdr := y } : SliceHdr).out true fl := by
  obtain ⟨t, ht0, ht⟩ := bytes_recent h ho hm
  refine ⟨15 + t.length, ?_, ?_⟩
  · have := List.length_pos_iff.mpr ht0
    simp [sliceMin, LABEL_SIZE]; omega
  · intro a fl x y
    have e : ∀ a fl, ({ h with firstHdr := x, otherHdr := y } : SliceHdr).out a fl = be32 SAUV_MAGIC ++ h.iname ++ [fl] ++ t := by
      intro a fl
      unfold SliceHdr.out
      have := ht fl a x y
      simp only at this ⊢
      rw [this]
    refine ⟨?_, ?_, ?_⟩
    · rw [e]; simp [be32_len, hi, LABEL_SIZE]; omega
    · rw [e]; exact ht h.flag a h.firstHdr h.otherHdr
    · rw [e, e]

/-- The configuration of a new sliced archive, recent format. -/
theorem newSlices_recent (iname dname : Bytes) (first other : Nat) (hi : LabelOk iname) (hd : LabelOk dname) (c : SarCfg)
    (h : newSlices (newHdr iname dname false (.slices first other)) = .ok c) (hroom : c.lay.otherHdr + 1 < other) :
    c.Ok ∧ c.lay.firstSize = first ∧ c.lay.otherSize = other ∧ c.lay.old = false ∧ c.lay.firstHdr = c.lay.otherHdr ∧
    ∀ (goOn : Nat → Bool) (num : Nat) (p : Bytes) (t : Bool), ∃ s : SliceHdr, s.lay = c.lay ∧ s.iname = iname ∧ s.dname = dname ∧ s.flag = flagAtEnd ∧ s.magic = SAUV_MAGIC ∧
      openHdr goOn (sarFile c num p t) = .ok (s, c.hlen num) := by
  unfold newSlices at h
  split_ifs at h with h1 h2
  have hsz : 17 ≤ other ∧ 17 ≤ first := by
    simp only [newHdr, sliceMin, LABEL_SIZE] at h1 h2; omega
  generalize hh : newHdr iname dname false (.slices first other) = g at h
  have hg : g = ⟨SAUV_MAGIC, iname, dname, flagAtEnd, first, other, 0, 0, false⟩ := by rw [← hh]; rfl
  cases hw : g.write 0 true false with
  | error e => rw [hw] at h; cases h
  | ok bh =>
    obtain ⟨b, g1⟩ := bh
    rw [hw] at h
    simp only [Except.ok.injEq] at h
    have hf : g.Fresh := by rw [hg]; exact ⟨rfl, rfl, hi.1, hd.1, hd.2⟩
    obtain ⟨n, hn, hout⟩ := out_recent g hf.new hf.mag hf.inm
    have hg1 := (C24_slice_header g g1 (fun _ => true) none true b [] hf (by rw [hg]; exact ⟨rfl, rfl⟩) hw (Or.inl rfl)).2
    have hb : g.bytes true false = .ok b := (slice_write_inv g g1 0 true b hf.new hw).1
    have hbn : b.length = n := by
      have h3 := hout true g.flag 0 0
      have : b = ({ g with firstHdr := 0, otherHdr := 0 } : SliceHdr).out true g.flag := by
        have := h3.2.1; rw [hb] at this; injection this
      rw [this]; exact h3.1
    have hE : ∀ a, g1.out a flagAtEnd = b := by
      intro a
      have h3 := hout a flagAtEnd b.length b.length
      rw [hg1, h3.2.2]
      have h4 := (hout true g.flag b.length b.length).2.1
      rw [hb, show g.flag = flagAtEnd by rw [hg]] at h4
      injection h4 with h4
      exact h4.symm
    have hfits : b.length < first ∧ b.length < other := by
      unfold SliceHdr.write at hw
      rw [hb] at hw
      simp only [Bool.false_eq_true, not_false_eq_true, true_and, hg, and_self, if_true, if_false, Nat.zero_add] at hw
      split_ifs at hw with c1 c2 c3
      omega
    have hc : c.lay = ⟨first, other, b.length, b.length, false⟩ ∧ c.hdr1 = g1.out true ∧ c.hdrN = g1.out false := by
      rw [← h]; refine ⟨?_, rfl, rfl⟩
      rw [hg1, hg]; rfl
    have hlen : ∀ a f, (g1.out a f).length = b.length := by
      intro a f; rw [hg1, hbn]; exact (hout a f b.length b.length).1
    have hmin : 16 ≤ b.length := by rw [hbn]; exact hn
    rw [hc.1] at hroom
    have hok : c.Ok := by
      refine ⟨?_, ?_, ?_, ?_, ?_, ?_, ?_, ?_⟩
      · intro f; rw [hc.2.1, hc.1]; exact hlen true f
      · intro f; rw [hc.2.2, hc.1]; exact hlen false f
      · rw [hc.1]; simp only; omega
      · rw [hc.1]; simp only; omega
      · unfold SarCfg.delta; rw [hc.1]; simp; omega
      · unfold SarCfg.delta; rw [hc.1]; simp at hroom ⊢; omega
      · rw [hc.1]; intro hx; cases hx
      · rw [hc.1]; intro hx; cases hx
    refine ⟨hok, by rw [hc.1], by rw [hc.1], by rw [hc.1], by rw [hc.1], ?_⟩
    intro goOn num p t
    refine ⟨{ g with firstHdr := b.length, otherHdr := b.length }, by rw [hc.1, hg]; rfl, by rw [hg], by rw [hg], by rw [hg], by rw [hg], ?_⟩
    have hfile : sarFile c num p t = b ++ (p ++ [if t then flagTerminal else flagNonTerminal]) := by
      unfold sarFile
      rw [hc.1]
      have : c.hdr num flagAtEnd = b := by unfold SarCfg.hdr; split <;> [rw [hc.2.1]; rw [hc.2.2]] <;> exact hE _
      simp [this]
    have hr := (C24_slice_header g g1 goOn (some (b.length + (p ++ [if t then flagTerminal else flagNonTerminal]).length)) true b
      (p ++ [if t then flagTerminal else flagNonTerminal]) hf (by rw [hg]; exact ⟨rfl, rfl⟩) hw (Or.inr ⟨rfl, by simp⟩)).1
    have hno : g.otherSize ≠ 0 ∧ g.firstSize ≠ 0 := by rw [hg]; simp only; omega
    rw [if_neg hno.1, if_neg hno.2] at hr
    unfold openHdr
    rw [hfile, List.length_append, hr]
    simp only [Except.ok.injEq, Prod.mk.injEq]
    refine ⟨trivial, ?_⟩
    unfold SarCfg.hlen
    rw [hc.1]
    simp

end Dar
