import Verif.Props.Headers
/- C24: slice headers of the format used before archive format 8. -/
namespace Dar

private theorem oldStart (goOn : Nat → Bool) (fic : Option Nat) (total : Nat) (iname s : Bytes) (flag ext : UInt8) (hi : iname.length = LABEL_SIZE) :
    sliceRead goOn fic total (be32 SAUV_MAGIC ++ iname ++ [flag] ++ [ext] ++ s) = (do
      let h ← (if ext = 78 then do
            let p ← posOf total
            Reader.lift (sliceOld fic p none (hdr0 iname flag))
          else if ext = 83 then do
            let n ← getInt
            let p ← posOf total
            Reader.lift (sliceOld fic p (some n) (hdr0 iname flag))
          else if ext = 84 then do
            let l ← tlvsRead
            let p ← posOf total
            let h ← Reader.lift (fillFrom goOn (hdr0 iname flag) l)
            Reader.lift (sliceFinish fic p h)
          else Reader.fail .range)
      pure { h with dname := if labelCleared h.dname then h.iname else h.dname } : Reader SliceHdr) s := by
  unfold sliceRead
  simp only [List.append_assoc]
  rw [bind_run, ReadsAs.readExact (be32 SAUV_MAGIC) 4 rfl]
  simp only
  have hm : of32 (be32 SAUV_MAGIC) = SAUV_MAGIC := by decide
  rw [hm, if_neg (by simp), bind_run, ReadsAs.readExact iname _ hi]
  simp only
  rw [bind_run, ReadsAs.readByte flag]
  simp only
  rw [bind_run, ReadsAs.readByte ext]
  rfl

/-- **C24**: the slice header of an archive of the format used before archive format 8.  The first slice tells the size of the other ones when they differ (its
own size is the size `n` of its file, the header of the other slices has the minimum size); otherwise the sizes are those of the file.  This format does not hold
the name of the data: the internal name stands for it. -/
theorem C24_old_slice_header (h h' : SliceHdr) (goOn : Nat → Bool) (n : Nat) (asFirst : Bool) (b rest : Bytes) (hold : h.old = true) (hm : h.magic = SAUV_MAGIC)
    (hi : h.iname.length = LABEL_SIZE) (h0 : h.firstHdr = 0 ∧ h.otherHdr = 0) (hw : h.write 0 asFirst false = .ok (b, h')) (hn : sliceMin < n)
    (ho : sliceMin < h.otherSize) :
    sliceRead goOn (some n) (b.length + rest.length) (b ++ rest) =
      .ok ((if asFirst = true ∧ h.firstSize ≠ h.otherSize then { h with dname := h.iname, firstSize := n, firstHdr := b.length, otherHdr := sliceMin }
        else { h with dname := h.iname, firstSize := n, otherSize := n, firstHdr := sliceMin, otherHdr := sliceMin }), rest) ∧
    h' = { h with firstHdr := b.length, otherHdr := sliceMin } ∧
    ((asFirst = true ∧ h.firstSize ≠ h.otherSize) ∨ b.length = sliceMin) := by
  unfold SliceHdr.write at hw
  cases hb : h.bytes asFirst false with
  | error e => rw [hb] at hw; cases hw
  | ok b0 =>
    rw [hb] at hw
    simp only [Bool.false_eq_true, not_false_eq_true, h0.1, h0.2, and_self, if_true, hold, Nat.zero_add] at hw
    split_ifs at hw with c1 c2 c3
    injection hw with hw; injection hw with e1 e2
    subst e1
    unfold SliceHdr.bytes at hb
    rw [if_neg (by simp)] at hb
    simp only [hold, if_true, hm] at hb
    have hdn : labelCleared (List.replicate LABEL_SIZE 0) = true := by decide
    have h4 : (be32 SAUV_MAGIC).length = 4 := rfl
    by_cases hc : h.firstSize ≠ h.otherSize ∧ asFirst = true
    · rw [if_pos hc] at hb
      injection hb with hb
      refine ⟨?_, (by rw [hold]; exact e2.symm), Or.inl ⟨hc.2, hc.1⟩⟩
      rw [if_pos ⟨hc.2, hc.1⟩]
      have hlen : sliceMin ≤ b0.length := by omega
      rw [← hb, show be32 SAUV_MAGIC ++ h.iname ++ [h.flag] ++ [83] ++ putInt h.otherSize ++ rest =
        be32 SAUV_MAGIC ++ h.iname ++ [h.flag] ++ [83] ++ (putInt h.otherSize ++ rest) by simp, oldStart _ _ _ _ _ _ _ hi]
      rw [if_neg (by decide), if_pos rfl, bind_run, bind_run, getInt_putInt]
      simp only
      rw [hb, bind_run, show posOf (b0.length + rest.length) rest = .ok (b0.length, rest) by simp [posOf]]
      simp only [Reader.lift, sliceOld]
      rw [if_neg (by omega), if_neg (by omega), if_neg (by omega)]
      simp only [hdr0, hdn, if_true]
      obtain ⟨m, i, d, f, fs, os, fh, oh, old⟩ := h
      simp only at hm hold
      subst hm hold
      rfl
    · rw [if_neg hc] at hb
      injection hb with hb
      have hl : b0.length = sliceMin := by
        rw [← hb]; simp only [List.length_append, h4, hi, List.length_cons, List.length_nil, sliceMin]
      refine ⟨?_, (by rw [hold]; exact e2.symm), Or.inr hl⟩
      rw [if_neg (fun c => hc ⟨c.2, c.1⟩)]
      rw [← hb, oldStart _ _ _ _ _ _ _ hi]
      rw [if_pos rfl, bind_run, bind_run]
      simp only [posOf, Reader.lift, sliceOld]
      rw [if_neg (by omega)]
      simp only [hdr0, hdn, if_true]
      obtain ⟨m, i, d, f, fs, os, fh, oh, old⟩ := h
      simp only at hm hold
      subst hm hold
      rfl

/-- a first slice of 100 bytes, the other ones of 50 bytes -/
example : ∃ b h', (⟨123, [1, 2, 3, 4, 5, 6, 7, 8, 9, 10], [1, 2, 3, 4, 5, 6, 7, 8, 9, 10], 84, 100, 50, 0, 0, true⟩ : SliceHdr).write 0 true false = .ok (b, h') ∧
    h'.firstHdr = 21 ∧ h'.otherHdr = 16 := ⟨_, _, rfl, by decide +kernel, by decide +kernel⟩

end Dar
