import Verif.Lemmas.XformHdr
namespace Dar

/-! ### unsliced archives, recent format -/

theorem newOut_single (iname dname : Bytes) (hi : LabelOk iname) (hd : LabelOk dname) : ∃ b, newOut (newHdr iname dname false .single) .single = .ok (.single false b) ∧ 16 ≤ b.length ∧
    ∀ (goOn : Nat → Bool) (rest : Bytes), rest ≠ [] →
      openHdr goOn (b ++ rest) = .ok (⟨SAUV_MAGIC, iname, dname, flagTerminal, b.length + rest.length, b.length + rest.length, b.length, b.length, false⟩, b.length) ∧
      pipeStart goOn (b ++ rest) = .ok (⟨SAUV_MAGIC, iname, dname, flagTerminal, 0, 0, b.length, b.length, false⟩, rest) := by
  generalize hh : newHdr iname dname false .single = g
  have hg : g = ⟨SAUV_MAGIC, iname, dname, flagTerminal, 0, 0, 0, 0, false⟩ := by rw [← hh]; rfl
  have hf : g.Fresh := by rw [hg]; exact ⟨rfl, rfl, hi.1, hd.1, hd.2⟩
  obtain ⟨n, hn, hout⟩ := out_recent g hf.new hf.mag hf.inm
  have hb := (hout true g.flag 0 0).2.1
  have hbl := (hout true g.flag 0 0).1
  generalize ({ g with firstHdr := 0, otherHdr := 0 } : SliceHdr).out true g.flag = b at hb hbl
  have hw : g.write 0 true false = .ok (b, { g with firstHdr := b.length, otherHdr := b.length }) := by
    unfold SliceHdr.write
    rw [hb]
    simp only [Bool.false_eq_true, not_false_eq_true, true_and, hg, and_self, if_true, if_false, Nat.zero_add]
    rw [if_neg (by omega), if_neg (by simp), if_neg (by simp)]
  refine ⟨b, by unfold newOut; rw [hw]; simp [hg], by rw [hbl]; exact hn, ?_⟩
  intro goOn rest hr
  have h0 : g.firstHdr = 0 ∧ g.otherHdr = 0 := by rw [hg]; exact ⟨rfl, rfl⟩
  have r1 := (C24_slice_header g _ goOn (some (b.length + rest.length)) true b rest hf h0 hw (Or.inr ⟨rfl, hr⟩)).1
  have r2 := (C24_slice_header g _ goOn none true b rest hf h0 hw (Or.inl rfl)).1
  rw [if_pos (show g.otherSize = 0 by rw [hg]), if_pos (show g.firstSize = 0 by rw [hg])] at r1 r2
  constructor
  · unfold openHdr
    rw [List.length_append, r1]
    simp [hg]
  · unfold pipeStart
    rw [List.length_append, r2]
    simp only [hg, Option.getD_none]
    rw [if_neg (by decide)]

/-! ### format "07" -/

theorem bytes_old (h : SliceHdr) (ho : h.old = true) (hm : h.magic = SAUV_MAGIC) (a : Bool) :
    h.bytes a false = .ok (be32 SAUV_MAGIC ++ h.iname ++ [h.flag] ++ (if h.firstSize ≠ h.otherSize ∧ a = true then [83] ++ putInt h.otherSize else [78])) := by
  unfold SliceHdr.bytes
  rw [if_neg (by simp)]
  dsimp only
  rw [if_pos ho, hm]
  split_ifs <;> simp [List.append_assoc]

theorem out_old (h : SliceHdr) (ho : h.old = true) (hm : h.magic = SAUV_MAGIC) (a : Bool) (fl : UInt8) :
    h.out a fl = be32 SAUV_MAGIC ++ h.iname ++ [fl] ++ (if h.firstSize ≠ h.otherSize ∧ a = true then [83] ++ putInt h.otherSize else [78]) := by
  unfold SliceHdr.out
  rw [bytes_old { h with flag := fl } ho hm a]

theorem cleared_zeros : labelCleared (List.replicate LABEL_SIZE 0) = true := by decide

theorem sliceOld_dname {fic : Option Nat} {pos : Nat} {sz : Option Nat} {h h2 : SliceHdr} (hs : sliceOld fic pos sz h = .ok h2) : h2.dname = h.dname ∧ h2.iname = h.iname ∧ h2.flag = h.flag := by
  unfold sliceOld at hs
  split at hs
  · split_ifs at hs; injection hs with hs; subst hs; exact ⟨rfl, rfl, rfl⟩
  · injection hs with hs; subst hs; exact ⟨rfl, rfl, rfl⟩
  · split_ifs at hs; injection hs with hs; subst hs; exact ⟨rfl, rfl, rfl⟩
  · cases hs

theorem sliceRead_none (goOn : Nat → Bool) (fic : Option Nat) (total : Nat) (iname rest : Bytes) (flag : UInt8) (h2 : SliceHdr)
    (hi : iname.length = LABEL_SIZE) (hs : sliceOld fic (total - rest.length) none (hdr0 iname flag) = .ok h2) :
    sliceRead goOn fic total (be32 SAUV_MAGIC ++ iname ++ [flag] ++ [78] ++ rest) = .ok ({ h2 with dname := iname }, rest) := by
  have hd := sliceOld_dname hs
  unfold sliceRead
  simp only [List.append_assoc]
  rw [bind_run, ReadsAs.readExact (be32 SAUV_MAGIC) 4 rfl]
  simp only
  have hm : of32 (be32 SAUV_MAGIC) = SAUV_MAGIC := by decide
  rw [hm, if_neg (by simp), bind_run, ReadsAs.readExact iname _ hi]
  simp only
  rw [bind_run, ReadsAs.readByte flag]
  simp only
  rw [bind_run, ReadsAs.readByte 78]
  simp only
  rw [if_pos trivial]
  rw [bind_run, bind_run, show posOf total rest = .ok (total - rest.length, rest) from rfl]
  simp only
  unfold hdr0 at hs
  simp only [Reader.lift, hs]
  rw [hd.1, hd.2.1]
  simp only [hdr0, cleared_zeros, if_true]
  rfl

theorem sliceRead_size (goOn : Nat → Bool) (fic : Option Nat) (total : Nat) (iname rest : Bytes) (flag : UInt8) (o : Nat) (h2 : SliceHdr)
    (hi : iname.length = LABEL_SIZE) (hs : sliceOld fic (total - rest.length) (some o) (hdr0 iname flag) = .ok h2) :
    sliceRead goOn fic total (be32 SAUV_MAGIC ++ iname ++ [flag] ++ ([83] ++ putInt o) ++ rest) = .ok ({ h2 with dname := iname }, rest) := by
  have hd := sliceOld_dname hs
  unfold sliceRead
  simp only [List.append_assoc]
  rw [bind_run, ReadsAs.readExact (be32 SAUV_MAGIC) 4 rfl]
  simp only
  have hm : of32 (be32 SAUV_MAGIC) = SAUV_MAGIC := by decide
  rw [hm, if_neg (by simp), bind_run, ReadsAs.readExact iname _ hi]
  simp only
  rw [bind_run, ReadsAs.readByte flag]
  simp only
  rw [bind_run, ReadsAs.readByte 83]
  simp only
  rw [if_neg (by decide), if_pos trivial]
  rw [bind_run, bind_run, getInt_putInt]
  simp only
  rw [bind_run, show posOf total rest = .ok (total - rest.length, rest) from rfl]
  simp only
  unfold hdr0 at hs
  simp only [Reader.lift, hs]
  rw [hd.1, hd.2.1]
  simp only [hdr0, cleared_zeros, if_true]
  rfl

/-- the header of a slice of a "07" archive, without the size of slices -/
theorem openHdr_none (goOn : Nat → Bool) (iname rest : Bytes) (flag : UInt8) (hi : iname.length = LABEL_SIZE) (hr : rest ≠ []) :
    openHdr goOn (be32 SAUV_MAGIC ++ iname ++ [flag] ++ [78] ++ rest) = .ok (⟨SAUV_MAGIC, iname, iname, flag, 16 + rest.length, 16 + rest.length, 16, 16, true⟩, 16) := by
  have hl : (be32 SAUV_MAGIC ++ iname ++ [flag] ++ [78] ++ rest).length = 16 + rest.length := by
    simp [be32_len, hi, LABEL_SIZE]; omega
  have hr' := List.length_pos_iff.mpr hr
  unfold openHdr
  rw [hl, sliceRead_none goOn (some (16 + rest.length)) (16 + rest.length) iname rest flag
    ⟨SAUV_MAGIC, iname, List.replicate LABEL_SIZE 0, flag, 16 + rest.length, 16 + rest.length, 16, 16, true⟩ hi]
  · simp
  · unfold sliceOld hdr0
    have hm : sliceMin = 16 := rfl
    dsimp only
    rw [if_neg (by rw [hm]; omega)]
    rfl

theorem openHdr_size (goOn : Nat → Bool) (iname rest : Bytes) (flag : UInt8) (o : Nat) (hi : iname.length = LABEL_SIZE) (ho : 16 < o) :
    openHdr goOn (be32 SAUV_MAGIC ++ iname ++ [flag] ++ ([83] ++ putInt o) ++ rest) =
      .ok (⟨SAUV_MAGIC, iname, iname, flag, 16 + (putInt o).length + rest.length, o, 16 + (putInt o).length, 16, true⟩, 16 + (putInt o).length) := by
  have hl : (be32 SAUV_MAGIC ++ iname ++ [flag] ++ ([83] ++ putInt o) ++ rest).length = 16 + (putInt o).length + rest.length := by
    simp [be32_len, hi, LABEL_SIZE]; omega
  have hp := List.length_pos_iff.mpr (putInt_ne_nil o)
  unfold openHdr
  rw [hl, sliceRead_size goOn (some (16 + (putInt o).length + rest.length)) (16 + (putInt o).length + rest.length) iname rest flag o
    ⟨SAUV_MAGIC, iname, List.replicate LABEL_SIZE 0, flag, 16 + (putInt o).length + rest.length, o, 16 + (putInt o).length, 16, true⟩ hi]
  · simp
  · unfold sliceOld hdr0
    have hm : sliceMin = 16 := rfl
    dsimp only
    rw [if_neg (by rw [hm]; omega), if_neg (by rw [hm]; omega), if_neg (by rw [hm]; omega), Nat.add_sub_cancel]
    rfl

end Dar
