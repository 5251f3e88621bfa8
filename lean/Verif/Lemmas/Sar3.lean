import Verif.Lemmas.Sar2
namespace Dar

theorem cap_ge2 (c : SarCfg) (k : Nat) (h : k ≠ 1) : c.cap k = c.cap 2 ∧ c.hlen k = c.lay.otherHdr ∧ c.size k = c.lay.otherSize := by
  unfold SarCfg.cap SarCfg.size SarCfg.hlen; simp [h]

theorem cap_one (c : SarCfg) : c.hlen 1 = c.lay.firstHdr ∧ c.size 1 = c.lay.firstSize := by
  unfold SarCfg.size SarCfg.hlen; simp

/-- start of the payload of slice `k` in the archive -/
def sliceStart (c : SarCfg) (k : Nat) : Nat := if k ≤ 1 then 0 else c.cap 1 + (k - 2) * c.cap 2

theorem sliceStart_succ (c : SarCfg) (k : Nat) (h : 1 ≤ k) : sliceStart c (k + 1) = sliceStart c k + c.cap k := by
  unfold sliceStart
  rw [if_neg (by omega)]
  by_cases h1 : k = 1
  · subst h1; simp
  · rw [if_neg (by omega), (cap_ge2 c k h1).1]
    obtain ⟨m, rfl⟩ : ∃ m, k = m + 2 := ⟨k - 2, by omega⟩
    rw [show m + 2 + 1 - 2 = m + 1 by omega, show m + 2 - 2 = m by omega]; ring

theorem sliceStart_mono (c : SarCfg) {k m : Nat} (h1 : 1 ≤ k) (h : k ≤ m) : sliceStart c k ≤ sliceStart c m := by
  induction m with
  | zero => omega
  | succ m ih =>
    by_cases he : k = m + 1
    · rw [he]
    · have := ih (by omega)
      rw [sliceStart_succ c m (by omega)]; omega

theorem filled_start {c : SarCfg} {pre : List Bytes} (h : Filled c 1 pre) : pre.flatten.length = sliceStart c (pre.length + 1) := by
  by_cases he : pre = []
  · subst he; simp [sliceStart]
  · rw [Filled_flatten_len c pre h he]
    have := List.length_pos_iff.mpr he
    unfold sliceStart
    rw [if_neg (by omega)]; congr 2

theorem which_spec {c : SarCfg} (h : c.Ok) (k j : Nat) (hk : 1 ≤ k) (hj : j < c.cap k) :
    c.lay.which (sliceStart c k + j) = .ok (k, c.hlen k + j) := by
  have f1 := h.fit1; have fN := h.fitN; have p1 := h.pos1; have pN := h.posN
  have hd : (if c.lay.old = true then 0 else 1) = c.delta := rfl
  have hc1 : c.cap 1 = c.lay.firstSize - c.lay.firstHdr - c.delta := by
    unfold SarCfg.cap; rw [(cap_one c).1, (cap_one c).2]
  have hc2 : c.cap 2 = c.lay.otherSize - c.lay.otherHdr - c.delta := by
    unfold SarCfg.cap; rw [(cap_ge2 c 2 (by omega)).2.1, (cap_ge2 c 2 (by omega)).2.2]
  unfold SliceLayout.which
  rw [if_neg (by omega), if_neg (by omega), if_neg (by omega), if_neg (by omega), if_neg (by omega)]
  simp only [isub]
  rw [hd, if_pos (by omega), if_pos (by omega)]
  simp only [Bind.bind, Except.bind]
  rw [← hc1, ← hc2]
  by_cases h1 : k = 1
  · subst h1
    rw [if_pos (by unfold sliceStart; simp; exact hj), (cap_one c).1]
    unfold sliceStart; simp; omega
  · have hk2 := cap_ge2 c k h1
    rw [hk2.1] at hj
    have hs : sliceStart c k = c.cap 1 + (k - 2) * c.cap 2 := by unfold sliceStart; rw [if_neg (by omega)]
    rw [if_neg (by omega), if_neg (by omega), hs, hk2.2.1]
    have e : c.cap 1 + (k - 2) * c.cap 2 + j - c.cap 1 = j + (k - 2) * c.cap 2 := by omega
    rw [e, Nat.add_mul_div_right _ _ (by omega), Nat.add_mul_mod_self_right, Nat.div_eq_of_lt hj, Nat.mod_eq_of_lt hj]
    congr 2 <;> omega

theorem sarPos_spec {c : SarCfg} (h : c.Ok) {chunks pre post : List Bytes} {ck : Bytes} {r : SarR} {p j : Nat}
    (hp : Pieces c chunks) (hr : RRep c chunks r p pre ck post j) : sarPos c r = p ∧ p = sliceStart c r.num + j := by
  have hs := filled_start (hp.at hr.split).1
  have hpn : p = sliceStart c r.num + j := by rw [hr.num, ← hs]; exact hr.pos
  refine ⟨?_, hpn⟩
  unfold sarPos
  by_cases h1 : r.num > 1
  · have hk := cap_ge2 c r.num (by omega)
    have hoff := hr.off
    rw [← hr.num, hk.2.1] at hoff
    have hss : sliceStart c r.num = c.cap 1 + (r.num - 2) * c.cap 2 := by unfold sliceStart; rw [if_neg (by omega)]
    have e1 : c.cap 1 = c.lay.firstSize - c.lay.firstHdr - c.delta := by
      unfold SarCfg.cap; rw [(cap_one c).1, (cap_one c).2]
    have e2 : c.cap 2 = c.lay.otherSize - c.lay.otherHdr - c.delta := by
      unfold SarCfg.cap; rw [(cap_ge2 c 2 (by omega)).2.1, (cap_ge2 c 2 (by omega)).2.2]
    rw [if_pos h1, ← e1, ← e2, hpn, hss, hoff]; omega
  · have : r.num = 1 := by have := hr.num; omega
    have hoff := hr.off
    rw [← hr.num, this, (cap_one c).1] at hoff
    rw [if_neg h1, hpn, this, hoff]; unfold sliceStart; simp

/-- every archive position lies in a slice -/
theorem pos_decomp (chunks : List Bytes) (p : Nat) (h : p < chunks.flatten.length) :
    ∃ pre ck post j, chunks = pre ++ ck :: post ∧ j < ck.length ∧ p = pre.flatten.length + j := by
  induction chunks generalizing p with
  | nil => simp at h
  | cons x l ih =>
    by_cases hx : p < x.length
    · exact ⟨[], x, l, p, rfl, hx, by simp⟩
    · obtain ⟨pre, ck, post, j, e, hj, hp⟩ := ih (p - x.length) (by simp at h ⊢; omega)
      exact ⟨x :: pre, ck, post, j, by rw [e]; rfl, hj, by simp; simp at hp; omega⟩

/-- Opening slice `pre.length+1` and setting its offset. -/
theorem sarGoto {c : SarCfg} (h : c.Ok) {chunks pre post pre' post' : List Bytes} {ck ck' : Bytes} {r : SarR} {p j' j : Nat}
    (hr : RRep c chunks r p pre' ck' post' j') (he : chunks = pre ++ ck :: post) (hj : j ≤ ck.length) :
    ∃ r1, sarOpenR c (sarFilesFrom c 1 chunks) r (pre.length + 1) = .ok r1 ∧
      RRep c chunks { r1 with fd := c.hlen (pre.length + 1) + j, off := c.hlen (pre.length + 1) + j }
        (pre.flatten.length + j) pre ck post j := by
  by_cases hn : r.num = pre.length + 1
  · have hs := hr.split
    have hl : pre'.length = pre.length := by have := hr.num; omega
    rw [he] at hs
    obtain ⟨e1, e2⟩ := List.append_inj hs hl.symm
    injection e2 with e2 e3
    subst e1; subst e2; subst e3
    refine ⟨r, by unfold sarOpenR; rw [if_pos hn], ?_⟩
    exact ⟨he, hn, rfl, hj, rfl, Or.inl rfl, hr.flag, hr.last, hr.lastT⟩
  · obtain ⟨r1, e1, rep⟩ := sarOpenR_spec h chunks pre post ck r he hr.last hn
    exact ⟨r1, e1, ⟨he, rep.num, rfl, hj, rfl, Or.inl rfl, rep.flag, rep.last, rep.lastT⟩⟩

theorem sarSkip_spec {c : SarCfg} (h : c.Ok) {chunks pre post : List Bytes} {ck : Bytes} {r : SarR} {p j : Nat}
    (hp : Pieces c chunks) (hr : RRep c chunks r p pre ck post j) (pos : Nat) (hpos : pos < chunks.flatten.length) :
    ∃ r' pre' ck' post' j', sarSkip c (sarFilesFrom c 1 chunks) r pos = .ok (true, r') ∧
      RRep c chunks r' pos pre' ck' post' j' := by
  unfold sarSkip
  by_cases hs : sarPos c r = pos
  · rw [if_pos hs]
    have := (sarPos_spec h hp hr).1
    exact ⟨r, pre, ck, post, j, rfl, by rw [← hs, this]; exact hr⟩
  · rw [if_neg hs]
    obtain ⟨pre', ck', post', j', e, hj, hpe⟩ := pos_decomp chunks pos hpos
    have hat := hp.at e
    have hstart := filled_start hat.1
    have hw : c.lay.which pos = .ok (pre'.length + 1, c.hlen (pre'.length + 1) + j') := by
      rw [hpe, hstart]; exact which_spec h _ _ (by omega) (by omega)
    rw [hw]
    simp only [Bind.bind, Except.bind]
    have hb : r.beyond (pre'.length + 1) = false := by
      unfold SarR.beyond
      rcases hr.last with el | el
      · rw [el]
      · rw [el]; simp; rw [e]; simp
    rw [hb]
    simp only [Bool.false_eq_true, if_false]
    obtain ⟨r1, e1, rep⟩ := sarGoto h hr e (le_of_lt hj)
    rw [e1]
    exact ⟨_, pre', ck', post', j', rfl, by rw [hpe]; exact rep⟩

theorem sarSkipEof_spec {c : SarCfg} (h : c.Ok) {chunks pre post : List Bytes} {ck : Bytes} {r : SarR} {p j : Nat}
    (hp : Pieces c chunks) (hr : RRep c chunks r p pre ck post j) :
    ∃ r' pre' ck' j', sarSkipEof c (sarFilesFrom c 1 chunks) r = .ok r' ∧
      RRep c chunks r' chunks.flatten.length pre' ck' [] j' := by
  obtain ⟨ps, q, e, _⟩ := hp
  have hlen : chunks.length = ps.length + 1 := by rw [e]; simp
  unfold sarSkipEof
  have hn : r.last.getD (sarFilesFrom c 1 chunks).length = ps.length + 1 := by
    rw [sarFilesFrom_length]
    rcases hr.last with el | el <;> rw [el] <;> simp [hlen]
  rw [hn]
  obtain ⟨r1, e1, rep⟩ := sarGoto h hr (show chunks = ps ++ q :: [] from e) (le_refl q.length)
  rw [e1]
  simp only [Bind.bind, Except.bind]
  have hfl : r1.flag = flagTerminal := by have := rep.flag; simpa using this
  rw [if_neg (by simp [hfl])]
  have hnum : r1.num = ps.length + 1 := rep.num
  have hf : ((sarFilesFrom c 1 chunks).getD (r1.num - 1) []).length - c.delta = c.hlen (ps.length + 1) + q.length := by
    have hg := sarFilesFrom_get c 1 ps q []
    rw [← e, Nat.add_comm] at hg
    rw [hnum, Nat.add_sub_cancel, List.getD_eq_getElem?_getD, hg]
    simp only [Option.getD_some]
    rw [sarFile_length h]; omega
  rw [hf]
  have ht : chunks.flatten.length = ps.flatten.length + q.length := by rw [e]; simp
  rw [ht]
  exact ⟨_, ps, q, q.length, rfl, rep⟩

theorem sarFwdLoop_spec {c : SarCfg} (h : c.Ok) (last : Option Nat) (k j : Nat) (hj : j < c.cap k)
    (hlast : last = none ∨ k ≤ last.getD 0) (fuel number offset : Nat) (h1 : 1 ≤ number) (hnk : number ≤ k)
    (ho : c.hlen number ≤ offset)
    (hpos : sliceStart c number + (offset - c.hlen number) = sliceStart c k + j) (hf : k - number ≤ fuel) :
    sarFwdLoop c last fuel number offset = (k, c.hlen k + j) := by
  induction fuel generalizing number offset with
  | zero =>
    have : number = k := by omega
    subst this
    unfold sarFwdLoop
    congr 1; omega
  | succ fuel ih =>
    unfold sarFwdLoop
    by_cases hk : number = k
    · subst hk
      have := h.cap_add number
      rw [if_neg (by omega)]
      congr 1; omega
    · have hm := sliceStart_mono c (show 1 ≤ number + 1 by omega) (show number + 1 ≤ k by omega)
      rw [sliceStart_succ c number h1] at hm
      have hca := h.cap_add number
      rw [if_pos ⟨by omega, by rcases hlast with e | e <;> [left; right] <;> [exact e; omega]⟩]
      have hN := (cap_ge2 c (number + 1) (by omega)).2.1
      refine ih (number + 1) _ (by omega) (by omega) (by rw [hN]; omega) ?_ (by omega)
      rw [sliceStart_succ c number h1, hN]; omega

theorem sarBackLoop_spec {c : SarCfg} (h : c.Ok) (k j : Nat) (hj : j < c.cap k) (hk1 : 1 ≤ k)
    (number offset neg : Nat) (hnk : k ≤ number)
    (ho : c.hlen number ≤ offset)
    (hpos : sliceStart c number + (offset - c.hlen number) = sliceStart c k + j + neg) :
    ∃ o n, sarBackLoop c number offset neg = (k, o, n) ∧ n + c.hlen k ≤ o ∧ o - n = c.hlen k + j := by
  induction number generalizing offset neg with
  | zero => omega
  | succ number ih =>
    unfold sarBackLoop
    by_cases hk : number + 1 = k
    · subst hk
      rw [if_neg]
      · exact ⟨offset, neg, rfl, by omega, by omega⟩
      · rintro ⟨h1, h2⟩
        rw [(cap_ge2 c (number + 1) (by omega)).2.1] at hpos ho
        omega
    · have hN := (cap_ge2 c (number + 1) (by omega)).2.1
      have hm := sliceStart_mono c hk1 (show k ≤ number by omega)
      have hs := sliceStart_succ c number (by omega)
      have hkn : k < number ∨ k = number := by omega
      have hcapn : 0 < c.cap number := by
        rcases hkn with h' | h'
        · exact h.capN _ (by omega)
        · rw [← h']; omega
      have hsk : sliceStart c k + j < sliceStart c (number + 1) := by
        have := sliceStart_mono c (show 1 ≤ k + 1 by omega) (show k + 1 ≤ number + 1 by omega)
        rw [sliceStart_succ c k hk1] at this; omega
      rw [hN] at hpos ho
      rw [if_pos ⟨by omega, by omega⟩]
      have hca := h.cap_add number
      refine ih _ _ (by omega) (by omega) ?_
      omega

/-- relative seeks -/
theorem sarSkipRel_spec {c : SarCfg} (h : c.Ok) {chunks pre post : List Bytes} {ck : Bytes} {r : SarR} {p j : Nat}
    (hp : Pieces c chunks) (hr : RRep c chunks r p pre ck post j) (x : Int) (h0 : 0 ≤ (p : Int) + x)
    (hx : (p : Int) + x < chunks.flatten.length) :
    ∃ r' pre' ck' post' j', sarSkipRel c (sarFilesFrom c 1 chunks) chunks.length r x = .ok (true, r') ∧
      RRep c chunks r' ((p : Int) + x).toNat pre' ck' post' j' := by
  have hps := (sarPos_spec h hp hr).2
  have hoff : r.off = c.hlen r.num + j := by rw [hr.num]; exact hr.off
  obtain ⟨pre', ck', post', j', e, hj, hpe⟩ := pos_decomp chunks ((p : Int) + x).toNat (by omega)
  have hat := hp.at e
  have hstart := filled_start hat.1
  have hlen : chunks.length = pre'.length + 1 + post'.length := by rw [e]; simp; omega
  have hjc : j' < c.cap (pre'.length + 1) := by omega
  have hnum1 : 1 ≤ r.num := by rw [hr.num]; omega
  obtain ⟨r1, e1, rep⟩ := sarGoto h hr e (le_of_lt hj)
  -- the current slice does not lie beyond the target when going forward, nor before it when going backward
  have hjcur : j ≤ c.cap r.num := by
    have := (hp.at hr.split).2.1; rw [hr.num]; have := hr.jle; omega
  unfold sarSkipRel
  by_cases hx1 : x > 0
  · rw [if_pos hx1]
    unfold sarSkipFwd
    have hnk : r.num ≤ pre'.length + 1 := by
      by_contra hc
      have hm := sliceStart_mono c (show 1 ≤ pre'.length + 1 + 1 by omega) (show pre'.length + 1 + 1 ≤ r.num by omega)
      rw [sliceStart_succ c _ (by omega)] at hm
      omega
    have hl := sarFwdLoop_spec h r.last (pre'.length + 1) j' hjc
      (by rcases hr.last with el | el
          · left; exact el
          · right; rw [el]; simp; omega)
      chunks.length r.num (r.off + x.toNat) hnum1 hnk (by omega) (by omega) (by omega)
    rw [hl]
    simp only
    have hca := h.cap_add (pre'.length + 1)
    rw [if_pos (by omega), e1]
    refine ⟨_, pre', ck', post', j', rfl, ?_⟩
    rw [hpe]; exact rep
  · by_cases hx2 : x < 0
    · rw [if_neg hx1, if_pos hx2]
      unfold sarSkipBack
      have hnk : pre'.length + 1 ≤ r.num := by
        by_contra hc
        have hm := sliceStart_mono c (show 1 ≤ r.num + 1 by omega) (show r.num + 1 ≤ pre'.length + 1 by omega)
        rw [sliceStart_succ c _ hnum1] at hm
        omega
      obtain ⟨o, n, hl, hle, hon⟩ := sarBackLoop_spec h (pre'.length + 1) j' hjc (by omega) r.num r.off (-x).toNat hnk
        (by omega) (by omega)
      rw [hl]
      simp only
      rw [if_pos hle, e1, hon]
      refine ⟨_, pre', ck', post', j', rfl, ?_⟩
      rw [hpe]; exact rep
    · have : x = 0 := by omega
      subst this
      rw [if_neg hx1, if_neg hx2]
      exact ⟨r, pre, ck, post, j, rfl, by simpa using hr⟩

end Dar
