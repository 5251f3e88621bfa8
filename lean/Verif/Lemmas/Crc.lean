import Verif.Model.Crc
import Verif.Spec.Checksum
import Verif.Lemmas.Infinint4
/- Lemmas on checksums. -/
namespace Dar

/-- the effect of one byte -/
def crcUpd (st : CrcSt) (b : UInt8) : CrcSt :=
  ⟨st.cyc.set st.ptr (st.cyc.getD st.ptr 0 ^^^ b), if st.ptr + 1 = st.cyc.length then 0 else st.ptr + 1⟩

def CrcSt.Ok (st : CrcSt) : Prop := st.ptr < st.cyc.length

theorem crcUpd_ok (st : CrcSt) (h : st.Ok) (b : UInt8) : (crcUpd st b).Ok ∧ (crcUpd st b).cyc.length = st.cyc.length := by
  unfold crcUpd CrcSt.Ok at *
  refine ⟨?_, by simp⟩
  simp only [List.length_set]; split <;> omega

theorem crcFold_ok (l : Bytes) (st : CrcSt) (h : st.Ok) :
    (l.foldl crcUpd st).Ok ∧ (l.foldl crcUpd st).cyc.length = st.cyc.length := by
  induction l generalizing st with
  | nil => exact ⟨h, rfl⟩
  | cons b l ih =>
    have h1 := crcUpd_ok st h b
    have h2 := ih _ h1.1
    exact ⟨h2.1, h2.2.trans h1.2⟩

theorem tComputeLoop_eq (l : Bytes) (st : CrcSt) (h : st.Ok) : tComputeLoop l st = .ok (l.foldl crcUpd st) := by
  induction l generalizing st with
  | nil => rfl
  | cons b l ih =>
    simp only [tComputeLoop, List.foldl_cons]
    rw [if_pos (show st.ptr < st.cyc.length from h)]
    have := ih (crcUpd st b) (crcUpd_ok st h b).1
    simpa [crcUpd] using this

theorem tCompute_eq (l : Bytes) (st : CrcSt) (h : st.Ok) : tCompute l st = .ok (l.foldl crcUpd st) := by
  unfold tCompute
  rw [if_neg (by unfold CrcSt.Ok at h; omega)]
  exact tComputeLoop_eq l st h

/-- without wrap-around, updating byte by byte is a word-wide xor -/
theorem crcFold_word (word : Bytes) (st : CrcSt) (h : st.ptr + word.length ≤ st.cyc.length) (hw : word ≠ []) :
    word.foldl crcUpd st = ⟨xorWord st.cyc st.ptr word, if st.ptr + word.length ≥ st.cyc.length then 0 else st.ptr + word.length⟩ := by
  induction word generalizing st with
  | nil => exact absurd rfl hw
  | cons b l ih =>
    simp only [List.length_cons] at h
    have hset : st.cyc.set st.ptr (st.cyc.getD st.ptr 0 ^^^ b)
        = st.cyc.take st.ptr ++ (st.cyc.getD st.ptr 0 ^^^ b) :: st.cyc.drop (st.ptr + 1) := by
      rw [List.set_eq_take_append_cons_drop, if_pos (by omega)]
    have hdrop : st.cyc.drop st.ptr = st.cyc.getD st.ptr 0 :: st.cyc.drop (st.ptr + 1) := by
      rw [List.drop_eq_getElem_cons (by omega), List.getD_eq_getElem?_getD, List.getElem?_eq_getElem (by omega)]
      rfl
    by_cases hl : l = []
    · subst hl
      simp only [List.foldl_cons, List.foldl_nil, crcUpd, xorWord, List.length_singleton]
      rw [hset, hdrop]
      simp only [List.take_succ_cons, List.take_zero, List.zipWith_cons_cons, List.zipWith_nil_left]
      congr 1
      · simp
      · split <;> split <;> omega
    · have hlen : 0 < l.length := List.length_pos_iff.mpr hl
      have hptr : (crcUpd st b).ptr = st.ptr + 1 := by
        simp only [crcUpd]; rw [if_neg (by omega)]
      have hcl : (crcUpd st b).cyc.length = st.cyc.length := by simp [crcUpd]
      rw [List.foldl_cons, ih (crcUpd st b) (by rw [hptr, hcl]; omega) hl, hptr, hcl]
      congr 1
      · simp only [xorWord]
        have hc : (crcUpd st b).cyc = st.cyc.take st.ptr ++ (st.cyc.getD st.ptr 0 ^^^ b) :: st.cyc.drop (st.ptr + 1) := hset
        have hlt : (st.cyc.take st.ptr).length = st.ptr := by simp; omega
        have e1 : (crcUpd st b).cyc.take (st.ptr + 1) = st.cyc.take st.ptr ++ [st.cyc.getD st.ptr 0 ^^^ b] := by
          rw [hc]
          have : st.cyc.take st.ptr ++ (st.cyc.getD st.ptr 0 ^^^ b) :: st.cyc.drop (st.ptr + 1)
            = (st.cyc.take st.ptr ++ [st.cyc.getD st.ptr 0 ^^^ b]) ++ st.cyc.drop (st.ptr + 1) := by simp
          rw [this]
          exact List.take_left' (by simp [hlt])
        have e2 : (crcUpd st b).cyc.drop (st.ptr + 1) = st.cyc.drop (st.ptr + 1) := by
          rw [hc]
          have : st.cyc.take st.ptr ++ (st.cyc.getD st.ptr 0 ^^^ b) :: st.cyc.drop (st.ptr + 1)
            = (st.cyc.take st.ptr ++ [st.cyc.getD st.ptr 0 ^^^ b]) ++ st.cyc.drop (st.ptr + 1) := by simp
          rw [this]
          exact List.drop_left' (by simp [hlt])
        have e3 : (crcUpd st b).cyc.drop (st.ptr + 1 + l.length) = st.cyc.drop (st.ptr + 1 + l.length) := by
          rw [← List.drop_drop, e2, List.drop_drop]
        rw [e1, e2, e3, hdrop]
        simp only [List.length_cons, List.take_succ_cons, List.zipWith_cons_cons, List.append_assoc, List.cons_append,
          List.nil_append]
        rw [show st.ptr + 1 + l.length = st.ptr + (l.length + 1) by omega]
      · split <;> split <;> simp_all <;> omega

theorem bLoop_eq (k : Nat) (hk : 0 < k) (n : Nat) (buf : Bytes) (st : CrcSt)
    (hdiv : k ∣ st.cyc.length) (hp : k ∣ st.ptr) (ho : st.Ok) (hn : buf.length ≤ n) :
    ∃ st' rest, bLoop k n buf st = .ok (st', rest) ∧
      rest.foldl crcUpd st' = buf.foldl crcUpd st ∧ st'.Ok := by
  induction n generalizing buf st with
  | zero => exact ⟨st, buf, rfl, rfl, ho⟩
  | succ n ih =>
    simp only [bLoop]
    by_cases hb : k ≤ buf.length
    · rw [if_pos hb]
      have hfit : st.ptr + k ≤ st.cyc.length := by
        obtain ⟨a, ha⟩ := hdiv
        obtain ⟨c, hc⟩ := hp
        unfold CrcSt.Ok at ho
        rw [ha, hc] at ho ⊢
        have : c < a := Nat.lt_of_mul_lt_mul_left ho
        calc k * c + k = k * (c + 1) := by ring
          _ ≤ k * a := Nat.mul_le_mul_left k this
      rw [if_pos hfit]
      have hlen : (buf.take k).length = k := by simp; omega
      have hword := crcFold_word (buf.take k) st (by omega) (by
        intro h; rw [h] at hlen; simp at hlen; omega)
      rw [hlen] at hword
      have hxl : (xorWord st.cyc st.ptr (buf.take k)).length = st.cyc.length := by
        have := (crcFold_ok (buf.take k) st ho).2
        rw [hword] at this; exact this
      simp only [hxl]
      have hok := (crcFold_ok (buf.take k) st ho).1
      rw [hword] at hok
      obtain ⟨st', rest, e1, e2, e3⟩ := ih (buf.drop k) ⟨xorWord st.cyc st.ptr (buf.take k),
          if st.ptr + k ≥ st.cyc.length then 0 else st.ptr + k⟩ (by rw [hxl]; exact hdiv)
          (by
            show k ∣ if st.ptr + k ≥ st.cyc.length then 0 else st.ptr + k
            split
            · exact Nat.dvd_zero k
            · exact Nat.dvd_add hp (Nat.dvd_refl k))
          hok (by simp; omega)
      refine ⟨st', rest, e1, ?_, e3⟩
      rw [e2, ← hword, ← List.foldl_append, List.take_append_drop]
    · rw [if_neg hb]; exact ⟨st, buf, rfl, rfl, ho⟩

theorem bComputeBlock_eq (k : Nat) (hk : 0 < k) (buf cyc : Bytes) (hc : cyc.length ≠ 0) (hdiv : cyc.length % k = 0) :
    ∃ st' rest, bComputeBlock k buf cyc = .ok (st', rest) ∧
      rest.foldl crcUpd st' = buf.foldl crcUpd ⟨cyc, 0⟩ ∧ st'.Ok := by
  unfold bComputeBlock
  have hd : k ∣ cyc.length := Nat.dvd_of_mod_eq_zero hdiv
  have hle : k ≤ cyc.length := Nat.le_of_dvd (by omega) hd
  rw [if_neg hc, if_neg (by omega), if_neg (by
    have := Nat.div_pos hle hk; omega)]
  exact bLoop_eq k hk _ _ _ hd (Nat.dvd_zero k) (by unfold CrcSt.Ok; simp only; omega) (Nat.le_refl _)

theorem crcWrap_ok (st : CrcSt) (hp : st.ptr ≤ st.cyc.length) (h0 : 0 < st.cyc.length) : (crcWrap st).Ok := by
  unfold CrcSt.Ok crcWrap
  by_cases h : st.ptr = st.cyc.length
  · rw [if_pos h]; exact h0
  · rw [if_neg h]; omega

theorem crcWrap_id (st : CrcSt) (h : st.Ok) : crcWrap st = st := by
  unfold CrcSt.Ok at h
  unfold crcWrap; rw [if_neg (by omega)]

theorem nHead_eq (buf : Bytes) (st : CrcSt) (hp : st.ptr ≤ st.cyc.length) (h0 : 0 < st.cyc.length) :
    (crcWrap (nHead buf st).2).Ok ∧
    (nHead buf st).1.foldl crcUpd (crcWrap (nHead buf st).2) = buf.foldl crcUpd (crcWrap st) := by
  induction buf generalizing st with
  | nil => exact ⟨crcWrap_ok st hp h0, rfl⟩
  | cons b l ih =>
    by_cases h : st.ptr < st.cyc.length
    · have e : nHead (b :: l) st = nHead l ⟨st.cyc.set st.ptr (st.cyc.getD st.ptr 0 ^^^ b), st.ptr + 1⟩ := by
        rw [nHead, if_pos h]
      rw [e]
      have := ih ⟨st.cyc.set st.ptr (st.cyc.getD st.ptr 0 ^^^ b), st.ptr + 1⟩ (by simp; omega) (by simpa using h0)
      refine ⟨this.1, ?_⟩
      rw [this.2, crcWrap_id st h, List.foldl_cons]
      congr 1
      simp only [crcUpd, crcWrap, List.length_set]
      split <;> rfl
    · have e : nHead (b :: l) st = (b :: l, st) := by rw [nHead, if_neg h]
      rw [e]
      exact ⟨crcWrap_ok st hp h0, rfl⟩

theorem nCompute_eq (addr : Nat) (buf : Bytes) (st : CrcSt) (h : st.Ok) :
    nCompute addr buf st = .ok (buf.foldl crcUpd st) := by
  have h' : st.ptr < st.cyc.length := h
  unfold nCompute
  -- first part
  have hpart1 : ∃ rest st1, (if st.ptr ≠ 0 then
      ((nHead buf st).1, crcWrap (nHead buf st).2)
    else (buf, st)) = (rest, st1) ∧ st1.Ok ∧ rest.foldl crcUpd st1 = buf.foldl crcUpd st := by
    by_cases hp : st.ptr ≠ 0
    · rw [if_pos hp]
      have := nHead_eq buf st (by omega) (by omega)
      rw [crcWrap_id st h] at this
      exact ⟨_, _, rfl, this.1, this.2⟩
    · rw [if_neg hp]; exact ⟨buf, st, rfl, h, rfl⟩
  obtain ⟨rest, st1, e, hok, hfold⟩ := hpart1
  simp only at e ⊢
  rw [e]
  simp only
  have hok' : st1.ptr < st1.cyc.length := hok
  -- second part
  have fin : ∀ (st2 : CrcSt) (rest2 : Bytes), st2.Ok → rest2.foldl crcUpd st2 = buf.foldl crcUpd st →
      (if rest2 ≠ [] then tCompute rest2 st2 else .ok st2 : Res CrcSt) = .ok (buf.foldl crcUpd st) := by
    intro st2 rest2 ho hf
    split
    · rw [tCompute_eq _ _ ho, hf]
    · rename_i hne
      simp at hne; subst hne
      rw [← hf]; rfl
  by_cases hc : st1.ptr = 0 ∧ rest ≠ []
  · rw [if_pos hc]
    have hst : (⟨st1.cyc, 0⟩ : CrcSt) = st1 := by
      obtain ⟨c, p⟩ := st1; simp at hc; simp [hc.1]
    have blk : ∀ k, 0 < k → st1.cyc.length % k = 0 → ∃ st' rest', bComputeBlock k rest st1.cyc = .ok (st', rest') ∧
        rest'.foldl crcUpd st' = buf.foldl crcUpd st ∧ st'.Ok := by
      intro k hk hd
      obtain ⟨a, b, e1, e2, e3⟩ := bComputeBlock_eq k hk rest st1.cyc (by omega) hd
      exact ⟨a, b, e1, by rw [e2, hst, hfold], e3⟩
    split
    · rename_i h8
      obtain ⟨a, b, e1, e2, e3⟩ := blk 8 (by omega) h8.1
      rw [e1]; exact fin a b e3 e2
    · split
      · rename_i h8
        obtain ⟨a, b, e1, e2, e3⟩ := blk 4 (by omega) h8.1
        rw [e1]; exact fin a b e3 e2
      · split
        · rename_i h8
          obtain ⟨a, b, e1, e2, e3⟩ := blk 2 (by omega) h8.1
          rw [e1]; exact fin a b e3 e2
        · exact fin st1 rest hok hfold
  · rw [if_neg hc]; exact fin st1 rest hok hfold

/-- both implementations compute the same function -/
theorem Crc.compute_eq (c : Crc) (h : c.st.Ok) (addr : Nat) (buf : Bytes) :
    c.compute addr buf = .ok { c with st := buf.foldl crcUpd c.st } := by
  unfold Crc.compute
  cases c.impl with
  | n => simp only [nCompute_eq addr buf c.st h]; rfl
  | i => simp only [tCompute_eq buf c.st h]; rfl

theorem xor_comm8 (a b : UInt8) : a ^^^ b = b ^^^ a := by
  apply UInt8.toBitVec_inj.1; simp [BitVec.xor_comm]
theorem xor_assoc8 (a b c : UInt8) : a ^^^ b ^^^ c = a ^^^ (b ^^^ c) := by
  apply UInt8.toBitVec_inj.1; simp [BitVec.xor_assoc]
theorem xor_zero8 (a : UInt8) : a ^^^ 0 = a := by
  apply UInt8.toBitVec_inj.1; simp
theorem zero_xor8 (a : UInt8) : 0 ^^^ a = a := by
  apply UInt8.toBitVec_inj.1; simp
theorem xor_self8 (a : UInt8) : a ^^^ a = 0 := by
  apply UInt8.toBitVec_inj.1; simp
theorem xor_eq_zero8 (a b : UInt8) (h : a ^^^ b = 0) : a = b := by
  have : a ^^^ b ^^^ b = 0 ^^^ b := by rw [h]
  rwa [xor_assoc8, xor_self8, xor_zero8, zero_xor8] at this

/-- closed form of the state after a chunk whose first byte is at position `off` of the stream -/
theorem crcFold_spec (l : Bytes) (cyc : Bytes) (off : Nat) (hw : 0 < cyc.length) :
    l.foldl crcUpd ⟨cyc, off % cyc.length⟩ =
      ⟨(List.range cyc.length).map (fun i => cyc.getD i 0 ^^^ crcByte cyc.length i off l), (off + l.length) % cyc.length⟩ := by
  induction l generalizing cyc off with
  | nil =>
    simp only [List.foldl_nil, crcByte, List.length_nil, Nat.add_zero, CrcSt.mk.injEq, and_true]
    apply List.ext_getElem
    · simp
    · intro i h1 h2
      simp only [List.getElem_map, List.getElem_range, xor_zero8]
      rw [List.getD_eq_getElem?_getD, List.getElem?_eq_getElem h1]; rfl
  | cons b l ih =>
    rw [List.foldl_cons]
    have hlt : off % cyc.length < cyc.length := Nat.mod_lt _ hw
    have hp : (crcUpd ⟨cyc, off % cyc.length⟩ b) =
        ⟨cyc.set (off % cyc.length) (cyc.getD (off % cyc.length) 0 ^^^ b), (off + 1) % (cyc.set (off % cyc.length) (cyc.getD (off % cyc.length) 0 ^^^ b)).length⟩ := by
      simp only [crcUpd, List.length_set, CrcSt.mk.injEq, true_and]
      generalize hq : off % cyc.length = q at *
      have e : (off + 1) % cyc.length = (q + 1) % cyc.length := by rw [← hq, Nat.mod_add_mod]
      rw [e]
      split
      · rename_i h; rw [h, Nat.mod_self]
      · rw [Nat.mod_eq_of_lt (by omega)]
    rw [hp, ih _ _ (by simpa using hw)]
    simp only [List.length_set, List.length_cons, CrcSt.mk.injEq]
    refine ⟨?_, by congr 1; omega⟩
    apply List.map_congr_left
    intro i hi
    simp only [crcByte]
    have hi' : i < cyc.length := by simpa using hi
    rw [List.getD_eq_getElem?_getD, List.getElem?_set]
    by_cases he : off % cyc.length = i
    · rw [if_pos he, if_pos (by omega), if_pos he]
      simp only [Option.getD_some]
      rw [he, xor_assoc8]
    · rw [if_neg he, if_neg he, ← List.getD_eq_getElem?_getD, zero_xor8]

theorem crcByte_append (w i off : Nat) (l m : Bytes) :
    crcByte w i off (l ++ m) = crcByte w i off l ^^^ crcByte w i (off + l.length) m := by
  induction l generalizing off with
  | nil => simp [crcByte, zero_xor8]
  | cons b l ih =>
    simp only [List.cons_append, crcByte, ih, List.length_cons]
    rw [xor_assoc8, show off + 1 + l.length = off + (l.length + 1) by omega]

theorem crcByte_xor (w i off : Nat) (l m : Bytes) (h : l.length = m.length) :
    crcByte w i off (List.zipWith (· ^^^ ·) l m) = crcByte w i off l ^^^ crcByte w i off m := by
  induction l generalizing off m with
  | nil => cases m with
    | nil => simp [crcByte]
    | cons _ _ => simp at h
  | cons a l ih =>
    cases m with
    | nil => simp at h
    | cons b m =>
      simp only [List.length_cons, Nat.add_right_cancel_iff] at h
      simp only [List.zipWith_cons_cons, crcByte, ih _ _ h]
      split
      · rw [xor_assoc8, xor_assoc8]
        congr 1
        rw [← xor_assoc8, ← xor_assoc8, xor_comm8 b]
      · simp [zero_xor8]

theorem crcByte_zero (w i off : Nat) (l : Bytes)
    (h : ∀ k, k < l.length → (off + k) % w = i → l.getD k 0 = 0) : crcByte w i off l = 0 := by
  induction l generalizing off with
  | nil => rfl
  | cons b l ih =>
    simp only [crcByte]
    rw [ih (off + 1) (fun k hk hm => by
      have := h (k + 1) (by simp; omega) (by rw [← hm]; congr 1; omega)
      simpa using this)]
    split
    · rename_i h0
      have := h 0 (by simp) (by simpa using h0)
      simp at this; rw [this, xor_zero8]
    · exact xor_zero8 0

theorem crcByte_single (w off : Nat) (l : Bytes) (j : Nat) (hj : j < l.length)
    (h : ∀ k, k < l.length → k ≠ j → (off + k) % w = (off + j) % w → l.getD k 0 = 0) :
    crcByte w ((off + j) % w) off l = l.getD j 0 := by
  have hsplit : l = l.take j ++ (l.getD j 0 :: l.drop (j + 1)) := by
    have : l.getD j 0 = l[j] := by
      rw [List.getD_eq_getElem?_getD, List.getElem?_eq_getElem hj]; rfl
    rw [this, ← List.drop_eq_getElem_cons hj, List.take_append_drop]
  have hlen : (l.take j).length = j := by simp; omega
  conv => lhs; rw [hsplit]
  rw [crcByte_append, hlen]
  simp only [crcByte]
  rw [if_pos trivial]
  rw [crcByte_zero _ _ off (l.take j) (fun k hk hm => by
    rw [hlen] at hk
    have := h k (by omega) (by omega) hm
    rw [List.getD_eq_getElem?_getD, List.getElem?_take_of_lt hk, ← List.getD_eq_getElem?_getD]; exact this)]
  rw [crcByte_zero _ _ _ (l.drop (j + 1)) (fun k hk hm => by
    simp at hk
    have := h (j + 1 + k) (by omega) (by omega) (by rw [← hm]; congr 1; omega)
    rw [List.getD_eq_getElem?_getD, List.getElem?_drop, ← List.getD_eq_getElem?_getD]; exact this)]
  rw [xor_zero8, zero_xor8]

theorem tCompare_iff (a b : Bytes) : tCompare a b = true ↔ a = b := by
  induction a generalizing b with
  | nil => cases b <;> simp [tCompare]
  | cons x a ih =>
    cases b with
    | nil => simp [tCompare]
    | cons y b =>
      simp only [tCompare]
      by_cases h : x = y
      · rw [if_pos h, ih]; simp [h]
      · rw [if_neg h]; simp [h]

end Dar
