import Verif.Model.Headers
import Verif.Props.DbStorage
import Verif.Props.ArchiveVersion
import Mathlib.Tactic.IntervalCases
/- Property theorems C23 (typed records) and C24 (slice and archive headers). -/
namespace Dar

/-! ### C23 -/

theorem tlv_storage (t : Tlv) (h : t.type < 65536) : ReadsAs tlvRead t.dump t := by
  unfold tlvRead Tlv.dump
  rw [List.append_assoc]
  refine ReadsAs.bind (ReadsAs.readExact _ 2 rfl) (ReadsAs.bind (getInt_putInt _) (ReadsAs.bind_pure (ReadsAs.readExact _ _ rfl) ?_))
  simp only [List.getD_cons_zero, List.getD_cons_succ, UInt8.toNat_ofNat']
  congr 1
  obtain ⟨ty, v⟩ := t
  simp only [Tlv.mk.injEq, and_true] at h ⊢
  omega

/-- A list of records is read back identically, whatever follows it: any number of records, any 16-bit types (repeated
types included), any contents. -/
theorem C23_roundtrip (l : List Tlv) (h : ∀ t ∈ l, t.type < 65536) : ReadsAs tlvsRead (tlvsDump l) l := by
  unfold tlvsRead tlvsDump
  refine ReadsAs.bind (getInt_putInt _) ?_
  induction l with
  | nil => exact ReadsAs.pure []
  | cons t l ih =>
    simp only [List.length_cons, tlvReadN, List.flatMap_cons]
    exact ReadsAs.bind (tlv_storage t (h t (List.mem_cons_self ..))) (ReadsAs.bind_pure (ih (fun t ht => h t (List.mem_cons_of_mem _ ht))) rfl)

example : ReadsAs tlvsRead (tlvsDump [⟨2, [1, 2, 3]⟩, ⟨65535, []⟩, ⟨2, [7]⟩]) [⟨2, [1, 2, 3]⟩, ⟨65535, []⟩, ⟨2, [7]⟩] :=
  C23_roundtrip _ (by decide)

theorem tlvRead_safe : StreamSafe tlvRead := by
  unfold tlvRead
  exact StreamSafe.bind (StreamSafe.readExact _) fun _ => StreamSafe.bind getInt_safe fun _ => StreamSafe.bind (StreamSafe.readExact _) fun _ => StreamSafe.pure _

theorem tlvsRead_safe : StreamSafe tlvsRead := by
  unfold tlvsRead
  refine StreamSafe.bind getInt_safe fun n => ?_
  induction n with
  | zero => exact StreamSafe.pure _
  | succ n ih => exact StreamSafe.bind tlvRead_safe fun _ => StreamSafe.bind ih fun _ => StreamSafe.pure _

/-- A truncated list of records is refused, wherever it is cut. -/
theorem C23_truncated (l : List Tlv) (h : ∀ t ∈ l, t.type < 65536) (p q : Bytes) (hpq : tlvsDump l = p ++ q) (hq : q ≠ []) :
    ∃ e, tlvsRead p = .error e :=
  strict_prefix_error _ tlvsRead_safe _ _ (C23_roundtrip l h) p q hpq hq

/-- Consulting record `i`: the record for every valid index, an error of range beyond — except for the index equal to the number of
records, which is not refused and reads outside of the list. -/
theorem C23_access (l : List Tlv) (i : Nat) :
    (∀ h : i < l.length, tlvsAt l i = .ok l[i]) ∧ (i > l.length → tlvsAt l i = .error .range) ∧ (i = l.length → tlvsAt l i = .error .ub) := by
  unfold tlvsAt
  refine ⟨fun h => ?_, fun h => ?_, fun h => ?_⟩
  · rw [if_neg (by omega), List.getElem?_eq_getElem h]
  · rw [if_pos h]
  · rw [if_neg (by omega), List.getElem?_eq_none (by omega)]

/-! ### Flags -/

/-- No reserved bit (the least significant one of each byte). -/
def NoLsb (b : Nat) : Prop := ∀ j, b.testBit (8 * j) = false

/-- `bf` is `bits` with the reserved bits of bytes 1 to k-1 set. -/
def Widened (bits bf k : Nat) : Prop := ∀ i, bf.testBit i = (bits.testBit i || decide (i % 8 = 0 ∧ 8 ≤ i ∧ i < 8 * k))

theorem flagWiden_spec (bits : Nat) (hb : bits < 2 ^ 31) : ∀ fuel bf k, 1 ≤ k → 5 ≤ fuel + k → Widened bits bf k →
    ∃ bf' k', flagWiden fuel bf k = .ok (bf', k') ∧ 1 ≤ k' ∧ Widened bits bf' k' ∧ bits < 2 ^ (8 * k') := by
  intro fuel
  induction fuel with
  | zero =>
    intro bf k _ hk hw
    exact ⟨bf, k, rfl, by omega, hw, Nat.lt_of_lt_of_le hb (Nat.pow_le_pow_right (by omega) (by omega))⟩
  | succ fuel ih =>
    intro bf k h1 hk hw
    have hsame : bf >>> (8 * k) = bits >>> (8 * k) := by
      apply Nat.eq_of_testBit_eq
      intro i
      rw [Nat.testBit_shiftRight, Nat.testBit_shiftRight, hw]
      have : decide ((8 * k + i) % 8 = 0 ∧ 8 ≤ 8 * k + i ∧ 8 * k + i < 8 * k) = false := by
        simp only [decide_eq_false_iff_not]
        omega
      rw [this, Bool.or_false]
    unfold flagWiden
    rw [hsame]
    by_cases hc : bits >>> (8 * k) > 0
    · rw [if_pos hc]
      have hk4 : ¬ 8 * k ≥ 31 := by
        intro h
        rw [Nat.shiftRight_eq_div_pow] at hc
        have : bits < 2 ^ (8 * k) := Nat.lt_of_lt_of_le hb (Nat.pow_le_pow_right (by omega) h)
        rw [Nat.div_eq_of_lt this] at hc
        omega
      rw [if_neg hk4]
      refine ih _ _ (by omega) (by omega) ?_
      intro i
      rw [Nat.testBit_or, hw, Nat.one_shiftLeft, Nat.testBit_two_pow]
      rcases Bool.eq_false_or_eq_true (bits.testBit i) with h | h
      · rw [h]; rfl
      · rw [h, Bool.false_or, Bool.false_or]
        rw [Bool.eq_iff_iff]
        simp only [Bool.or_eq_true, decide_eq_true_eq]
        omega
    · rw [if_neg hc]
      refine ⟨bf, k, rfl, h1, hw, ?_⟩
      rw [Nat.shiftRight_eq_div_pow] at hc
      by_contra hlt
      exact hc (Nat.div_pos (by omega) (Nat.two_pow_pos _))

theorem flagRead_spec (bits : Nat) (hb : bits < 2 ^ 31) (hl : NoLsb bits) (bf K : Nat) (hw : Widened bits bf K) (rest : Bytes) : ∀ k fuel, 1 ≤ k → k ≤ K →
    k ≤ fuel → flagReadLoop fuel (bits >>> (8 * k)) (flagOut bf k ++ rest) = .ok (bits, rest) := by
  intro k
  induction k with
  | zero => intro _ h; omega
  | succ k ih =>
    intro fuel _ hkK hf
    obtain ⟨fuel, rfl⟩ : ∃ m, fuel = m + 1 := ⟨fuel - 1, by omega⟩
    simp only [flagOut, List.cons_append, flagReadLoop]
    have hsh : bits >>> (8 * (k + 1)) < 2 ^ 31 := Nat.lt_of_le_of_lt (Nat.shiftRight_le _ _) hb
    have e1 : ((bits >>> (8 * (k + 1))) <<< 8 % 2 ^ 64) >>> 8 = bits >>> (8 * (k + 1)) := by
      rw [Nat.shiftLeft_eq, Nat.shiftRight_eq_div_pow]
      rw [Nat.mod_eq_of_lt (by omega)]
      omega
    rw [if_pos e1]
    have hv : (UInt8.ofNat (bf >>> (8 * k) &&& 255)).toNat = bf >>> (8 * k) &&& 255 := by
      rw [UInt8.toNat_ofNat']
      apply Nat.mod_eq_of_lt
      exact Nat.lt_of_le_of_lt Nat.and_le_right (by omega)
    rw [hv]
    have t255 : ∀ i, Nat.testBit 255 i = decide (i < 8) := by
      intro i; rw [show (255 : Nat) = 2 ^ 8 - 1 from rfl, Nat.testBit_two_pow_sub_one]
    have t254 : ∀ i, Nat.testBit 254 i = decide (1 ≤ i ∧ i < 8) := by
      intro i
      by_cases h : i < 8
      · interval_cases i <;> rfl
      · rw [Nat.testBit_lt_two_pow (Nat.lt_of_lt_of_le (by decide : 254 < 2 ^ 8) (Nat.pow_le_pow_right (by omega) (by omega)))]
        simp; omega
    have e2 : (bits >>> (8 * (k + 1))) <<< 8 ||| (bf >>> (8 * k) &&& 255 &&& 254) = bits >>> (8 * k) := by
      apply Nat.eq_of_testBit_eq
      intro i
      simp only [Nat.testBit_or, Nat.testBit_shiftLeft, Nat.testBit_and, Nat.testBit_shiftRight, t255, t254]
      by_cases h8 : i < 8
      · simp only [h8, decide_true, Bool.and_true, ge_iff_le, show ¬ 8 ≤ i by omega, decide_false, Bool.false_and, Bool.false_or, and_true]
        rcases Nat.eq_zero_or_pos i with rfl | hi
        · simp [hl k]
        · rw [hw]
          have : decide ((8 * k + i) % 8 = 0 ∧ 8 ≤ 8 * k + i ∧ 8 * k + i < 8 * K) = false := by
            simp only [decide_eq_false_iff_not]
            omega
          rw [this]
          simp; omega
      · simp only [h8, decide_false, Bool.and_false, Bool.or_false, ge_iff_le, show 8 ≤ i by omega, decide_true, Bool.true_and, Bool.false_and]
        congr 1
        omega
    rw [e2]
    have e3 : (bf >>> (8 * k) &&& 255 &&& 1 > 0) ↔ k ≥ 1 := by
      have : bf >>> (8 * k) &&& 255 &&& 1 = (bf.testBit (8 * k)).toNat := by
        apply Nat.eq_of_testBit_eq
        intro i
        simp only [Nat.testBit_and, Nat.testBit_shiftRight, t255]
        rcases Nat.eq_zero_or_pos i with rfl | hi
        · cases h : bf.testBit (8 * k) <;> simp [h]
        · have : Nat.testBit 1 i = false := by
            rw [show (1 : Nat) = 2 ^ 0 from rfl, Nat.testBit_two_pow]; simp; omega
          rw [this, Bool.and_false]
          symm
          cases bf.testBit (8 * k)
          · simp
          · exact this
      rw [this, hw, hl k, Bool.false_or]
      by_cases hk : k ≥ 1
      · have : decide ((8 * k) % 8 = 0 ∧ 8 ≤ 8 * k ∧ 8 * k < 8 * K) = true := by
          simp only [decide_eq_true_eq]
          omega
        rw [this]; simpa using hk
      · have : decide ((8 * k) % 8 = 0 ∧ 8 ≤ 8 * k ∧ 8 * k < 8 * K) = false := by
          simp only [decide_eq_false_iff_not]
          omega
        rw [this]; simpa using hk
    by_cases hk : k ≥ 1
    · rw [if_pos (e3.mpr hk)]
      exact ih fuel hk (by omega) (by omega)
    · rw [if_neg (fun h => hk (e3.mp h))]
      obtain rfl : k = 0 := by omega
      simp [flagOut]

/-- The flags of a header are read back identically: any set of flags that avoids the reserved bits (below 2^31: beyond, the writing
itself is undefined). -/
theorem C24_flags (bits : Nat) (hb : bits < 2 ^ 31) (hl : NoLsb bits) : ∃ b, flagsDump bits = .ok b ∧ ReadsAs flagsRead b bits := by
  have hw0 : Widened bits bits 1 := by
    intro i
    have : decide (i % 8 = 0 ∧ 8 ≤ i ∧ i < 8 * 1) = false := by
      simp only [decide_eq_false_iff_not]
      omega
    rw [this, Bool.or_false]
  obtain ⟨bf, k, h1, h2, h3, h4⟩ := flagWiden_spec bits hb 8 bits 1 (by omega) (by omega) hw0
  refine ⟨flagOut bf k, by unfold flagsDump; rw [h1], ?_⟩
  intro rest
  have hlen : (flagOut bf k).length = k := by
    clear h1 h2 h3 h4
    induction k with
    | zero => rfl
    | succ k ih => simp [flagOut, ih]
  have := flagRead_spec bits hb hl bf k h3 rest k ((flagOut bf k ++ rest).length + 1) h2 (Nat.le_refl _) (by simp; omega)
  rw [Nat.shiftRight_eq_div_pow, Nat.div_eq_of_lt h4] at this
  exact this

/-! ### Slice header -/

theorem intIn_put (n : Nat) : intIn (putInt n) = .ok n := by
  have := getInt_putInt n []
  rw [List.append_nil] at this
  unfold intIn; rw [this]
theorem intsIn_put (n m : Nat) : intsIn (putInt n ++ putInt m) = .ok (n, m) := by
  have h2 := getInt_putInt m []
  rw [List.append_nil] at h2
  unfold intsIn
  rw [getInt_putInt n]
  simp only
  rw [h2]

/-- The header just before the records are read. -/
def hdr0 (iname : Bytes) (flag : UInt8) : SliceHdr := ⟨SAUV_MAGIC, iname, List.replicate LABEL_SIZE 0, flag, 0, 0, 0, 0, false⟩

theorem sliceRead_tlv (goOn : Nat → Bool) (fic : Option Nat) (total : Nat) (iname rest : Bytes) (flag : UInt8) (l : List Tlv) (h1 h2 : SliceHdr)
    (hi : iname.length = LABEL_SIZE) (hl : ∀ t ∈ l, t.type < 65536) (hf : fillFrom goOn (hdr0 iname flag) l = .ok h1)
    (hs : sliceFinish fic (total - rest.length) h1 = .ok h2) :
    sliceRead goOn fic total (be32 SAUV_MAGIC ++ iname ++ [flag] ++ [84] ++ tlvsDump l ++ rest)
      = .ok ({ h2 with dname := if labelCleared h2.dname then h2.iname else h2.dname }, rest) := by
  unfold sliceRead
  simp only [List.append_assoc]
  rw [bind_run, ReadsAs.readExact (be32 SAUV_MAGIC) 4 rfl]
  simp only
  have hm : of32 (be32 SAUV_MAGIC) = SAUV_MAGIC := by decide
  rw [hm, if_neg (by simp), bind_run, ReadsAs.readExact iname _ hi]
  simp only
  rw [bind_run, ReadsAs.readByte flag]
  simp only
  rw [bind_run, ReadsAs.readByte 84]
  simp only
  rw [if_neg (by decide), if_neg (by decide), if_pos trivial]
  rw [bind_run, bind_run, C23_roundtrip l hl]
  simp only
  rw [bind_run, show posOf total rest = .ok (total - rest.length, rest) from rfl]
  simp only
  rw [bind_run]
  unfold hdr0 at hf
  simp only [Reader.lift, hf, hs]
  rfl

theorem tlvs_types (h : SliceHdr) (w : Bool) (l : List Tlv) (ht : h.tlvs w = .ok l) : ∀ t ∈ l, t.type < 65536 := by
  unfold SliceHdr.tlvs at ht
  split_ifs at ht with h1 h2 h3 h4 <;> cases ht <;> simp

theorem fill_tlvs (goOn : Nat → Bool) (h : SliceHdr) (w : Bool) (l : List Tlv) (hd : h.dname.length = LABEL_SIZE) (ht : h.tlvs w = .ok l) :
    fillFrom goOn (hdr0 h.iname h.flag) l =
      .ok { hdr0 h.iname h.flag with firstSize := h.firstSize, otherSize := h.otherSize, dname := h.dname, firstHdr := if w then h.firstHdr else 0, otherHdr := if w then h.otherHdr else 0 } := by
  have hdn : h.dname.take LABEL_SIZE = h.dname := List.take_of_length_le (by omega)
  have f2 : ∀ (x : SliceHdr) n, fillOne goOn x ⟨2, putInt n⟩ = .ok { x with firstSize := n } := by
    intro x n; simp [fillOne, intIn_put, Except.map]
  have f1 : ∀ (x : SliceHdr) n, fillOne goOn x ⟨1, putInt n⟩ = .ok { x with otherSize := n } := by
    intro x n; simp [fillOne, intIn_put, Except.map]
  have f3 : ∀ (x : SliceHdr), fillOne goOn x ⟨3, h.dname⟩ = .ok { x with dname := h.dname } := by
    intro x; simp [fillOne, hd, hdn]
  have f4 : ∀ (x : SliceHdr) n m, n ≠ 0 → m ≠ 0 → fillOne goOn x ⟨4, putInt n ++ putInt m⟩ = .ok { x with firstHdr := n, otherHdr := m } := by
    intro x n m hn hm; simp [fillOne, intsIn_put, hn, hm]
  unfold SliceHdr.tlvs at ht
  by_cases hb : w = true ∧ (h.otherHdr = 0 ∨ h.firstHdr = 0)
  · rw [if_pos hb] at ht; cases ht
  · rw [if_neg hb] at ht
    injection ht with ht
    subst ht
    cases w
    · by_cases a : h.firstSize = 0 <;> by_cases b : h.otherSize = 0 <;>
        simp [a, b, fillFrom, f1, f2, f3, hdr0]
    · have c1 : h.otherHdr ≠ 0 := fun hh => hb ⟨rfl, Or.inl hh⟩
      have c2 : h.firstHdr ≠ 0 := fun hh => hb ⟨rfl, Or.inr hh⟩
      by_cases a : h.firstSize = 0 <;> by_cases b : h.otherSize = 0 <;>
        simp [a, b, fillFrom, f1, f2, f3, f4 _ _ _ c2 c1, hdr0]

theorem be32_len (n : Nat) : (be32 n).length = 4 := rfl

theorem bytes_new (h : SliceHdr) (a w : Bool) (b : Bytes) (ho : h.old = false) (hm : h.magic = SAUV_MAGIC) (hb : h.bytes a w = .ok b) :
    ∃ l, h.tlvs w = .ok l ∧ b = be32 SAUV_MAGIC ++ h.iname ++ [h.flag] ++ [84] ++ tlvsDump l := by
  unfold SliceHdr.bytes at hb
  split_ifs at hb with h1
  · rename_i h2 _; rw [ho] at h2; cases h2
  · rename_i h2 _; rw [ho] at h2; cases h2
  · cases ht : h.tlvs w with
    | error e => rw [ht] at hb; cases hb
    | ok l =>
      rw [ht] at hb
      injection hb with hb
      exact ⟨l, rfl, by rw [← hb, hm]⟩

/-- A slice header that the program can write at the beginning of a slice: current format, names of the right size, the data
name being set. -/
structure SliceHdr.Fresh (h : SliceHdr) : Prop where
  new : h.old = false
  mag : h.magic = SAUV_MAGIC
  inm : h.iname.length = LABEL_SIZE
  dnm : h.dname.length = LABEL_SIZE
  set : labelCleared h.dname = false

/-- The header written at the beginning of a slice is read back with the same names, flag and slice sizes, and the header size recorded
is the number of bytes written.  When the archive is not sliced (null size) the size of the file read replaces it (when known),
and an unset size for the first slice is replaced by the common one. -/
theorem C24_slice_header (h h' : SliceHdr) (goOn : Nat → Bool) (fic : Option Nat) (asFirst : Bool) (b rest : Bytes) (hf : h.Fresh)
    (h0 : h.firstHdr = 0 ∧ h.otherHdr = 0) (hw : h.write 0 asFirst false = .ok (b, h')) (hr : fic = none ∨ (fic = some (b.length + rest.length) ∧ rest ≠ [])) :
    let other := if h.otherSize = 0 then fic.getD 0 else h.otherSize
    sliceRead goOn fic (b.length + rest.length) (b ++ rest) =
      .ok ({ h with otherSize := other, firstSize := if h.firstSize = 0 then other else h.firstSize, firstHdr := b.length, otherHdr := b.length }, rest)
    ∧ h' = { h with firstHdr := b.length, otherHdr := b.length } := by
  intro other
  unfold SliceHdr.write at hw
  cases hb : h.bytes asFirst false with
  | error e => rw [hb] at hw; cases hw
  | ok b0 =>
    rw [hb] at hw
    simp only [Bool.false_eq_true, not_false_eq_true, h0.1, h0.2, and_self, if_true, hf.new, if_false, Nat.zero_add] at hw
    split_ifs at hw with c1 c2 c3
    injection hw with hw; injection hw with e1 e2
    subst e1
    obtain ⟨l, hl, he⟩ := bytes_new h asFirst false b0 hf.new hf.mag hb
    refine ⟨?_, by rw [← e2, hf.new]⟩
    have hlen : sliceMin < b0.length := by
      have : (tlvsDump l).length > 0 := by
        unfold tlvsDump
        have := List.length_pos_iff.mpr (putInt_ne_nil l.length)
        simp only [List.length_append]
        omega
      rw [he]
      simp only [List.length_append, be32_len, hf.inm, List.length_cons, List.length_nil, sliceMin, LABEL_SIZE]
      omega
    have hfi := fill_tlvs goOn h false l hf.dnm hl
    simp only [Bool.false_eq_true, if_false] at hfi
    have hfin : ∀ h2, sliceFinish fic b0.length { hdr0 h.iname h.flag with firstSize := h.firstSize, otherSize := h.otherSize, dname := h.dname, firstHdr := 0, otherHdr := 0 } = .ok h2 →
        sliceRead goOn fic (b0.length + rest.length) (b0 ++ rest) = .ok ({ h2 with dname := if labelCleared h2.dname then h2.iname else h2.dname }, rest) := by
      intro h2 hh
      have := sliceRead_tlv goOn fic (b0.length + rest.length) h.iname rest h.flag l _ h2 hf.inm (tlvs_types h false l hl) hfi (by rw [Nat.add_sub_cancel]; exact hh)
      rw [← he] at this
      exact this
    have hso : ¬ (other ≠ 0 ∧ other ≤ b0.length) := by
      simp only [other]
      by_cases ho : h.otherSize = 0
      · rw [if_pos ho]
        rcases hr with hr | ⟨hr, hne⟩
        · rw [hr]; simp
        · rw [hr]
          have : rest.length > 0 := List.length_pos_iff.mpr hne
          simp only [Option.getD_some]
          omega
      · rw [if_neg ho]; omega
    have hs1 : ¬ ((if h.firstSize = 0 then other else h.firstSize) ≠ 0 ∧ (if h.firstSize = 0 then other else h.firstSize) ≤ b0.length) := by
      by_cases ho : h.firstSize = 0
      · rw [if_pos ho]; exact hso
      · rw [if_neg ho]; omega
    rw [hfin { h with otherSize := other, firstSize := if h.firstSize = 0 then other else h.firstSize, firstHdr := b0.length, otherHdr := b0.length }]
    · simp only [hf.set, Bool.false_eq_true, if_false]
    · unfold sliceFinish
      simp only [if_true, ne_eq, not_true, if_false]
      rw [if_neg (by omega)]
      simp only
      rw [show (if h.otherSize = 0 then fic.getD 0 else h.otherSize) = other from rfl, if_neg hs1, if_neg hso]
      simp only [hdr0, hf.new, hf.mag]

theorem slice_write_inv (h h' : SliceHdr) (pos : Nat) (a : Bool) (b : Bytes) (ho : h.old = false) (hw : h.write pos a false = .ok (b, h')) :
    h.bytes a false = .ok b ∧ ((sliceMin ≤ pos + b.length ∧ h' = { h with firstHdr := pos + b.length, otherHdr := pos + b.length }) ∨
      (¬ (h.firstHdr = 0 ∧ h.otherHdr = 0) ∧ h' = h)) := by
  unfold SliceHdr.write at hw
  cases hb : h.bytes a false with
  | error e => rw [hb] at hw; cases hw
  | ok b0 =>
    rw [hb] at hw
    dsimp only at hw
    by_cases c1 : ¬ (false : Bool) = true ∧ h.firstHdr = 0 ∧ h.otherHdr = 0
    · rw [if_pos c1] at hw
      rw [show (if h.old = true then sliceMin else pos + b0.length) = pos + b0.length by rw [ho]; rfl] at hw
      by_cases c2 : pos + b0.length < sliceMin
      · rw [if_pos c2] at hw; exact nomatch hw
      · rw [if_neg c2] at hw
        by_cases c3 : h.firstSize ≠ 0 ∧ pos + b0.length ≥ h.firstSize
        · rw [if_pos c3] at hw; exact nomatch hw
        · rw [if_neg c3] at hw
          by_cases c4 : h.otherSize ≠ 0 ∧ pos + b0.length ≥ h.otherSize
          · rw [if_pos c4] at hw; exact nomatch hw
          · rw [if_neg c4] at hw
            injection hw with hw; injection hw with e1 e2; subst e1
            exact ⟨rfl, Or.inl ⟨by omega, e2.symm⟩⟩
    · rw [if_neg c1] at hw
      injection hw with hw; injection hw with e1 e2; subst e1
      exact ⟨rfl, Or.inr ⟨by simpa using c1, e2.symm⟩⟩

/-- The header written for the following slices has exactly the same bytes, apart from the terminal flag, hence the same size. -/
theorem C24_same_header (h h' : SliceHdr) (a1 a2 : Bool) (b : Bytes) (pos : Nat) (fl : UInt8) (hf : h.Fresh) (hw : h.write pos a1 false = .ok (b, h')) :
    ∃ b' h2, { h' with flag := fl }.write 0 a2 false = .ok (b', h2) ∧ b'.length = b.length ∧ b' = b.set 14 fl := by
  obtain ⟨hb, hh'⟩ := slice_write_inv h h' pos a1 b hf.new hw
  obtain ⟨l, hl, he⟩ := bytes_new h a1 false b hf.new hf.mag hb
  have hh : ¬ (h'.firstHdr = 0 ∧ h'.otherHdr = 0) ∧ h'.old = false ∧ h'.magic = h.magic ∧ h'.iname = h.iname ∧ h'.tlvs false = h.tlvs false := by
    rcases hh' with ⟨c, rfl⟩ | ⟨c, rfl⟩
    · refine ⟨?_, hf.new, rfl, rfl, rfl⟩
      simp only [sliceMin] at c ⊢
      omega
    · exact ⟨c, hf.new, rfl, rfl, rfl⟩
  have hnew : { h' with flag := fl }.bytes a2 false = .ok (b.set 14 fl) := by
    unfold SliceHdr.bytes
    have ht : ({ h' with flag := fl } : SliceHdr).tlvs false = .ok l := by rw [← hl, ← hh.2.2.2.2]; rfl
    rw [if_neg (by simp)]
    dsimp only
    rw [if_neg (by rw [hh.2.1]; simp), ht]
    dsimp only
    rw [he, hh.2.2.1, hh.2.2.2.1, hf.mag]
    congr 1
    have e14 : 14 = (be32 SAUV_MAGIC ++ h.iname).length := by rw [List.length_append, be32_len, hf.inm]; rfl
    have : be32 SAUV_MAGIC ++ h.iname ++ [h.flag] ++ [84] ++ tlvsDump l = (be32 SAUV_MAGIC ++ h.iname) ++ h.flag :: ([84] ++ tlvsDump l) := by
      simp [List.append_assoc]
    rw [this, e14, List.set_append_right _ _ (Nat.le_refl _), Nat.sub_self]
    simp only [List.set_cons_zero, List.append_assoc, List.cons_append, List.nil_append]
  refine ⟨b.set 14 fl, { h' with flag := fl }, ?_, by simp, rfl⟩
  unfold SliceHdr.write
  rw [hnew]
  dsimp only
  rw [if_neg (by simpa using hh.1)]

/-- A slice header stored in the header of an isolated catalogue, to remember the slicing of the archive of reference. -/
structure SliceHdr.AsRef (h : SliceHdr) : Prop extends h.Fresh where
  fh : h.firstHdr ≠ 0
  oh : h.otherHdr ≠ 0
  fs : h.firstSize = 0 ∨ h.firstHdr < h.firstSize
  os : h.otherSize = 0 ∨ h.otherHdr < h.otherSize
  /-- the first slice has a known size when the others have (always the case after a reading) -/
  both : h.firstSize = 0 → h.otherSize = 0

theorem slice_ref (h : SliceHdr) (hf : h.AsRef) (goOn : Nat → Bool) (total : Nat) :
    ∃ b, h.bytes true true = .ok b ∧ ReadsAs (sliceRead goOn none total) b h := by
  obtain ⟨l, hl⟩ : ∃ l, h.tlvs true = .ok l := by
    unfold SliceHdr.tlvs
    rw [if_neg (by simp [hf.fh, hf.oh])]
    exact ⟨_, rfl⟩
  have hb : h.bytes true true = .ok (be32 SAUV_MAGIC ++ h.iname ++ [h.flag] ++ [84] ++ tlvsDump l) := by
    unfold SliceHdr.bytes
    simp [hf.new, hl, hf.mag]
  refine ⟨_, hb, ?_⟩
  intro rest
  have hfi := fill_tlvs goOn h true l hf.dnm hl
  simp only [if_true] at hfi
  rw [sliceRead_tlv goOn none total h.iname rest h.flag l _ h hf.inm (tlvs_types h true l hl) hfi]
  · simp only [hf.set, Bool.false_eq_true, if_false]
  · unfold sliceFinish
    simp only [hf.oh, if_false]
    have e : (if h.firstSize = 0 then h.otherSize else h.firstSize) = h.firstSize := by
      by_cases h0 : h.firstSize = 0
      · rw [if_pos h0, h0, hf.both h0]
      · rw [if_neg h0]
    rw [e, if_neg (by have := hf.fs; omega), if_neg (by have := hf.os; omega)]
    simp only [hdr0, hf.new.symm, hf.mag.symm]

/-- The slice header of reference is read back identically, wherever it is stored. -/
theorem C24_ref_header (h : SliceHdr) (hf : h.AsRef) (goOn : Nat → Bool) (total : Nat) :
    ∃ b, h.bytes true true = .ok b ∧ ReadsAs (sliceRead goOn none total) b h := slice_ref h hf goOn total

/-! ### Archive header -/

/-- The flags for a given set of optional fields. -/
def flagBits (b1 b2 b3 b4 b5 b6 b7 b8 b9 : Bool) : Nat :=
  let f (c : Bool) (n : Nat) := if c then n else 0
  f b1 F_INITIAL ||| f b2 F_KEY ||| f b3 F_REFHDR ||| f b4 F_REFVER ||| f b5 F_SEQUENCE ||| f b6 F_SCRAMBLED ||| f b7 F_SIGNED ||| f b8 F_KDF ||| f b9 F_COMPBS

theorem flagBits_ok : ∀ b1 b2 b3 b4 b5 b6 b7 b8 b9 : Bool, (do
      let b ← setIf b1 F_INITIAL 0
      let b ← setIf b2 F_KEY b
      let b ← setIf b3 F_REFHDR b
      let b ← setIf b4 F_REFVER b
      let b ← setIf b5 F_SEQUENCE b
      let b ← setIf b6 F_SCRAMBLED b
      let b ← setIf b7 F_SIGNED b
      let b ← setIf b8 F_KDF b
      let b ← setIf b9 F_COMPBS b
      (.ok b : Res Nat)) = .ok (flagBits b1 b2 b3 b4 b5 b6 b7 b8 b9) := by decide +kernel

theorem flagBits_facts : ∀ b1 b2 b3 b4 b5 b6 b7 b8 b9 : Bool,
    let n := flagBits b1 b2 b3 b4 b5 b6 b7 b8 b9
    n < 65536 ∧ n &&& F_ALL = n ∧ n.testBit 0 = false ∧ n.testBit 8 = false ∧ isSet n F_INITIAL = .ok b1 ∧ isSet n F_KEY = .ok b2 ∧ isSet n F_REFHDR = .ok b3
      ∧ isSet n F_REFVER = .ok b4 ∧ isSet n F_SEQUENCE = .ok b5 ∧ isSet n F_SCRAMBLED = .ok b6 ∧ isSet n F_SIGNED = .ok b7 ∧ isSet n F_KDF = .ok b8
      ∧ isSet n F_COMPBS = .ok b9 ∧ isSet n F_SLICING = .ok false := by decide +kernel

/-- An archive header of the current generation (format 9 or more), as the program builds or reads it. -/
structure HdrBase.Writable (h : HdrBase) : Prop where
  ver : 9 ≤ h.edition.version
  known : hdrEmptyEdition h = false
  line : (0 : UInt8) ∉ h.cmdLine
  layout : h.onlyLayout = false
  ref : ∀ r ∈ h.refHeader, r.AsRef
  ciph : h.ciphered = decide (h.sym ≠ .none)
  /-- without salt the key derivation parameters are the historical ones -/
  nokdf : h.salt = [] → h.iterations = PRE10_ITER ∧ h.kdfHash = .sha1 ∧ h.hasKdf = false
  kdf : h.salt ≠ [] → h.hasKdf = true ∧ h.kdfHash ≠ .none

theorem charCompr_char (c : Compr) : charCompr c.char = .ok c := by cases c <;> decide
theorem charHash_char (c : HashAlgo) : charHash c.char = .ok c := by cases c <;> decide

theorem ReadsAs.ite_bool {α : Type} (c : Bool) {r1 r2 : Reader α} {e : Bytes} {a : α}
    (h1 : c = true → ReadsAs r1 e a) (h2 : c = false → ReadsAs r2 e a) : ReadsAs (if c = true then r1 else r2) e a := by
  cases c
  · simpa using h2 rfl
  · simpa using h1 rfl

theorem ReadsAs.lift_bind {α β : Type} {x : Res α} {a : α} {f : α → Reader β} {e : Bytes} {b : β} (hx : x = .ok a) (h : ReadsAs (f a) e b) :
    ReadsAs (Reader.lift x >>= f) e b := by
  have := ReadsAs.bind (ReadsAs.lift x a hx) h
  simpa using this

theorem ReadsAs.bind' {α β : Type} {r : Reader α} {f : α → Reader β} {e1 e2 e : Bytes} {a : α} {b : β} (he : e = e1 ++ e2)
    (h1 : ReadsAs r e1 a) (h2 : ReadsAs (f a) e2 b) : ReadsAs (r >>= f) e b := he ▸ ReadsAs.bind h1 h2

theorem archver_gt (a : ArchVer) (h : 9 ≤ a.version) : a.gt ⟨1, 0⟩ = true ∧ a.ge ⟨9, 0⟩ = true ∧ a.lt ⟨8, 0⟩ = false ∧ a.gt ⟨7, 0⟩ = true := by
  have : 9 ≤ a.version.toNat := h
  simp only [ArchVer.gt, ArchVer.ge, ArchVer.lt, ArchVer.value]
  have e1 : (1 : UInt16).toNat = 1 := rfl
  have e2 : (9 : UInt16).toNat = 9 := rfl
  have e3 : (8 : UInt16).toNat = 8 := rfl
  have e4 : (7 : UInt16).toNat = 7 := rfl
  have e5 : (0 : UInt8).toNat = 0 := rfl
  have e6 := UInt8.toNat_lt a.fix
  simp only [e1, e2, e3, e4, e5]
  refine ⟨decide_eq_true (by omega), decide_eq_true (by omega), decide_eq_false (by omega), decide_eq_true (by omega)⟩

def HdrBase.bits (h : HdrBase) (rv : Bool) : Nat :=
  flagBits (h.initialOffset ≠ 0) h.cryptedKey.isSome h.refHeader.isSome rv h.tapeMarks (h.sym ≠ .none) h.signed (h.salt.length > 0) (h.comprBs > 0)

theorem hdr_head (h : HdrBase) (hw : h.Writable) (rv : Bool) (goOn : Nat → Bool) (total : Nat) (was : HdrBase) :
    ∃ b, h.head rv = .ok b ∧ ReadsAs (hdrHead goOn total was) b
      ({ h with signed := false, hasKdf := was.hasKdf, salt := [], iterations := PRE10_ITER, kdfHash := .sha1, comprBs := 0 }, h.bits rv) := by
  have hbits : h.flags rv = .ok (h.bits rv) := flagBits_ok _ _ _ _ _ _ _ _ _
  obtain ⟨f1, f2, f3, f4, f5, f6, f7, f8, f9, f10, f11, f12, f13, f14⟩ := flagBits_facts (h.initialOffset ≠ 0) h.cryptedKey.isSome h.refHeader.isSome rv h.tapeMarks (h.sym ≠ .none) h.signed (h.salt.length > 0) (h.comprBs > 0)
  rw [show flagBits (h.initialOffset ≠ 0) h.cryptedKey.isSome h.refHeader.isSome rv h.tapeMarks (h.sym ≠ .none) h.signed (h.salt.length > 0) (h.comprBs > 0) = h.bits rv from rfl] at *
  obtain ⟨v1, v2, v3, v4⟩ := archver_gt _ hw.ver
  obtain ⟨fb, e1, e2⟩ := C24_flags (h.bits rv) (by omega) (by
    intro j
    by_cases j0 : j = 0
    · subst j0; exact f3
    by_cases j1 : j = 1
    · subst j1; exact f4
    · exact Nat.testBit_lt_two_pow (Nat.lt_of_lt_of_le f1 (show 2 ^ 16 ≤ 2 ^ (8 * j) from Nat.pow_le_pow_right (by omega) (by omega))))
  obtain ⟨rb, r1, r2⟩ : ∃ rb, h.refBytes = .ok rb ∧ ReadsAs (if h.refHeader.isSome = true then (do let r ← sliceRead goOn none total; pure (some r)) else pure none : Reader (Option SliceHdr)) rb h.refHeader := by
    unfold HdrBase.refBytes
    cases hr : h.refHeader with
    | none => exact ⟨[], rfl, ReadsAs.pure _⟩
    | some r =>
      obtain ⟨b, g1, g2⟩ := slice_ref r (hw.ref r hr) goOn total
      refine ⟨b, by simp [hw.layout, g1], ?_⟩
      simp only [Option.isSome_some, if_true]
      exact ReadsAs.bind_pure g2 rfl
  refine ⟨_, by unfold HdrBase.head; rw [hbits]; simp only [bind, Except.bind]; rw [if_neg (by rw [f2]; simp), e1, r1], ?_⟩
  unfold hdrHead
  refine ReadsAs.bind (a := h.edition) (by have := C21_roundtrip h.edition was.edition; rwa [if_pos (show h.edition.version ≥ 8 from by
    have : 9 ≤ h.edition.version.toNat := hw.ver
    show 8 ≤ h.edition.version.toNat
    omega)] at this) ?_
  refine ReadsAs.bind (ReadsAs.readByte _) (ReadsAs.lift_bind (charCompr_char _) (ReadsAs.bind (getStr_putStr _ hw.line) ?_))
  rw [v1, if_pos rfl]
  refine ReadsAs.bind e2 (ReadsAs.lift_bind f5 ?_)
  refine ReadsAs.bind (a := h.initialOffset) ?_ (ReadsAs.lift_bind f10 ?_)
  · by_cases h0 : h.initialOffset = 0
    · simp [h0]; exact ReadsAs.pure _
    · simp [h0]; exact getInt_putInt _
  refine ReadsAs.bind (a := h.sym) ?_ (ReadsAs.lift_bind f9 ?_)
  · rw [v2]
    by_cases h0 : h.sym = .none
    · simp [h0]; exact ReadsAs.pure _
    · simp [h0]; exact ReadsAs.bind_pure (ReadsAs.readByte _) (by rw [charCrypto_char]; rfl)
  rw [v3]
  simp only [Bool.false_and, Bool.false_eq_true, if_false]
  refine ReadsAs.lift_bind f6 (ReadsAs.bind (a := h.cryptedKey) ?_ (ReadsAs.lift_bind f14 (ReadsAs.lift_bind f7 ?_)))
  · cases h.cryptedKey with
    | none => simp; exact ReadsAs.pure _
    | some k =>
      simp only [Option.isSome_some, if_true]
      exact ReadsAs.bind (getInt_putInt _) (ReadsAs.bind_pure (ReadsAs.readExact _ _ rfl) rfl)
  simp only [Bool.false_and, Bool.false_eq_true, if_false]
  refine ReadsAs.bind_pure r2 ?_
  rw [← hw.layout, ← hw.ciph]

theorem hdr_tail (h : HdrBase) (hw : h.Writable) (rv k0 : Bool) (hk0 : k0 = false) :
    ReadsAs (hdrTail { h with signed := false, hasKdf := k0, salt := [], iterations := PRE10_ITER, kdfHash := .sha1, comprBs := 0 } (h.bits rv)) h.tail h := by
  obtain ⟨f1, f2, f3, f4, f5, f6, f7, f8, f9, f10, f11, f12, f13, f14⟩ := flagBits_facts (h.initialOffset ≠ 0) h.cryptedKey.isSome h.refHeader.isSome rv h.tapeMarks (h.sym ≠ .none) h.signed (h.salt.length > 0) (h.comprBs > 0)
  rw [show flagBits (h.initialOffset ≠ 0) h.cryptedKey.isSome h.refHeader.isSome rv h.tapeMarks (h.sym ≠ .none) h.signed (h.salt.length > 0) (h.comprBs > 0) = h.bits rv from rfl] at *
  unfold hdrTail HdrBase.tail
  refine ReadsAs.lift_bind f11 (ReadsAs.lift_bind f12 (ReadsAs.bind (a := { h with comprBs := 0 }) ?_ (ReadsAs.lift_bind f13 ?_)))
  · by_cases hs : h.salt = []
    · obtain ⟨q1, q2, q3⟩ := hw.nokdf hs
      simp only [hs, List.length_nil, Nat.lt_irrefl, gt_iff_lt, decide_false, Bool.false_eq_true, if_false]
      have : ({ h with comprBs := 0 } : HdrBase) = { h with hasKdf := k0, salt := [], iterations := PRE10_ITER, kdfHash := .sha1, comprBs := 0 } := by
        rw [hk0, ← q3, ← q1, ← q2, ← hs]
      have hp := ReadsAs.pure ({ h with hasKdf := k0, salt := [], iterations := PRE10_ITER, kdfHash := .sha1, comprBs := 0 } : HdrBase)
      rw [← this] at hp ⊢
      simpa only [hs] using hp
    · obtain ⟨q1, q2⟩ := hw.kdf hs
      have hl : h.salt.length > 0 := List.length_pos_iff.mpr hs
      simp only [hl, decide_true, if_true]
      refine ReadsAs.bind (getInt_putInt _) (ReadsAs.bind (a := h.salt) ?_ (ReadsAs.bind (getInt_putInt _) (ReadsAs.bind' (a := h.kdfHash.char) (List.append_nil _).symm (fun _ => rfl) (ReadsAs.lift_bind (charHash_char _) ?_))))
      · intro rest
        unfold getStrSize
        rw [if_pos (by simp)]
        simp
      · rw [if_neg q2, q1]
        exact ReadsAs.pure _
  · by_cases hs : h.comprBs = 0
    · simp only [hs, gt_iff_lt, Nat.lt_irrefl, decide_false, Bool.false_eq_true, if_false]
      refine ReadsAs.bind_pure (ReadsAs.pure 0) ?_
      rw [← hs]
    · simp only [gt_iff_lt, Nat.pos_of_ne_zero hs, decide_true, if_true]
      exact ReadsAs.bind_pure (getInt_putInt _) rfl

/-- The header of the archive of reference: it has been read, so its initial offset is known. -/
theorem hdr_plain (h : HdrBase) (hw : h.Writable) (hi : h.initialOffset ≠ 0) (goOn : Nat → Bool) (total : Nat) :
    ∃ b, h.plain = .ok b ∧ ReadsAs (hdrReadPlain goOn total) b h := by
  obtain ⟨a, h1, h2⟩ := hdr_head h hw false goOn total HdrBase.empty
  refine ⟨a ++ h.tail, by unfold HdrBase.plain; rw [h1]; rfl, ?_⟩
  unfold hdrReadPlain
  refine ReadsAs.bind h2 ?_
  have hf := (flagBits_facts (h.initialOffset ≠ 0) h.cryptedKey.isSome h.refHeader.isSome false h.tapeMarks (h.sym ≠ .none) h.signed (h.salt.length > 0) (h.comprBs > 0)).2.2.2.2.2.2.2.1
  refine ReadsAs.lift_bind hf ?_
  simp only [Bool.false_eq_true, if_false]
  refine ReadsAs.bind_pure (hdr_tail h hw false _ rfl) ?_
  rw [hw.known]
  simp only [Bool.false_eq_true, if_false]
  funext s
  simp only [hdrDone, bind_run, posOf, if_neg hi]

/-- A complete archive header: when it remembers an archive of reference, the header of that one has been read from it. -/
structure Hdr.Writable (h : Hdr) : Prop where
  wb : h.base.Writable
  wr : ∀ r ∈ h.refVersion, r.Writable ∧ r.initialOffset ≠ 0
  wo : h.refVersion = none → h.refOffset = 0

theorem hdr_body (h : Hdr) (hw : h.Writable) (goOn : Nat → Bool) (total : Nat) (was : HdrBase) (hk : was.hasKdf = false) :
    ∃ b fl, h.body = .ok b ∧ ReadsAs (hdrReadBody goOn total was) b (h, fl) := by
  obtain ⟨base, rv, off⟩ := h
  obtain ⟨wb, wr, wo⟩ := hw
  simp only at wb wr wo
  cases rv with
  | none =>
    obtain ⟨a, h1, h2⟩ := hdr_head base wb false goOn total was
    refine ⟨a ++ base.tail, base.bits false, by unfold Hdr.body HdrBase.plain; simp only; rw [h1]; rfl, ?_⟩
    have hf := (flagBits_facts (base.initialOffset ≠ 0) base.cryptedKey.isSome base.refHeader.isSome false base.tapeMarks (base.sym ≠ .none) base.signed (base.salt.length > 0) (base.comprBs > 0)).2.2.2.2.2.2.2.1
    unfold hdrReadBody
    refine ReadsAs.bind h2 (ReadsAs.lift_bind hf ?_)
    simp only [Bool.false_eq_true, if_false]
    refine ReadsAs.bind' (e1 := []) (e2 := base.tail) rfl (ReadsAs.pure _) ?_
    refine ReadsAs.bind_pure (hdr_tail base wb false _ hk) ?_
    rw [wo rfl]
  | some r =>
    obtain ⟨a, h1, h2⟩ := hdr_head base wb true goOn total was
    obtain ⟨b, g1, g2⟩ := hdr_plain r (wr r rfl).1 (wr r rfl).2 goOn total
    refine ⟨a ++ (b ++ (putInt off ++ base.tail)), base.bits true, by unfold Hdr.body; simp only; rw [h1, g1]; rfl, ?_⟩
    have hf := (flagBits_facts (base.initialOffset ≠ 0) base.cryptedKey.isSome base.refHeader.isSome true base.tapeMarks (base.sym ≠ .none) base.signed (base.salt.length > 0) (base.comprBs > 0)).2.2.2.2.2.2.2.1
    unfold hdrReadBody
    refine ReadsAs.bind h2 (ReadsAs.lift_bind hf ?_)
    simp only [if_true]
    refine ReadsAs.bind' (e1 := b ++ putInt off) (by rw [List.append_assoc]) (ReadsAs.bind g2 (ReadsAs.bind_pure (getInt_putInt off) rfl)) ?_
    exact ReadsAs.bind_pure (hdr_tail base wb true _ hk) rfl

theorem eqv_symm (a b : Crc) (h : a.eqv b = .ok true) : b.eqv a = .ok true := by
  unfold Crc.eqv at h ⊢
  by_cases h1 : a.impl ≠ b.impl
  · rw [if_pos h1] at h; cases h
  · rw [if_neg h1] at h
    by_cases h2 : a.st.cyc.length ≠ b.st.cyc.length
    · rw [if_pos h2] at h; cases h
    · rw [if_neg h2] at h
      injection h with h
      have he := (tCompare_iff _ _).1 h
      rw [if_neg (fun hh => h1 (Ne.symm hh)), if_neg (fun hh => h2 (Ne.symm hh)), he, (tCompare_iff _ _).2 rfl]

theorem headerCrc_ok (b : Bytes) : ∃ c, headerCrc b = .ok c ∧ ∀ rest, ∃ c', crcRead false (c.dump ++ rest) = .ok (c', rest) ∧ c'.eqv c = .ok true := by
  obtain ⟨c, _, h1, _⟩ := C09_storage 2 _ rfl [(0, b)] []
  refine ⟨c, by rw [← h1]; simp [headerCrc, List.foldlM_cons, bind, Except.bind, crcCreate]; cases Crc.compute _ 0 b <;> rfl, fun rest => ?_⟩
  obtain ⟨c2, c', g1, g2, g3, _⟩ := C09_storage 2 _ rfl [(0, b)] rest
  rw [h1] at g1
  injection g1 with g1
  subst g1
  exact ⟨c', g2, eqv_symm _ _ g3⟩

/-- A header written by the program is read back identically (by an object that has not read key derivation parameters before),
whatever follows and wherever it is; only an unset initial offset is replaced by the position following the header. -/
theorem C24_header (h : Hdr) (hw : h.Writable) (goOn : Nat → Bool) (was : HdrBase) (hk : was.hasKdf = false) :
    ∃ b, h.write = .ok b ∧ ∀ rest total, hdrRead goOn total was (b ++ rest) =
      .ok ({ h with base := { h.base with initialOffset := if h.base.initialOffset = 0 then total - rest.length else h.base.initialOffset } }, rest) := by
  obtain ⟨c, fl, h1, _⟩ := hdr_body h hw goOn 0 was hk
  obtain ⟨k, k1, k2⟩ := headerCrc_ok c
  refine ⟨c ++ k.dump, by unfold Hdr.write; rw [h1]; simp only [bind, Except.bind]; rw [k1], ?_⟩
  intro rest total
  obtain ⟨c', fl', h1', h2'⟩ := hdr_body h hw goOn total was hk
  rw [h1] at h1'
  injection h1' with h1'
  subst h1'
  unfold hdrRead
  rw [List.append_assoc, h2']
  simp only [hw.wb.known, Bool.false_eq_true, if_false, (archver_gt _ hw.wb.ver).2.2.2, if_true]
  have ht : (c ++ (k.dump ++ rest)).take ((c ++ (k.dump ++ rest)).length - (k.dump ++ rest).length) = c := by
    rw [List.length_append, Nat.add_sub_cancel, List.take_left']
    rfl
  rw [ht, k1]
  unfold hdrCheck
  obtain ⟨k', k3, k4⟩ := k2 rest
  rw [k3]
  simp only [k4]
  rfl

theorem headerCrc_eq (b : Bytes) : headerCrc b = .ok ⟨.n, ⟨crcSpec 2 b, b.length % 2⟩⟩ := by
  have := C07_chunking 2 (by omega) .n [(0, b)]
  simp only [List.foldlM_cons, List.foldlM_nil, bind_pure, List.flatMap_cons, List.flatMap_nil, List.append_nil] at this
  exact this

theorem crcRead_dump2 (b rest : Bytes) (p : Nat) : crcRead false ((⟨.n, ⟨crcSpec 2 b, p⟩⟩ : Crc).dump ++ rest) = .ok (⟨.n, ⟨crcSpec 2 b, 0⟩⟩, rest) := by
  have := crc_storage ⟨.n, ⟨crcSpec 2 b, 0⟩⟩ ⟨rfl, by simp [crcSpec, crcImplFor, INFININT_MODE_START]⟩ rest
  exact this

/-- A header damaged within two consecutive bytes is never taken for another header: if the damaged fields can still be read up to the
same place, and the flags read are known ones, the reading fails. -/
theorem C24_damaged_header (h h' : Hdr) (goOn : Nat → Bool) (total : Nat) (was : HdrBase) (b b' k rest : Bytes) (fl start : Nat) (hb : h.body = .ok b)
    (hw : h.write = .ok (b ++ k)) (hl : b'.length = b.length) (hne : b' ≠ b) (hin : ∀ i, b'.getD i 0 ≠ b.getD i 0 → start ≤ i ∧ i < start + 2)
    (hr : hdrReadBody goOn total was (b' ++ (k ++ rest)) = .ok ((h', fl), k ++ rest)) (hf : fl &&& F_ALL = fl) (hv : h'.base.edition.gt ⟨7, 0⟩ = true) :
    hdrRead goOn total was (b' ++ (k ++ rest)) = .error .range := by
  have hk : k = (⟨.n, ⟨crcSpec 2 b, b.length % 2⟩⟩ : Crc).dump := by
    unfold Hdr.write at hw
    rw [hb] at hw
    have he : (Except.ok (b ++ (⟨.n, ⟨crcSpec 2 b, b.length % 2⟩⟩ : Crc).dump) : Res Bytes) = .ok (b ++ k) := by
      rw [← hw]
      show _ = Except.bind (headerCrc b) _
      rw [headerCrc_eq]
      rfl
    exact (List.append_cancel_left (Except.ok.inj he)).symm
  unfold hdrRead
  rw [hr]
  simp only [hv, if_true]
  split
  · rfl
  · have ht : (b' ++ (k ++ rest)).take ((b' ++ (k ++ rest)).length - (k ++ rest).length) = b' := by
      rw [List.length_append, Nat.add_sub_cancel, List.take_left']
      rfl
    rw [ht, headerCrc_eq]
    unfold hdrCheck
    rw [hk, crcRead_dump2]
    have hd := C08_detects_window 2 b' b hl start hin hne
    have he : (⟨.n, ⟨crcSpec 2 b, 0⟩⟩ : Crc).eqv ⟨.n, ⟨crcSpec 2 b', b'.length % 2⟩⟩ = .ok false := by
      unfold Crc.eqv
      simp only [ne_eq, not_true_eq_false, if_false]
      rw [if_neg (by simp [crcSpec])]
      cases hc : tCompare (crcSpec 2 b) (crcSpec 2 b') with
      | false => rfl
      | true => exact absurd ((tCompare_iff _ _).1 hc).symm hd
    simp only [he]
    rw [if_neg (fun hh => hh hf)]

/-! Cases where information is lost -/

/-- The slicing of an archive of an old format (07 or before) cannot be remembered by an isolated catalogue: with a first slice of a
different size, what is written is refused at reading. -/
theorem C24_old_reference_refused (h : SliceHdr) (ho : h.old = true) (hm : h.magic = SAUV_MAGIC) (hi : h.iname.length = LABEL_SIZE) (hs : h.firstSize ≠ h.otherSize)
    (goOn : Nat → Bool) (total : Nat) (rest : Bytes) : ∃ b, h.bytes true true = .ok b ∧ sliceRead goOn none total (b ++ rest) = .error .range := by
  refine ⟨be32 SAUV_MAGIC ++ h.iname ++ [h.flag] ++ [83] ++ putInt h.otherSize, by simp [SliceHdr.bytes, ho, hs, hm], ?_⟩
  unfold sliceRead
  simp only [List.append_assoc]
  rw [bind_run, ReadsAs.readExact (be32 SAUV_MAGIC) 4 rfl]
  simp only
  rw [show of32 (be32 SAUV_MAGIC) = SAUV_MAGIC by decide, if_neg (by simp), bind_run, ReadsAs.readExact h.iname _ hi]
  simp only
  rw [bind_run, ReadsAs.readByte h.flag]
  simp only
  rw [bind_run, ReadsAs.readByte 83]
  simp only
  rw [if_neg (by decide), if_pos trivial, bind_run, bind_run, getInt_putInt]
  rfl

/-- With slices of the same size the sizes are lost: the archive is then believed not to be sliced. -/
theorem C24_old_reference_lost (h : SliceHdr) (ho : h.old = true) (hm : h.magic = SAUV_MAGIC) (hi : h.iname.length = LABEL_SIZE) (hs : h.firstSize = h.otherSize)
    (goOn : Nat → Bool) (total : Nat) (rest : Bytes) : ∃ b h', h.bytes true true = .ok b ∧ sliceRead goOn none total (b ++ rest) = .ok (h', rest)
      ∧ h'.firstSize = 0 ∧ h'.otherSize = 0 := by
  refine ⟨be32 SAUV_MAGIC ++ h.iname ++ [h.flag] ++ [78], ⟨SAUV_MAGIC, h.iname, h.iname, h.flag, 0, 0, sliceMin, sliceMin, true⟩, by simp [SliceHdr.bytes, ho, hs, hm], ?_, rfl, rfl⟩
  unfold sliceRead
  simp only [List.append_assoc]
  rw [bind_run, ReadsAs.readExact (be32 SAUV_MAGIC) 4 rfl]
  simp only
  rw [show of32 (be32 SAUV_MAGIC) = SAUV_MAGIC by decide, if_neg (by simp), bind_run, ReadsAs.readExact h.iname _ hi]
  simp only
  rw [bind_run, ReadsAs.readByte h.flag]
  simp only
  rw [bind_run, ReadsAs.readByte 78]
  simp only
  rw [if_pos trivial, bind_run, bind_run]
  rfl

/-- A salt cut short makes the reading loop for ever instead of being refused. -/
theorem C24_truncated_salt (n : Nat) (s : Bytes) (h : s.length < n) : getStrSize n s = .error .diverge := by
  unfold getStrSize; rw [if_neg (by omega)]

/-- A slice header and an archive header with every optional field, meeting the hypotheses. -/
def exSlice : SliceHdr := ⟨123, [1, 2, 3, 4, 5, 6, 7, 8, 9, 10], [9, 9, 9, 9, 9, 9, 9, 9, 9, 9], 84, 5000, 10000, 40, 40, false⟩
def exBase : HdrBase :=
  ⟨⟨12, 1⟩, .zstd, [104, 105], 77, .aes256, some [1, 0, 2], some exSlice, false, true, true, true, true, [5, 0, 6], 10000, .argon2, 4096⟩
def exHdr : Hdr := ⟨exBase, some exBase, 123456⟩

theorem exSlice_ref : exSlice.AsRef :=
  { new := rfl, mag := rfl, inm := rfl, dnm := rfl, set := by decide, fh := by decide, oh := by decide, fs := Or.inr (by decide), os := Or.inr (by decide), both := by decide }
theorem exBase_writable : exBase.Writable :=
  { ver := by decide, known := by decide, line := by decide, layout := rfl, ref := (by intro r hr; cases hr; exact exSlice_ref), ciph := rfl,
    nokdf := (by intro h; cases h), kdf := fun _ => ⟨rfl, by decide⟩ }
example : exHdr.Writable := ⟨exBase_writable, by intro r hr; cases hr; exact ⟨exBase_writable, by decide⟩, by intro h; cases h⟩
example : ∃ b h', { exSlice with firstHdr := 0, otherHdr := 0 }.write 0 true false = .ok (b, h') := ⟨_, _, by rfl⟩

end Dar
