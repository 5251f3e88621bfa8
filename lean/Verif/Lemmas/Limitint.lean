import Verif.Model.Limitint
import Verif.Lemmas.Infinint3
/- Lemmas on the bounded integers of Verif.Model.Limitint. -/
namespace Dar

theorem hp2Loop_spec (val n i : Nat) (hi : i = 0 ∨ 2 ^ i ≤ val) (hn : val < 2 ^ (i + n + 1)) :
    (hp2Loop val n i = 0 ∧ val ≤ 1) ∨ (2 ^ hp2Loop val n i ≤ val ∧ val < 2 ^ (hp2Loop val n i + 1)) := by
  induction n generalizing i with
  | zero =>
    simp only [hp2Loop]
    rcases hi with rfl | hi
    · have : val < 2 := by simpa using hn
      exact Or.inl ⟨rfl, by omega⟩
    · exact Or.inr ⟨hi, by simpa using hn⟩
  | succ n ih =>
    simp only [hp2Loop]
    by_cases h : val >>> i > 1
    · rw [if_pos h]
      apply ih
      · right
        rw [Nat.shiftRight_eq_div_pow] at h
        have := (Nat.le_div_iff_mul_le (Nat.two_pow_pos i)).1 h
        rw [Nat.pow_succ]; omega
      · have : i + 1 + n + 1 = i + (n + 1) + 1 := by omega
        rw [this]; exact hn
    · rw [if_neg h]
      rw [Nat.shiftRight_eq_div_pow] at h
      have h2 : val < 2 ^ (i + 1) := by
        rw [Nat.pow_succ]
        have := (Nat.div_lt_iff_lt_mul (Nat.two_pow_pos i)).1 (show val / 2 ^ i < 2 by omega)
        omega
      rcases hi with rfl | hi
      · left; exact ⟨rfl, by have : val < 2 := by simpa using h2
                             omega⟩
      · right; exact ⟨hi, h2⟩

theorem modulus_two (w : Nat) : Lim.modulus w = 2 ^ (8 * w) := by
  unfold Lim.modulus; rw [show (256 : Nat) = 2 ^ 8 from rfl, ← Nat.pow_mul]

/-- the loop of int_tools_higher_power_of_2 computes the position of the highest bit set -/
theorem hp2_spec (w val : Nat) (h : val < Lim.modulus w) :
    (hp2 w val = 0 ∧ val ≤ 1) ∨ (2 ^ hp2 w val ≤ val ∧ val < 2 ^ (hp2 w val + 1)) := by
  apply hp2Loop_spec _ _ _ (Or.inl rfl)
  rw [modulus_two] at h
  calc val < 2 ^ (8 * w) := h
    _ ≤ _ := Nat.pow_le_pow_right (by omega) (by omega)

theorem hp2_lt (w val : Nat) (h : val < Lim.modulus w) : val < 2 ^ (hp2 w val + 1) := by
  rcases hp2_spec w val h with ⟨h0, h1⟩ | h1
  · rw [h0]; simp; omega
  · exact h1.2

theorem hp2_le (w val : Nat) (h : val < Lim.modulus w) (hw : 0 < w) : hp2 w val < 8 * w := by
  rcases hp2_spec w val h with ⟨h0, h1⟩ | h1
  · omega
  · rw [modulus_two] at h
    exact (Nat.pow_lt_pow_iff_right (by omega)).1 (Nat.lt_of_le_of_lt h1.1 h)

theorem Lim.add_spec (w a b : Nat) (ha : a < Lim.modulus w) (hb : b < Lim.modulus w) :
    Lim.add w a b = if a + b < Lim.modulus w then .ok (a + b) else .error .limitint := by
  unfold Lim.add
  by_cases h : a + b < Lim.modulus w
  · simp only [Nat.mod_eq_of_lt h, if_pos h]
    rw [if_neg]; omega
  · have h2 : (a + b) % Lim.modulus w = a + b - Lim.modulus w := by
      rw [Nat.mod_eq_sub_mod (by omega), Nat.mod_eq_of_lt (by omega)]
    simp only [h2, if_neg h]
    rw [if_pos]; omega

theorem Lim.sub_spec (a b : Nat) :
    Lim.sub a b = if b ≤ a then .ok (a - b) else .error .range := by
  unfold Lim.sub
  by_cases h : b ≤ a
  · rw [if_pos h, if_neg (by omega)]
  · rw [if_neg h, if_pos (by omega)]

theorem Lim.mul_spec (w a b : Nat) (hw : 0 < w) (ha : a < Lim.modulus w) (hb : b < Lim.modulus w) :
    (Lim.mul w a b = .ok (a * b) ∧ a * b < Lim.modulus w) ∨ Lim.mul w a b = .error .limitint := by
  unfold Lim.mul
  by_cases h : hp2 w a + hp2 w b + 1 > w * 8 - 1
  · right; simp only [if_pos h]
  · have hlt : a * b < Lim.modulus w := by
      have h1 := hp2_lt w a ha
      have h2 := hp2_lt w b hb
      rw [modulus_two]
      calc a * b < 2 ^ (hp2 w a + 1) * 2 ^ (hp2 w b + 1) := Nat.mul_lt_mul'' h1 h2
        _ = 2 ^ (hp2 w a + 1 + (hp2 w b + 1)) := (Nat.pow_add ..).symm
        _ ≤ 2 ^ (8 * w) := Nat.pow_le_pow_right (by omega) (by omega)
    left
    refine ⟨?_, hlt⟩
    simp only [if_neg h, Nat.mod_eq_of_lt hlt]
    rw [if_neg]
    rintro ⟨h1, h2, h3⟩
    have : a ≤ a * b := Nat.le_mul_of_pos_right _ (by omega)
    have : b ≤ a * b := Nat.le_mul_of_pos_left _ (by omega)
    omega

/-- when the product is small enough (two bits of margin) the multiplication is not refused -/
theorem Lim.mul_ok (w a b : Nat) (ha : a < Lim.modulus w) (hb : b < Lim.modulus w)
    (h : hp2 w a + hp2 w b + 1 < w * 8) : Lim.mul w a b = .ok (a * b) := by
  have hw : 0 < w := by omega
  rcases Lim.mul_spec w a b hw ha hb with h' | h'
  · exact h'.1
  · exfalso
    have hlt : a * b < Lim.modulus w := by
      have h1 := hp2_lt w a ha
      have h2 := hp2_lt w b hb
      rw [modulus_two]
      calc a * b < 2 ^ (hp2 w a + 1) * 2 ^ (hp2 w b + 1) := Nat.mul_lt_mul'' h1 h2
        _ = 2 ^ (hp2 w a + 1 + (hp2 w b + 1)) := (Nat.pow_add ..).symm
        _ ≤ 2 ^ (8 * w) := Nat.pow_le_pow_right (by omega) (by omega)
    unfold Lim.mul at h'
    simp only [if_neg (show ¬ (hp2 w a + hp2 w b + 1 > w * 8 - 1) by omega), Nat.mod_eq_of_lt hlt] at h'
    split at h'
    · rename_i h3
      have : a ≤ a * b := Nat.le_mul_of_pos_right _ (by omega)
      have : b ≤ a * b := Nat.le_mul_of_pos_left _ (by omega)
      omega
    · cases h'

theorem Lim.power_spec (w a n : Nat) (hw : 0 < w) (ha : a < Lim.modulus w) :
    (Lim.power w a n = .ok (a ^ n) ∧ a ^ n < Lim.modulus w) ∨ Lim.power w a n = .error .limitint := by
  induction n with
  | zero =>
    left; refine ⟨rfl, ?_⟩
    show 1 < 256 ^ w
    exact Nat.one_lt_pow (by omega) (by omega)
  | succ n ih =>
    rcases ih with ⟨h1, h2⟩ | h1
    · have hp : Lim.power w a (n + 1) = Lim.mul w (a ^ n) a := by
        simp only [Lim.power, h1]; rfl
      rw [hp, Nat.pow_succ]
      exact Lim.mul_spec w _ _ hw h2 ha
    · right; simp only [Lim.power, h1]; rfl

theorem Lim.shr_spec (w a n : Nat) (ha : a < Lim.modulus w) : Lim.shr w a n = .ok (a / 2 ^ n) := by
  unfold Lim.shr machineShr
  by_cases h : n ≥ w * 8
  · rw [if_pos h]
    rw [modulus_two] at ha
    have : a < 2 ^ n := Nat.lt_of_lt_of_le ha (Nat.pow_le_pow_right (by omega) (by omega))
    rw [Nat.div_eq_of_lt this]
  · rw [if_neg h, if_pos (by omega), Nat.shiftRight_eq_div_pow]

theorem machineShl_ok (w a n : Nat) (ha : a < Lim.modulus w) (h : n + hp2 w a < w * 8) :
    machineShl w a n = .ok (a * 2 ^ n) ∧ a * 2 ^ n < Lim.modulus w := by
  have hlt : a * 2 ^ n < Lim.modulus w := by
    have h1 := hp2_lt w a ha
    rw [modulus_two]
    calc a * 2 ^ n < 2 ^ (hp2 w a + 1) * 2 ^ n := Nat.mul_lt_mul_of_pos_right h1 (Nat.two_pow_pos n)
      _ = 2 ^ (hp2 w a + 1 + n) := (Nat.pow_add ..).symm
      _ ≤ 2 ^ (8 * w) := Nat.pow_le_pow_right (by omega) (by omega)
  refine ⟨?_, hlt⟩
  unfold machineShl
  rw [if_pos (by omega), Nat.shiftLeft_eq, Nat.mod_eq_of_lt hlt]

/-- 64-bit build: left shift by a 32-bit amount is exact or refused -/
theorem Lim.shl_spec (a n : Nat) (ha : a < Lim.modulus 8) (hn : n < 2 ^ 32) :
    (Lim.shl 8 a n = .ok (a * 2 ^ n) ∧ a * 2 ^ n < Lim.modulus 8) ∨ Lim.shl 8 a n = .error .limitint := by
  have h1 := hp2_le 8 a ha (by omega)
  unfold Lim.shl
  have : (n + hp2 8 a) % 256 ^ (max 4 8) = n + hp2 8 a := by
    apply Nat.mod_eq_of_lt
    have : (256 : Nat) ^ (max 4 8) = 18446744073709551616 := by decide
    omega
  rw [this]
  by_cases h : n + hp2 8 a ≥ 8 * 8
  · right; rw [if_pos h]
  · rw [if_neg h]; left; exact machineShl_ok 8 a n ha (by omega)

theorem Lim.ofMachine_spec (w tsize a : Nat) (ha : a < 256 ^ tsize) :
    Lim.ofMachine w tsize a = if a < Lim.modulus w then .ok a else .error .limitint := by
  unfold Lim.ofMachine
  have hpos : 0 < Lim.modulus w := Nat.pow_pos (by omega)
  by_cases h : a < Lim.modulus w
  · rw [if_pos (Or.inr (by omega)), if_pos h, Nat.mod_eq_of_lt h]
  · rw [if_neg h, if_neg]
    rintro (h1 | h1)
    · have : 256 ^ tsize ≤ 256 ^ w := Nat.pow_le_pow_right (by omega) h1
      unfold Lim.modulus at h; omega
    · omega

theorem Lim.unstack_spec (w : Nat) (t : MType) (field a : Nat) (hf : field < Lim.modulus w)
    (ht : 0 < t.size) (ha : a ≤ t.max) (htw : t.max < Lim.modulus w) :
    let r := Lim.unstack w t field a
    r.1 + r.2 = field + a ∧ r.2 = min t.max (a + field) ∧ r.1 < Lim.modulus w := by
  unfold Lim.unstack
  have hstep : (t.max - a) % Lim.modulus w = t.max - a := Nat.mod_eq_of_lt (by omega)
  simp only [hstep]
  by_cases h : field < t.max - a
  · have hmax : t.max < 2 ^ (8 * t.size) ∧ (t.signed = true → t.max < 2 ^ (8 * t.size - 1)) := by
      unfold MType.max
      have h1 := Nat.two_pow_pos (8 * t.size)
      have h2 := Nat.two_pow_pos (8 * t.size - 1)
      have h3 : 2 ^ (8 * t.size - 1) ≤ 2 ^ (8 * t.size) := Nat.pow_le_pow_right (by omega) (by omega)
      split
      · exact ⟨by omega, fun _ => by omega⟩
      · rename_i h4; exact ⟨by omega, fun h5 => absurd h5 h4⟩
    have hc : t.cast field = (field : Int) := by
      unfold MType.cast
      have : field % 2 ^ (8 * t.size) = field := Nat.mod_eq_of_lt (by omega)
      simp only [this]
      rw [if_neg]
      rintro ⟨h1, h2⟩
      have := hmax.2 h1
      omega
    rw [if_pos ⟨h, by rw [hc]; omega⟩]
    exact ⟨by omega, by omega, by omega⟩
  · rw [if_neg (fun h' => h h'.1)]
    have hx : ((field : Int) - ((t.max - a : Nat) : Int)).emod (Lim.modulus w) = ((field - (t.max - a) : Nat) : Int) := by
      have : ((field : Int) - ((t.max - a : Nat) : Int)) = ((field - (t.max - a) : Nat) : Int) := by omega
      rw [this]
      exact Int.emod_eq_of_lt (by omega) (by omega)
    simp only [hx]
    simp only [Int.toNat_natCast]
    exact ⟨by omega, by omega, by omega⟩

theorem Lim.storageSize_spec (n tmp : Nat) (h : tmp < 256 ^ n) :
    tmp < 256 ^ Lim.storageSize n tmp ∧ (0 < tmp → 256 ^ (Lim.storageSize n tmp - 1) ≤ tmp) := by
  induction n generalizing tmp with
  | zero => simp at h; subst h; simp [Lim.storageSize]
  | succ n ih =>
    unfold Lim.storageSize
    by_cases h0 : tmp = 0
    · simp [h0]
    · rw [if_neg h0]
      have h8 : tmp >>> 8 = tmp / 256 := by simp [Nat.shiftRight_eq_div_pow]
      have hlt : tmp >>> 8 < 256 ^ n := by
        rw [h8]; rw [Nat.pow_succ] at h; omega
      have ⟨i1, i2⟩ := ih _ hlt
      rw [h8] at *
      generalize hk : Lim.storageSize n (tmp / 256) = k at *
      refine ⟨?_, fun _ => ?_⟩
      · rw [Nat.pow_succ]; omega
      · simp only [Nat.add_sub_cancel]
        cases k with
        | zero => simp; omega
        | succ k =>
          have h3 : 0 < tmp / 256 := by
            rcases Nat.eq_zero_or_pos (tmp / 256) with h4 | h4
            · rw [h4] at hk; cases n <;> simp [Lim.storageSize] at hk
            · exact h4
          have := i2 h3
          simp at this
          rw [Nat.pow_succ]; omega

theorem Lim.byteAt_spec (a i : Nat) : (Lim.byteAt a i).toNat = a / 256 ^ i % 256 := by
  induction i generalizing a with
  | zero => simp only [Lim.byteAt, ofNat_toNat_and]; simp
  | succ i ih =>
    simp only [Lim.byteAt]
    rw [ih, show a >>> 8 = a / 256 by simp [Nat.shiftRight_eq_div_pow], Nat.div_div_eq_div_mul,
      Nat.pow_succ, Nat.mul_comm 256]

/-! serialisation -/

/-- canonical big-endian field of a number -/
theorem canon_unique {l m : Bytes} (hl : Canon l) (hm : Canon m) (h : beVal l = beVal m) : l = m := by
  have key : ∀ (l m : Bytes), l.length = m.length → beVal l = beVal m → l = m := by
    intro l
    induction l with
    | nil => intro m h1 _; cases m with | nil => rfl | cons _ _ => simp at h1
    | cons b l ih =>
      intro m h1 h2
      cases m with
      | nil => simp at h1
      | cons c m =>
        simp only [List.length_cons, Nat.add_right_cancel_iff] at h1
        rw [beVal_cons, beVal_cons, h1] at h2
        have hl := beVal_lt l
        have hm := beVal_lt m
        rw [h1] at hl
        have hbc : b.toNat = c.toNat := by
          have e1 : (b.toNat * 256 ^ m.length + beVal l) / 256 ^ m.length = b.toNat := by
            rw [Nat.mul_comm, Nat.mul_add_div (Nat.pow_pos (by omega)), Nat.div_eq_of_lt hl]; rfl
          have e2 : (c.toNat * 256 ^ m.length + beVal m) / 256 ^ m.length = c.toNat := by
            rw [Nat.mul_comm, Nat.mul_add_div (Nat.pow_pos (by omega)), Nat.div_eq_of_lt hm]; rfl
          rw [← e1, ← e2, h2]
        have : b = c := UInt8.toNat_inj.1 hbc
        subst this
        rw [ih m h1 (by omega)]
  rcases Nat.lt_trichotomy l.length m.length with h1 | h1 | h1
  · have := canon_length_lt hm (canon_ne_nil hl) h1; omega
  · exact key l m h1 h
  · have := canon_length_lt hl (canon_ne_nil hm) h1; omega

/-- the bounded and unbounded implementations write the same bytes for the same number -/
theorem Lim.dump_eq (w field : Nat) (h : field < Lim.modulus w) :
    Lim.dump w field = dumpPreamble (reduceField (beBytes w field)).length ++ reduceField (beBytes w field)
      ∧ Canon (reduceField (beBytes w field)) ∧ beVal (reduceField (beBytes w field)) = field := by
  refine ⟨?_, canon_reduceField _, ?_⟩
  · unfold Lim.dump reduceField
    cases stripZeros (beBytes w field) <;> simp
  · rw [beVal_reduceField, beVal_beBytes]; exact Nat.mod_eq_of_lt h

theorem Inf.dump_eq_of_val (x : Inf) (hx : x.Wf) (l : Bytes) (hl : Canon l) (h : beVal l = beVal x.field) :
    x.dump = dumpPreamble l.length ++ l := by
  unfold Inf.dump
  have : reduceIfNeeded x.field = l := by
    apply canon_unique (canon_reduceIfNeeded _ hx) hl
    rw [beVal_reduceIfNeeded, h]
  simp only [this]

theorem Lim.readbeVal (l : Bytes) : Lim.read.beVal l = beVal l := rfl

theorem canon_length_le {l : Bytes} (hl : Canon l) (w : Nat) (hw : 0 < w) (h : beVal l < 256 ^ w) :
    l.length ≤ w := by
  rcases hl with rfl | ⟨b, t, rfl, hb⟩
  · simp only [List.length_singleton]; omega
  · have h1 := beVal_pos_of_head b t hb
    by_contra hc
    simp only [List.length_cons, Nat.not_le] at hc
    have : 256 ^ w ≤ 256 ^ t.length := Nat.pow_le_pow_right (by omega) (by omega)
    omega

/-- Reading with a bounded integer of `w` bytes what was written for the number `beVal l`. -/
theorem Lim.read_dump_field (w : Nat) (hw : 0 < w) (h4 : w % 4 = 0) (l : Bytes) (h : Canon l) (rest : Bytes) :
    Lim.read w (dumpPreamble l.length ++ l ++ rest) =
      if beVal l < Lim.modulus w then .ok (beVal l, rest) else .error .limitint := by
  unfold Lim.read
  have hp : 0 < l.length := List.length_pos_iff.mpr (canon_ne_nil h)
  rw [List.append_assoc, readPreamble_dump _ hp]
  show (if justif l.length + l.length > w then _ else _) = _
  by_cases hv : beVal l < Lim.modulus w
  · have hle := canon_length_le h w hw hv
    have hj : justif l.length + l.length ≤ w := by
      unfold justif TG; split <;> omega
    rw [if_neg (by omega), if_pos hv]
    have ht : (List.replicate (justif l.length) 0 ++ (l ++ rest)).take (justif l.length + l.length)
        = List.replicate (justif l.length) 0 ++ l := by
      rw [← List.append_assoc]; exact List.take_left' (by simp)
    have hd : (List.replicate (justif l.length) 0 ++ (l ++ rest)).drop (justif l.length + l.length)
        = rest := by
      rw [← List.append_assoc]; exact List.drop_left' (by simp)
    simp only [ht, hd, Lim.readbeVal]
    simp [beVal_append, beVal_replicate_zero]
  · have hgt : w < l.length := by
      by_contra hc
      have := beVal_lt l
      have h2 : 256 ^ l.length ≤ 256 ^ w := Nat.pow_le_pow_right (by omega) (by omega)
      unfold Lim.modulus at hv; omega
    rw [if_pos (by omega), if_neg hv]

end Dar
