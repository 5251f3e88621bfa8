import Verif.Lemmas.Infinint
/-
Multiplication, shifts, bitwise operations and division of infinint.
-/
namespace Dar

/-! ### multiplication by a byte -/

theorem mulLoop_spec (arg : Nat) (ds : Bytes) (c : Nat) :
    (mulLoop arg ds c).1.length = ds.length ∧
    leVal (mulLoop arg ds c).1 + 256 ^ ds.length * (mulLoop arg ds c).2 = leVal ds * arg + c := by
  induction ds generalizing c with
  | nil => simp [mulLoop, leVal]
  | cons d ds ih =>
    have := ih ((d.toNat * arg + c) >>> 8)
    simp only [mulLoop, leVal, List.length_cons, ofNat_toNat_and]
    rw [shr8] at this ⊢
    refine ⟨by omega, ?_⟩
    have h2 := this.2
    have e : 256 ^ (ds.length + 1) * (mulLoop arg ds ((d.toNat * arg + c) / 256)).2
      = 256 * (256 ^ ds.length * (mulLoop arg ds ((d.toNat * arg + c) / 256)).2) := by ring
    have e2 : (d.toNat + 256 * leVal ds) * arg = d.toNat * arg + 256 * (leVal ds * arg) := by ring
    rw [e, e2]; omega

theorem mulLoop_carry_le (arg : Nat) (ha : arg < 256) (ds : Bytes) (c : Nat) (hc : c < 256) :
    (mulLoop arg ds c).2 < 256 := by
  induction ds generalizing c with
  | nil => simpa [mulLoop]
  | cons d ds ih =>
    simp only [mulLoop]; apply ih; rw [shr8]
    have hd := byte_lt d
    have : d.toNat * arg ≤ 255 * 255 := Nat.mul_le_mul (by omega) (by omega)
    omega

theorem Inf.mulByte_spec (x : Inf) (hx : x.Wf) (arg : UInt8) :
    (x.mulByte arg).Wf ∧ beVal (x.mulByte arg).field = beVal x.field * arg.toNat := by
  unfold Inf.mulByte
  have h := mulLoop_spec arg.toNat x.field.reverse 0
  have hc := mulLoop_carry_le arg.toNat (byte_lt arg) x.field.reverse 0 (by omega)
  generalize mulLoop arg.toNat x.field.reverse 0 = p at *
  obtain ⟨l, c⟩ := p
  simp only [List.length_reverse, leVal_reverse, Nat.add_zero] at h hc ⊢
  have hl : l ≠ [] := by
    intro h0; subst h0
    have : x.field ≠ [] := hx
    rw [← List.length_pos_iff] at this; simp at h; omega
  have key : (if c ≠ 0 then UInt8.ofNat c :: l.reverse else l.reverse) ≠ [] ∧
      beVal (if c ≠ 0 then UInt8.ofNat c :: l.reverse else l.reverse) = beVal x.field * arg.toNat := by
    split
    · refine ⟨by simp, ?_⟩
      rw [beVal_cons, beVal_reverse]
      simp only [List.length_reverse]
      have : (UInt8.ofNat c).toNat = c := by simp; omega
      rw [this, h.1]
      have := Nat.mul_comm c (256 ^ x.field.length)
      omega
    · next h0 =>
      simp at h0; subst h0
      refine ⟨by simpa using hl, ?_⟩
      rw [beVal_reverse]; omega
  split
  · exact ⟨reduceField_ne_nil _, by rw [beVal_reduceField]; exact key.2⟩
  · exact key

/-! ### shifts -/

theorem lowMask_and (k : Nat) (hk : k ≤ 8) (d : UInt8) :
    (d &&& lowMask k).toNat = d.toNat % 2 ^ (8 - k) := by
  unfold lowMask
  have h1 : 2 ^ (8 - k) - 1 < 256 := by
    have : 2 ^ (8 - k) ≤ 2 ^ 8 := Nat.pow_le_pow_right (by omega) (by omega)
    omega
  rw [UInt8.toNat_and]
  have : (UInt8.ofNat (2 ^ (8 - k) - 1)).toNat = 2 ^ (8 - k) - 1 := by simp; omega
  rw [this, Nat.and_two_pow_sub_one_eq_mod]

theorem pow_split (b : Nat) (hb : b ≤ 8) : 2 ^ (8 - b) * 2 ^ b = 256 := by
  rw [← Nat.pow_add, Nat.sub_add_cancel hb]

theorem shlLoop_length (b : Nat) (ds : Bytes) (r : UInt8) : (shlLoop b ds r).length = ds.length := by
  induction ds generalizing r with
  | nil => rfl
  | cons d ds ih => simp [shlLoop, ih]

theorem shlLoop_spec (b : Nat) (hb : b ≤ 8) (ds : Bytes) (r2 : UInt8) (p : Nat)
    (hp : p < 2 ^ (8 - b)) (hr : r2.toNat = p * 2 ^ b) :
    beVal (shlLoop b ds r2) = (p * 256 ^ ds.length + beVal ds) / 2 ^ (8 - b) := by
  have hK : 0 < 2 ^ (8 - b) := Nat.pow_pos (by omega)
  have h256 := pow_split b hb
  induction ds generalizing r2 p with
  | nil => simp [shlLoop, beVal_nil, Nat.div_eq_of_lt hp]
  | cons d ds ih =>
    have hd := byte_lt d
    simp only [shlLoop]
    have hm := lowMask_and b hb d
    rw [hm]
    have hp' : d.toNat % 2 ^ (8 - b) < 2 ^ (8 - b) := Nat.mod_lt _ hK
    have hlt : d.toNat % 2 ^ (8 - b) * 2 ^ b < 256 := by
      rw [← h256]; exact Nat.mul_lt_mul_of_pos_right hp' (Nat.pow_pos (by omega))
    have hr1 : (UInt8.ofNat ((d.toNat % 2 ^ (8 - b)) <<< b)).toNat = d.toNat % 2 ^ (8 - b) * 2 ^ b := by
      rw [Nat.shiftLeft_eq]; simp; omega
    rw [beVal_cons, shlLoop_length, ih _ _ hp' hr1, beVal_cons]
    have hq : d.toNat / 2 ^ (8 - b) < 2 ^ b := by
      rw [Nat.div_lt_iff_lt_mul hK]; rw [Nat.mul_comm, h256]; exact hd
    have hor : (UInt8.ofNat (d.toNat >>> (8 - b)) ||| r2).toNat = d.toNat / 2 ^ (8 - b) + p * 2 ^ b := by
      rw [UInt8.toNat_or, hr, Nat.shiftRight_eq_div_pow]
      have : (UInt8.ofNat (d.toNat / 2 ^ (8 - b))).toNat = d.toNat / 2 ^ (8 - b) := by
        have : 2 ^ b ≤ 2 ^ 8 := Nat.pow_le_pow_right (by omega) hb
        simp; omega
      rw [this, Nat.or_comm, Nat.mul_comm p, ← Nat.two_pow_add_eq_or_of_lt hq, Nat.add_comm]
    rw [hor]
    have hdm := Nat.div_add_mod d.toNat (2 ^ (8 - b))
    generalize hKK : 2 ^ (8 - b) = K at *
    generalize 2 ^ b = M at *
    generalize hN : 256 ^ ds.length = N at *
    have e : p * 256 ^ (d :: ds).length + (d.toNat * N + beVal ds)
        = (d.toNat % K * N + beVal ds) + K * ((d.toNat / K + p * M) * N) := by
      have : d.toNat = K * (d.toNat / K) + d.toNat % K := hdm.symm
      rw [List.length_cons, Nat.pow_succ, hN]
      calc p * (N * 256) + (d.toNat * N + beVal ds)
          = p * (N * (K * M)) + ((K * (d.toNat / K) + d.toNat % K) * N + beVal ds) := by rw [h256, ← this]
        _ = _ := by ring
    rw [e, Nat.add_mul_div_left _ _ hK]; omega

theorem Inf.isZero_iff (x : Inf) : x.isZero = true ↔ beVal x.field = 0 := by
  unfold Inf.isZero
  induction x.field with
  | nil => simp [beVal_nil]
  | cons b l ih =>
    simp only [List.all_cons, Bool.and_eq_true, beq_iff_eq, ih, beVal_cons]
    have : (0 : Nat) < 256 ^ l.length := Nat.pow_pos (by omega)
    constructor
    · rintro ⟨rfl, h⟩; simp [h]
    · intro h
      have h1 : b.toNat * 256 ^ l.length = 0 := by omega
      have h2 : b.toNat = 0 := by
        rcases Nat.mul_eq_zero.mp h1 with h | h <;> omega
      exact ⟨UInt8.toNat_inj.mp (by simpa using h2), by omega⟩

theorem Inf.shl_spec (x : Inf) (hx : x.Wf) (n : Nat) :
    (x.shl n).Wf ∧ beVal (x.shl n).field = beVal x.field * 2 ^ n := by
  unfold Inf.shl
  split
  · next h => rw [Inf.isZero_iff] at h; exact ⟨hx, by simp [h]⟩
  · simp only
    have hx' : x.field ≠ [] := hx
    split
    · next hb =>
      refine ⟨?_, ?_⟩
      · simp only [Inf.Wf]; intro h0
        have := congrArg List.length h0
        simp [shlLoop_length] at this
      · rw [shlLoop_spec (n % 8) (by omega) _ 0 0 (Nat.pow_pos (by omega)) (by simp)]
        rw [beVal_append, beVal_replicate_zero]
        simp only [Nat.zero_mul, Nat.zero_add, List.length_replicate, Nat.add_zero]
        have h256 := pow_split (n % 8) (by omega)
        have e : 2 ^ n = 256 ^ (n / 8) * 2 ^ (n % 8) := by
          have : (256 : Nat) = 2 ^ 8 := rfl
          rw [this, ← Nat.pow_mul, ← Nat.pow_add, Nat.div_add_mod]
        rw [e, Nat.pow_succ]
        have : beVal x.field * (256 ^ (n / 8) * 256)
          = beVal x.field * (256 ^ (n / 8) * 2 ^ (n % 8)) * 2 ^ (8 - n % 8) := by
          rw [← h256]; ring
        rw [this, Nat.mul_div_cancel _ (Nat.pow_pos (by omega))]
    · next hb =>
      simp at hb
      refine ⟨by simp [Inf.Wf, hx'], ?_⟩
      rw [beVal_append, beVal_replicate_zero]
      have e : 2 ^ n = 256 ^ (n / 8) := by
        have : (256 : Nat) = 2 ^ 8 := rfl
        rw [this, ← Nat.pow_mul]; congr 1; omega
      simp [e]

theorem shrLoop_eq (b : Nat) (hb : b ≤ 8) (ds : Bytes) (r : UInt8) :
    shrLoop b ds r = shlLoop (8 - b) ds r := by
  induction ds generalizing r with
  | nil => rfl
  | cons d ds ih =>
    have : 8 - (8 - b) = b := by omega
    simp [shrLoop, shlLoop, ih, this]

theorem beVal_take_drop (l : Bytes) (k : Nat) (hk : k ≤ l.length) :
    beVal (l.take (l.length - k)) = beVal l / 256 ^ k := by
  have h := List.take_append_drop (l.length - k) l
  have hv := beVal_append (l.take (l.length - k)) (l.drop (l.length - k))
  rw [h] at hv
  have hlt := beVal_lt (l.drop (l.length - k))
  have hlen : (l.drop (l.length - k)).length = k := by simp; omega
  rw [hlen] at hv hlt
  rw [hv, Nat.mul_comm, Nat.mul_add_div (Nat.pow_pos (by omega)), Nat.div_eq_of_lt hlt]; omega

theorem Inf.shr_spec (x : Inf) (hx : x.Wf) (n : Nat) :
    (x.shr n).Wf ∧ beVal (x.shr n).field = beVal x.field / 2 ^ n := by
  unfold Inf.shr
  simp only
  have e : 2 ^ n = 256 ^ (n / 8) * 2 ^ (n % 8) := by
    have : (256 : Nat) = 2 ^ 8 := rfl
    rw [this, ← Nat.pow_mul, ← Nat.pow_add, Nat.div_add_mod]
  split
  · next h =>
    refine ⟨by simp [Inf.Wf], ?_⟩
    have hlt := beVal_lt x.field
    have : 256 ^ x.field.length ≤ 256 ^ (n / 8) := Nat.pow_le_pow_right (by omega) h
    have h1 : 1 ≤ 2 ^ (n % 8) := Nat.pow_pos (by omega)
    have : 256 ^ (n / 8) ≤ 256 ^ (n / 8) * 2 ^ (n % 8) := Nat.le_mul_of_pos_right _ h1
    rw [Nat.div_eq_of_lt (by omega)]; rfl
  · next h =>
    have hlen : (x.field.take (x.field.length - n / 8)).length = x.field.length - n / 8 := by simp
    split
    · next hb =>
      refine ⟨?_, ?_⟩
      · simp only [Inf.Wf]; intro h0
        have := congrArg List.length h0
        rw [shrLoop_eq _ (by omega), shlLoop_length, hlen] at this; simp at this; omega
      · rw [shrLoop_eq _ (by omega), shlLoop_spec (8 - n % 8) (by omega) _ 0 0 (Nat.pow_pos (by omega)) (by simp)]
        have : 8 - (8 - n % 8) = n % 8 := by omega
        rw [this, beVal_take_drop _ _ (by omega), e]
        simp [Nat.div_div_eq_div_mul]
    · next hb =>
      simp at hb
      refine ⟨?_, ?_⟩
      · simp only [Inf.Wf]; intro h0
        have := congrArg List.length h0
        rw [hlen] at this; simp at this; omega
      · rw [beVal_take_drop _ _ (by omega), e, hb]; simp

/-! ### multiplication -/

theorem mulFold_spec (y : Inf) (hy : y.Wf) (ds : Bytes) (ret : Inf) (hr : ret.Wf) :
    (ds.foldl (fun ret d => (ret.shl 8).add (y.mulByte d)) ret).Wf ∧
    beVal (ds.foldl (fun ret d => (ret.shl 8).add (y.mulByte d)) ret).field
      = beVal ret.field * 256 ^ ds.length + beVal ds * beVal y.field := by
  induction ds generalizing ret with
  | nil => simp [beVal_nil, hr]
  | cons d ds ih =>
    have h1 := Inf.shl_spec ret hr 8
    have h2 := Inf.mulByte_spec y hy d
    have h3 := Inf.add_spec (ret.shl 8) (y.mulByte d) h1.1
    have := ih _ h3.1
    simp only [List.foldl_cons]
    refine ⟨this.1, ?_⟩
    rw [this.2, h3.2, h1.2, h2.2, beVal_cons, List.length_cons]
    ring

theorem Inf.mul_spec (x y : Inf) (hy : y.Wf) :
    (x.mul y).Wf ∧ beVal (x.mul y).field = beVal x.field * beVal y.field := by
  have := mulFold_spec y hy x.field ⟨[0]⟩ (by simp [Inf.Wf])
  refine ⟨this.1, ?_⟩
  unfold Inf.mul
  rw [this.2]; simp [beVal_cons, beVal_nil]

/-! ### bitwise operations -/

theorem leVal_testBit (b : UInt8) (l : Bytes) (j : Nat) :
    (leVal (b :: l)).testBit j = if j < 8 then b.toNat.testBit j else (leVal l).testBit (j - 8) := by
  have e : leVal (b :: l) = 2 ^ 8 * leVal l + b.toNat := by simp [leVal]; omega
  rw [e, Nat.testBit_two_pow_mul_add _ (by have := byte_lt b; omega)]

theorem bitLoop_spec (op8 : UInt8 → UInt8 → UInt8) (opb : Bool → Bool → Bool)
    (hop : ∀ a b : UInt8, ∀ j, (op8 a b).toNat.testBit j = (opb (a.toNat.testBit j) (b.toNat.testBit j) && decide (j < 8)))
    (r a : Bytes) (h : a.length ≤ r.length) :
    (bitLoop op8 r a).1.length = a.length ∧
    (bitLoop op8 r a).1.length + (bitLoop op8 r a).2.length = r.length ∧
    (bitLoop op8 r a).2 = r.drop a.length ∧
    ∀ j, j < 8 * a.length → (leVal (bitLoop op8 r a).1).testBit j
      = opb ((leVal r).testBit j) ((leVal a).testBit j) := by
  induction r generalizing a with
  | nil => cases a <;> simp_all [bitLoop]
  | cons x r ih =>
    cases a with
    | nil => simp [bitLoop]
    | cons y a =>
      simp at h
      have := ih a h
      simp only [bitLoop, List.length_cons]
      refine ⟨by omega, by omega, by simpa using this.2.2.1, ?_⟩
      intro j hj
      simp only [leVal_testBit]
      split
      · next h8 => rw [hop]; simp [h8]
      · apply this.2.2.2; omega

theorem leVal_append (l m : Bytes) : leVal (l ++ m) = leVal l + 256 ^ l.length * leVal m := by
  induction l with
  | nil => simp [leVal]
  | cons b l ih => simp only [List.cons_append, leVal, ih, List.length_cons]; ring

theorem leVal_drop_testBit (r : Bytes) (k j : Nat) (hk : k ≤ r.length) :
    (leVal (r.drop k)).testBit j = (leVal r).testBit (j + 8 * k) := by
  have h := List.take_append_drop k r
  have hv := leVal_append (r.take k) (r.drop k)
  rw [h] at hv
  have hlen : (r.take k).length = k := by simp; omega
  have hlt := leVal_lt (r.take k)
  rw [hlen] at hv hlt
  have e : (256 : Nat) ^ k = 2 ^ (8 * k) := by rw [Nat.pow_mul]
  rw [e] at hv hlt
  rw [hv, Nat.add_comm, Nat.testBit_two_pow_mul_add _ hlt]
  simp

theorem leVal_testBit_ge (l : Bytes) (j : Nat) (h : 8 * l.length ≤ j) : (leVal l).testBit j = false := by
  apply Nat.testBit_lt_two_pow
  have h1 := leVal_lt l
  have e : (256 : Nat) ^ l.length = 2 ^ (8 * l.length) := by rw [Nat.pow_mul]
  have := Nat.pow_le_pow_right (n := 2) (by omega) h
  omega

/-- value of "processed part ++ rest", bit by bit -/
theorem leVal_append_testBit (l m : Bytes) (j : Nat) :
    (leVal (l ++ m)).testBit j
      = if j < 8 * l.length then (leVal l).testBit j else (leVal m).testBit (j - 8 * l.length) := by
  have hlt := leVal_lt l
  have e : (256 : Nat) ^ l.length = 2 ^ (8 * l.length) := by rw [Nat.pow_mul]
  rw [leVal_append, e, Nat.add_comm, Nat.testBit_two_pow_mul_add _ (by rw [← e]; exact hlt)]

theorem u8_testBit_ge (a : UInt8) (j : Nat) (h : 8 ≤ j) : a.toNat.testBit j = false := by
  apply Nat.testBit_lt_two_pow
  have := byte_lt a
  have h2 := Nat.pow_le_pow_right (n := 2) (by omega) h
  omega

theorem hop_and : ∀ a b : UInt8, ∀ j, (a &&& b).toNat.testBit j
    = ((a.toNat.testBit j && b.toNat.testBit j) && decide (j < 8)) := by
  intro a b j
  rw [UInt8.toNat_and, Nat.testBit_and]
  by_cases h : j < 8
  · simp [h]
  · simp [u8_testBit_ge a j (by omega)]

theorem hop_or : ∀ a b : UInt8, ∀ j, (a ||| b).toNat.testBit j
    = ((a.toNat.testBit j || b.toNat.testBit j) && decide (j < 8)) := by
  intro a b j
  rw [UInt8.toNat_or, Nat.testBit_or]
  by_cases h : j < 8
  · simp [h]
  · simp [u8_testBit_ge a j (by omega), u8_testBit_ge b j (by omega)]

theorem hop_xor : ∀ a b : UInt8, ∀ j, (a ^^^ b).toNat.testBit j
    = ((a.toNat.testBit j ^^ b.toNat.testBit j) && decide (j < 8)) := by
  intro a b j
  rw [UInt8.toNat_xor, Nat.testBit_xor]
  by_cases h : j < 8
  · simp [h]
  · simp [u8_testBit_ge a j (by omega), u8_testBit_ge b j (by omega)]

theorem leVal_map_zero (l : Bytes) : leVal (l.map (fun _ => 0)) = 0 := by
  induction l with
  | nil => rfl
  | cons b l ih => simpa [leVal] using ih

theorem Inf.land_spec (x y : Inf) (hx : x.Wf) :
    (x.land y).Wf ∧ beVal (x.land y).field = beVal x.field &&& beVal y.field := by
  unfold Inf.land
  have hle : y.field.reverse.length ≤ (widen x.field y.field).reverse.length := by
    simp [widen_length]
  have h := bitLoop_spec (· &&& ·) (· && ·) hop_and _ _ hle
  have hx' : 0 < x.field.length := List.length_pos_iff.mpr hx
  have hw := beVal_widen x.field y.field
  have hwl := widen_length x.field y.field
  generalize hp : bitLoop (· &&& ·) (widen x.field y.field).reverse y.field.reverse = p at *
  obtain ⟨l, rest⟩ := p
  simp only [List.length_reverse, leVal_reverse, hw] at h ⊢
  obtain ⟨h1, h2, h3, h4⟩ := h
  have key : leVal (l ++ rest.map (fun _ => 0)) = beVal x.field &&& beVal y.field := by
    apply Nat.eq_of_testBit_eq
    intro j
    rw [leVal_append_testBit, leVal_map_zero, Nat.testBit_and]
    split
    · exact h4 j (by omega)
    · next hj =>
      rw [← leVal_reverse y.field, leVal_testBit_ge _ j (by simp; omega)]; simp
  split
  · next hr =>
    exact ⟨reduceField_ne_nil _, by rw [beVal_reduceField, beVal_reverse]; exact key⟩
  · next hr =>
    simp at hr; subst hr
    refine ⟨?_, ?_⟩
    · simp only [Inf.Wf]; intro h0
      have : l.length = 0 := by simpa using congrArg List.length h0
      simp at h2; omega
    · rw [beVal_reverse]; simpa using key

theorem Inf.lor_spec (x y : Inf) (hx : x.Wf) :
    (x.lor y).Wf ∧ beVal (x.lor y).field = beVal x.field ||| beVal y.field := by
  unfold Inf.lor
  have hle : y.field.reverse.length ≤ (widen x.field y.field).reverse.length := by
    simp [widen_length]
  have h := bitLoop_spec (· ||| ·) (· || ·) hop_or _ _ hle
  have hx' : 0 < x.field.length := List.length_pos_iff.mpr hx
  have hw := beVal_widen x.field y.field
  have hwl := widen_length x.field y.field
  generalize hp : bitLoop (· ||| ·) (widen x.field y.field).reverse y.field.reverse = p at *
  obtain ⟨l, rest⟩ := p
  simp only [List.length_reverse, leVal_reverse, hw] at h ⊢
  obtain ⟨h1, h2, h3, h4⟩ := h
  refine ⟨?_, ?_⟩
  · simp only [Inf.Wf]; intro h0
    have := congrArg List.length h0
    simp at this h2; simp [this] at h2; omega
  · rw [beVal_reverse]
    apply Nat.eq_of_testBit_eq
    intro j
    rw [leVal_append_testBit, Nat.testBit_or]
    split
    · exact h4 j (by omega)
    · next hj =>
      rw [← leVal_reverse y.field, leVal_testBit_ge y.field.reverse j (by simp; omega), h3,
        leVal_drop_testBit _ _ _ (by simpa using hle), leVal_reverse, hw, h1]
      simp; congr 1; omega

theorem Inf.lxor_spec (x y : Inf) (hx : x.Wf) :
    (x.lxor y).Wf ∧ beVal (x.lxor y).field = beVal x.field ^^^ beVal y.field := by
  unfold Inf.lxor
  have hle : y.field.reverse.length ≤ (widen x.field y.field).reverse.length := by
    simp [widen_length]
  have h := bitLoop_spec (· ^^^ ·) (· ^^ ·) hop_xor _ _ hle
  have hx' : 0 < x.field.length := List.length_pos_iff.mpr hx
  have hw := beVal_widen x.field y.field
  have hwl := widen_length x.field y.field
  generalize hp : bitLoop (· ^^^ ·) (widen x.field y.field).reverse y.field.reverse = p at *
  obtain ⟨l, rest⟩ := p
  simp only [List.length_reverse, leVal_reverse, hw] at h ⊢
  obtain ⟨h1, h2, h3, h4⟩ := h
  refine ⟨?_, ?_⟩
  · simp only [Inf.Wf]; intro h0
    have := congrArg List.length h0
    simp at this h2; simp [this] at h2; omega
  · rw [beVal_reverse]
    apply Nat.eq_of_testBit_eq
    intro j
    rw [leVal_append_testBit, Nat.testBit_xor]
    split
    · exact h4 j (by omega)
    · next hj =>
      rw [← leVal_reverse y.field, leVal_testBit_ge y.field.reverse j (by simp; omega), h3,
        leVal_drop_testBit _ _ _ (by simpa using hle), leVal_reverse, hw, h1]
      simp; congr 1; omega

end Dar
