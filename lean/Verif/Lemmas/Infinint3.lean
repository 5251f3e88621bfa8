import Verif.Lemmas.Infinint2
/-
Division, machine conversions and serialisation of infinint.
-/
namespace Dar

theorem Inf.lt_iff (a b : Inf) (ha : a.Wf) (hb : b.Wf) :
    a.lt b = true ↔ beVal a.field < beVal b.field := by
  unfold Inf.lt; rw [decide_eq_true_iff]; exact (Inf.difference_spec a b ha hb).1

theorem Inf.le_iff (a b : Inf) (ha : a.Wf) (hb : b.Wf) :
    a.le b = true ↔ beVal a.field ≤ beVal b.field := by
  unfold Inf.le; rw [decide_eq_true_iff]
  have := Inf.difference_spec a b ha hb
  constructor <;> intro h <;> omega

theorem Inf.eqv_iff (a b : Inf) (ha : a.Wf) (hb : b.Wf) :
    a.eqv b = true ↔ beVal a.field = beVal b.field := by
  unfold Inf.eqv; rw [decide_eq_true_iff]; exact (Inf.difference_spec a b ha hb).2

/-- `l` followed by `k` zero bytes -/
def padZeros (l : Bytes) (k : Nat) : Bytes := l ++ List.replicate k 0

theorem beVal_padZeros (l : Bytes) (k : Nat) : beVal (padZeros l k) = beVal l * 256 ^ k := by
  simp [padZeros, beVal_append, beVal_replicate_zero]

theorem shl8_pad (l : Bytes) (k : Nat) (h : beVal l ≠ 0) :
    (Inf.shl ⟨padZeros l k⟩ 8) = ⟨padZeros l (k + 1)⟩ := by
  unfold Inf.shl
  have hz : ¬ (Inf.isZero ⟨padZeros l k⟩ = true) := by
    rw [Inf.isZero_iff]; simp only [beVal_padZeros]
    have : (0:Nat) < 256 ^ k := Nat.pow_pos (by omega)
    intro h0
    rcases Nat.mul_eq_zero.mp h0 with h | h <;> omega
  rw [if_neg hz]
  simp [padZeros, ← List.replicate_succ']

theorem shr8_pad (l : Bytes) (k : Nat) (h : l ≠ []) :
    (Inf.shr ⟨padZeros l (k + 1)⟩ 8) = ⟨padZeros l k⟩ := by
  unfold Inf.shr
  have hl : 0 < l.length := List.length_pos_iff.mpr h
  have : ¬ (8 / 8 ≥ (padZeros l (k + 1)).length) := by simp [padZeros]; omega
  simp only [if_neg this]
  simp only [padZeros, List.length_append, List.length_replicate]
  simp only [Nat.mod_self, ne_eq, not_true_eq_false, if_false]
  congr 1
  have e : l.length + (k + 1) - 8 / 8 = l.length + k := by omega
  rw [e, List.take_append]
  simp [List.take_of_length_le]

theorem euclideUp_spec (fuel : Nat) (a : Inf) (l : Bytes) (hl : beVal l ≠ 0) (k : Nat)
    (hf : a.field.length + 2 ≤ fuel + (l.length + k)) (hk : l.length + k ≤ a.field.length + 1) :
    ∃ k', euclideUp fuel a ⟨padZeros l k⟩ = .ok ⟨padZeros l k'⟩ ∧
      l.length + k' = a.field.length + 1 := by
  induction fuel generalizing k with
  | zero => omega
  | succ fuel ih =>
    unfold euclideUp
    split
    · next h =>
      simp [padZeros] at h
      rw [shl8_pad l k hl]
      exact ih (k + 1) (by omega) (by omega)
    · next h =>
      simp [padZeros] at h
      exact ⟨k, rfl, by omega⟩

theorem euclideInner_spec (fuel : Nat) (a q r : Inf) (ha : a.Wf) (hq : q.Wf) (hr : r.Wf)
    (hr0 : 0 < beVal r.field) (hb : beVal a.field < fuel * beVal r.field) :
    ∃ a' q', euclideInner fuel a q r = .ok (a', q') ∧ a'.Wf ∧ q'.Wf ∧
      beVal a'.field < beVal r.field ∧
      beVal q'.field * beVal r.field + beVal a'.field
        = beVal q.field * beVal r.field + beVal a.field := by
  induction fuel generalizing a q with
  | zero => simp at hb
  | succ fuel ih =>
    unfold euclideInner
    by_cases hle : r.le a = true
    · rw [if_pos hle]
      rw [Inf.le_iff r a hr ha] at hle
      rcases Inf.sub_spec a r ha hr with h | ⟨_, z, hz, hzw, _, hzv⟩
      · omega
      · rw [hz]
        have hadd := Inf.add_spec q ⟨[1]⟩ hq
        have h1 : beVal [1] = 1 := rfl
        rw [h1] at hadd
        have e : (fuel + 1) * beVal r.field = fuel * beVal r.field + beVal r.field := by ring
        obtain ⟨a', q', h1, h2, h3, h4, h5⟩ := ih z _ hzw hadd.1 (by omega)
        refine ⟨a', q', h1, h2, h3, h4, ?_⟩
        rw [h5, hadd.2, hzv]
        have : (beVal q.field + 1) * beVal r.field = beVal q.field * beVal r.field + beVal r.field := by ring
        omega
    · rw [if_neg hle]
      rw [Inf.le_iff r a hr ha] at hle
      exact ⟨a, q, rfl, ha, hq, by omega, rfl⟩

theorem euclideOuter_spec (fuel : Nat) (a b q : Inf) (l : Bytes) (k : Nat)
    (ha : a.Wf) (hb : b.Wf) (hq : q.Wf) (hl : l ≠ []) (hbl : beVal b.field = beVal l)
    (hb0 : 0 < beVal b.field) (hf : k < fuel)
    (hlt : beVal a.field < beVal (padZeros l k)) :
    ∃ a' q', euclideOuter fuel a b q ⟨padZeros l k⟩ = .ok (a', q') ∧ a'.Wf ∧ q'.Wf ∧
      beVal a'.field < beVal b.field ∧
      beVal q'.field * beVal b.field + beVal a'.field
        = beVal q.field * beVal (padZeros l k) + beVal a.field := by
  induction fuel generalizing a q k with
  | zero => omega
  | succ fuel ih =>
    unfold euclideOuter
    have hpw : (⟨padZeros l k⟩ : Inf).Wf := by simp [Inf.Wf, padZeros, hl]
    by_cases h : b.lt ⟨padZeros l k⟩ = true
    · rw [if_pos h]
      rw [Inf.lt_iff _ _ hb hpw] at h
      simp only [beVal_padZeros, hbl] at h
      cases k with
      | zero => simp at h
      | succ k =>
        rw [shr8_pad l k hl]
        have hs := Inf.shl_spec q hq 8
        have hpw' : (⟨padZeros l k⟩ : Inf).Wf := by simp [Inf.Wf, padZeros, hl]
        have hpos : 0 < beVal (padZeros l k) := by
          rw [beVal_padZeros]; exact Nat.mul_pos (by omega) (Nat.pow_pos (by omega))
        have he : beVal (padZeros l (k + 1)) = 256 * beVal (padZeros l k) := by
          simp only [beVal_padZeros]; ring
        obtain ⟨a', q', h1, h2, h3, h4, h5⟩ := euclideInner_spec 257 a (q.shl 8) ⟨padZeros l k⟩
          ha hs.1 hpw' hpos (by simp only; omega)
        simp only [h1]
        obtain ⟨a2, q2, g1, g2, g3, g4, g5⟩ := ih a' q' k h2 h3 (by omega) h4
        refine ⟨a2, q2, g1, g2, g3, g4, ?_⟩
        simp only at h5
        rw [g5, h5, hs.2, he]; ring
    · rw [if_neg h]
      rw [Inf.lt_iff _ _ hb hpw] at h
      simp only [beVal_padZeros] at h hlt
      have hk : k = 0 := by
        rcases Nat.eq_zero_or_pos k with h0 | h0
        · exact h0
        · exfalso
          have : 256 ^ 1 ≤ 256 ^ k := Nat.pow_le_pow_right (by omega) h0
          have := Nat.mul_le_mul_left (beVal l) this
          omega
      subst hk
      refine ⟨a, q, rfl, ha, hq, by simp at hlt; omega, ?_⟩
      simp only [beVal_padZeros, hbl]; ring

theorem canon_of_pos_head {l : Bytes} (h : Canon l) (h0 : beVal l ≠ 0) :
    256 ^ (l.length - 1) ≤ beVal l := by
  rcases h with h | ⟨b, t, h, hb⟩
  · subst h; exact absurd rfl h0
  · subst h; simpa using beVal_pos_of_head b t hb

theorem reduceIfNeeded_length_le (l : Bytes) : (reduceIfNeeded l).length ≤ l.length := by
  unfold reduceIfNeeded; split
  · simp
  · split
    · unfold reduceField; split
      · simp
      · exact stripZeros_length_le _
    · simp

theorem Inf.euclide_spec (fuel : Nat) (a b : Inf) (ha : a.Wf) (hb : b.Wf)
    (hb0 : beVal b.field ≠ 0) (hf : a.field.length + 2 ≤ fuel) :
    ∃ q r, Inf.euclide fuel a b = .ok (q, r) ∧ q.Wf ∧ r.Wf ∧
      beVal q.field = beVal a.field / beVal b.field ∧
      beVal r.field = beVal a.field % beVal b.field := by
  unfold Inf.euclide
  have hz : ¬ (b.isZero = true) := by rw [Inf.isZero_iff]; exact hb0
  rw [if_neg hz]
  by_cases hlt : a.lt b = true
  · rw [if_pos hlt]
    rw [Inf.lt_iff a b ha hb] at hlt
    exact ⟨_, _, rfl, by simp [Inf.Wf], ha, by rw [Nat.div_eq_of_lt hlt]; rfl,
      by rw [Nat.mod_eq_of_lt hlt]⟩
  · rw [if_neg hlt]
    rw [Inf.lt_iff a b ha hb] at hlt
    have ca := canon_reduceIfNeeded _ ha
    have cb := canon_reduceIfNeeded _ hb
    have va := beVal_reduceIfNeeded a.field
    have vb := beVal_reduceIfNeeded b.field
    have hlen := reduceIfNeeded_length_le a.field
    simp only
    generalize reduceIfNeeded a.field = fa at *
    generalize reduceIfNeeded b.field = fb at *
    have hfb : beVal fb ≠ 0 := by omega
    have hle : fb.length ≤ fa.length := by
      by_contra hcon
      have := canon_length_lt cb (canon_ne_nil ca) (by omega); omega
    obtain ⟨k', hk1, hk2⟩ := euclideUp_spec fuel ⟨fa⟩ fb hfb 0 (by simp only; omega) (by simp only; omega)
    have e0 : padZeros fb 0 = fb := by simp [padZeros]
    rw [e0] at hk1
    simp only [hk1]
    simp only at hk2
    have hltp : beVal fa < beVal (padZeros fb k') := by
      have h1 := beVal_lt fa
      have h2 := canon_of_pos_head cb hfb
      rw [beVal_padZeros]
      have h3 : 256 ^ (fb.length - 1) * 256 ^ k' ≤ beVal fb * 256 ^ k' := Nat.mul_le_mul_right _ h2
      rw [← Nat.pow_add] at h3
      have hp : 0 < fb.length := List.length_pos_iff.mpr (canon_ne_nil cb)
      have : fb.length - 1 + k' = fa.length := by omega
      rw [this] at h3; omega
    obtain ⟨a', q', g1, g2, g3, g4, g5⟩ := euclideOuter_spec fuel ⟨fa⟩ b ⟨[0]⟩ fb k'
      (canon_ne_nil ca) hb (by simp [Inf.Wf]) (canon_ne_nil cb) vb.symm (by omega)
      (by have hp : 0 < fb.length := List.length_pos_iff.mpr (canon_ne_nil cb); omega) hltp
    refine ⟨q', a', ?_, g3, g2, ?_, ?_⟩
    · show (do let (x, y) ← euclideOuter fuel ⟨fa⟩ b ⟨[0]⟩ ⟨padZeros fb k'⟩; .ok (y, x) : Res (Inf × Inf)) = _
      rw [g1]; rfl
    all_goals
      have h0 : beVal [0] = 0 := rfl
      simp only [h0, Nat.zero_mul, Nat.zero_add, va] at g5
    · rw [← g5, Nat.mul_comm, Nat.mul_add_div (by omega), Nat.div_eq_of_lt g4]; omega
    · rw [← g5, Nat.mul_comm, Nat.mul_add_mod, Nat.mod_eq_of_lt g4]

theorem Inf.euclide_zero (fuel : Nat) (a b : Inf) (hb0 : beVal b.field = 0) :
    Inf.euclide fuel a b = .error .infinint := by
  unfold Inf.euclide
  rw [if_pos ((Inf.isZero_iff b).mpr hb0)]

/-! ### machine integers -/

theorem beBytes_length (n a : Nat) : (beBytes n a).length = n := by
  induction n generalizing a with
  | zero => rfl
  | succ n ih => simp [beBytes, ih]

theorem beVal_beBytes (n a : Nat) : beVal (beBytes n a) = a % 256 ^ n := by
  induction n generalizing a with
  | zero => simp [beBytes, beVal_nil, Nat.mod_one]
  | succ n ih =>
    simp only [beBytes, beVal_append, ih, List.length_singleton, beVal_cons, beVal_nil]
    have : (UInt8.ofNat (a % 256)).toNat = a % 256 := by simp
    rw [this]
    have := Nat.mod_mul (x := a) (a := 256) (b := 256 ^ n)
    rw [Nat.pow_succ 256 n, Nat.mul_comm (256 ^ n) 256, this]; simp; omega

theorem Inf.ofMachine_spec (size a : Nat) (h : a < 256 ^ size) :
    (Inf.ofMachine size a).Wf ∧ beVal (Inf.ofMachine size a).field = a ∧
    Canon (Inf.ofMachine size a).field := by
  have e : Inf.ofMachine size a = ⟨reduceField (beBytes size a)⟩ := by
    unfold Inf.ofMachine reduceField; split <;> simp_all
  rw [e]
  exact ⟨reduceField_ne_nil _, by rw [beVal_reduceField, beVal_beBytes, Nat.mod_eq_of_lt h],
    canon_reduceField _⟩

theorem beVal_drop_mod (l : Bytes) (k : Nat) (hk : k ≤ l.length) :
    beVal (l.drop (l.length - k)) = beVal l % 256 ^ k := by
  have h := List.take_append_drop (l.length - k) l
  have hv := beVal_append (l.take (l.length - k)) (l.drop (l.length - k))
  rw [h] at hv
  have hlt := beVal_lt (l.drop (l.length - k))
  have hlen : (l.drop (l.length - k)).length = k := by simp; omega
  rw [hlen] at hv hlt
  rw [hv, Nat.mul_comm, Nat.mul_add_mod, Nat.mod_eq_of_lt hlt]

theorem Inf.unstack_spec (size maxT : Nat) (x : Inf) (a : Nat) (hx : x.Wf)
    (hm : maxT < 256 ^ size) (h8 : maxT < 256 ^ 8) (ha : a ≤ maxT) :
    ∃ x' a', Inf.unstack size maxT x a = .ok (x', a') ∧ x'.Wf ∧
      a' = min maxT (a + beVal x.field) ∧ beVal x'.field + a' = beVal x.field + a := by
  unfold Inf.unstack
  obtain ⟨hsw, hsv, _⟩ := Inf.ofMachine_spec 8 (maxT - a) (by omega)
  simp only
  by_cases hlt : x.lt (Inf.ofMachine 8 (maxT - a)) = true
  · rw [if_pos hlt]
    rw [Inf.lt_iff _ _ hx hsw, hsv] at hlt
    have hf : (⟨reduceIfNeeded x.field⟩ : Inf).Wf := reduceIfNeeded_ne_nil _ hx
    have hfv := beVal_reduceIfNeeded x.field
    rcases Inf.sub_spec ⟨reduceIfNeeded x.field⟩ ⟨reduceIfNeeded x.field⟩ hf hf with h | ⟨_, z, hz, hzw, _, hzv⟩
    · omega
    · rw [hz]
      have htr : (List.drop ((reduceIfNeeded x.field).length - size) (reduceIfNeeded x.field)).foldl
          (fun acc (b : UInt8) => acc * 256 + b.toNat) 0 = beVal x.field := by
        show beVal _ = _
        rw [← hfv]
        by_cases hs : size ≤ (reduceIfNeeded x.field).length
        · rw [beVal_drop_mod _ _ hs, Nat.mod_eq_of_lt (by omega)]
        · have : (reduceIfNeeded x.field).length - size = 0 := by omega
          rw [this]; simp
      refine ⟨z, a + beVal x.field, ?_, hzw, by omega, ?_⟩
      · show Except.ok _ = _; rw [htr]
      · rw [hzv]; omega
  · rw [if_neg hlt]
    rw [Inf.lt_iff _ _ hx hsw, hsv] at hlt
    rcases Inf.sub_spec x (Inf.ofMachine 8 (maxT - a)) hx hsw with h | ⟨_, z, hz, hzw, _, hzv⟩
    · omega
    · rw [hz]
      exact ⟨z, maxT, rfl, hzw, by omega, by rw [hzv, hsv]; omega⟩

/-! ### serialisation -/

theorem preambleBit_shift : ∀ i, i < 8 →
    preambleBit ((0x80 : UInt8) >>> UInt8.ofNat i) = some (i + 1) ∧ ((0x80 : UInt8) >>> UInt8.ofNat i) ≠ 0 := by
  decide

theorem readPreamble_zeros (nz skip : Nat) (s : Bytes) :
    readPreamble skip (List.replicate nz 0 ++ s) = readPreamble (skip + nz) s := by
  induction nz generalizing skip with
  | zero => rfl
  | succ n ih =>
    simp only [List.replicate_succ, List.cons_append, readPreamble, if_true]
    rw [ih]; congr 1; omega

theorem readPreamble_bit (skip i : Nat) (hi : i < 8) (s : Bytes) :
    readPreamble skip (((0x80 : UInt8) >>> UInt8.ofNat i) :: s) = .ok ((skip * 8 + (i + 1)) * TG, s) := by
  have h := preambleBit_shift i hi
  simp only [readPreamble, if_neg h.2, h.1]

/-- number of zero bytes needed to justify a field of `n` bytes on a multiple of TG -/
def justif (n : Nat) : Nat := if n % TG ≠ 0 then TG - n % TG else 0

theorem justif_total (n : Nat) : justif n + n = (n / TG + if n % TG ≠ 0 then 1 else 0) * TG := by
  unfold justif TG; split <;> omega

theorem readPreamble_dump (n : Nat) (hn : 0 < n) (s : Bytes) :
    readPreamble 0 (dumpPreamble n ++ s) = .ok (justif n + n, List.replicate (justif n) 0 ++ s) := by
  rw [justif_total]
  unfold dumpPreamble
  simp only
  generalize hw : (n / TG + if n % TG ≠ 0 then 1 else 0) = width
  have hwp : 0 < width := by
    subst hw; unfold TG; split <;> omega
  have hj : (if n % TG ≠ 0 then List.replicate (TG - n % TG) (0 : UInt8) else []) = List.replicate (justif n) 0 := by
    unfold justif; split <;> simp
  rw [hj]
  by_cases hp : width % 8 = 0
  · rw [if_pos hp]
    simp only [List.append_assoc, List.singleton_append]
    rw [readPreamble_zeros]
    have h7 : (0x80 : UInt8) >>> 7 = (0x80 : UInt8) >>> UInt8.ofNat 7 := rfl
    rw [h7, List.cons_append, readPreamble_bit _ 7 (by omega)]
    congr 3; omega
  · rw [if_neg hp]
    simp only [List.append_assoc, List.singleton_append]
    rw [readPreamble_zeros, List.cons_append, readPreamble_bit _ (width % 8 - 1) (by omega)]
    congr 3; omega

theorem stripZeros_replicate (k : Nat) (l : Bytes) :
    stripZeros (List.replicate k 0 ++ l) = stripZeros l := by
  induction k with
  | zero => rfl
  | succ k ih => simp [List.replicate_succ, stripZeros, ih]

theorem reduceField_canon {l : Bytes} (h : Canon l) (k : Nat) :
    reduceField (List.replicate k 0 ++ l) = l := by
  unfold reduceField
  rw [stripZeros_replicate]
  rcases h with h | ⟨b, t, h, hb⟩
  · subst h; rfl
  · subst h; simp [stripZeros, hb]

theorem Inf.read_dump_field (l : Bytes) (h : Canon l) (rest : Bytes) :
    Inf.read (dumpPreamble l.length ++ l ++ rest) = .ok (⟨l⟩, rest) := by
  unfold Inf.read
  have hp : 0 < l.length := List.length_pos_iff.mpr (canon_ne_nil h)
  rw [List.append_assoc, readPreamble_dump _ hp]
  show (do let (f, s) ← readExact _ _; Except.ok (⟨reduceField f⟩, s) : Res (Inf × Bytes)) = _
  rw [← List.append_assoc, readExact_append' _ _ _ (by simp)]
  show (Except.ok (⟨reduceField _⟩, rest) : Res (Inf × Bytes)) = _
  rw [reduceField_canon h]

end Dar
