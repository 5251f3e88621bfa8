import Verif.Lemmas.Limitint
import Verif.Lemmas.Reader
/- infinint: shifts by infinint, power, modulo, reading of damaged data, `putInt`/`getInt`. -/
namespace Dar

theorem Inf.shiftBy_spec (sh : Inf → Nat → Inf) (f : Nat → Nat → Nat)
    (hf : ∀ v a b, f (f v a) b = f v (a + b))
    (hsh : ∀ x n, Inf.Wf x → (sh x n).Wf ∧ beVal (sh x n).field = f (beVal x.field) n)
    (fuel : Nat) (x bit : Inf) (hx : x.Wf) (hb : bit.Wf) (delta : Nat)
    (hfuel : beVal bit.field < fuel) :
    ∃ z, Inf.shiftBy sh fuel x bit delta = .ok z ∧ z.Wf ∧
      beVal z.field = f (beVal x.field) (delta + beVal bit.field) := by
  induction fuel generalizing x bit delta with
  | zero => omega
  | succ n ih =>
    obtain ⟨b', d', h1, h2, h3, h4⟩ := Inf.unstack_spec 4 (2 ^ 32 - 1) bit 0 hb (by decide) (by decide) (by omega)
    obtain ⟨w1, v1⟩ := hsh x delta hx
    simp only [Inf.shiftBy, h1]
    show ∃ z, (if d' > 0 then Inf.shiftBy sh n (sh x delta) b' d' else .ok (sh x delta)) = .ok z ∧ _
    by_cases hd : d' > 0
    · rw [if_pos hd]
      obtain ⟨z, e1, e2, e3⟩ := ih (sh x delta) b' w1 h2 d' (by omega)
      refine ⟨z, e1, e2, ?_⟩
      rw [e3, v1, hf]; congr 1; omega
    · rw [if_neg hd]
      refine ⟨_, rfl, w1, ?_⟩
      have : beVal bit.field = 0 := by omega
      rw [v1, this, Nat.add_zero]

theorem Inf.shrInf_spec (fuel : Nat) (x bit : Inf) (hx : x.Wf) (hb : bit.Wf) (hf : beVal bit.field < fuel) :
    ∃ z, Inf.shrInf fuel x bit = .ok z ∧ z.Wf ∧ beVal z.field = beVal x.field / 2 ^ beVal bit.field := by
  obtain ⟨b', d', h1, h2, h3, h4⟩ := Inf.unstack_spec 4 (2 ^ 32 - 1) bit 0 hb (by decide) (by decide) (by omega)
  obtain ⟨z, e1, e2, e3⟩ := Inf.shiftBy_spec Inf.shr (fun v n => v / 2 ^ n)
    (fun v a b => by simp only [Nat.div_div_eq_div_mul, Nat.pow_add])
    (fun x n hx => Inf.shr_spec x hx n) fuel x b' hx h2 d' (by omega)
  refine ⟨z, ?_, e2, ?_⟩
  · unfold Inf.shrInf; rw [h1]; exact e1
  · rw [e3]; congr 2; omega

theorem Inf.shlInf_spec (fuel : Nat) (x bit : Inf) (hx : x.Wf) (hb : bit.Wf) (hf : beVal bit.field < fuel) :
    ∃ z, Inf.shlInf fuel x bit = .ok z ∧ z.Wf ∧ beVal z.field = beVal x.field * 2 ^ beVal bit.field := by
  obtain ⟨b', d', h1, h2, h3, h4⟩ := Inf.unstack_spec 4 (2 ^ 32 - 1) bit 0 hb (by decide) (by decide) (by omega)
  obtain ⟨z, e1, e2, e3⟩ := Inf.shiftBy_spec Inf.shl (fun v n => v * 2 ^ n)
    (fun v a b => by simp only [Nat.pow_add, Nat.mul_assoc])
    (fun x n hx => Inf.shl_spec x hx n) fuel x b' hx h2 d' (by omega)
  refine ⟨z, ?_, e2, ?_⟩
  · unfold Inf.shlInf; rw [h1]; exact e1
  · rw [e3]; congr 2; omega

theorem Inf.power_spec (x : Inf) (hx : x.Wf) (n : Nat) :
    (x.power n).Wf ∧ beVal (x.power n).field = beVal x.field ^ n := by
  induction n with
  | zero =>
    have := Inf.ofMachine_spec 4 1 (by decide)
    exact ⟨this.1, by rw [Nat.pow_zero]; exact this.2.1⟩
  | succ n ih =>
    have := Inf.mul_spec (x.power n) x hx
    exact ⟨this.1, by rw [Nat.pow_succ, ← ih.2]; exact this.2⟩

theorem Inf.modulo_spec (fuel size : Nat) (x : Inf) (hx : x.Wf) (arg : Nat) (ha : arg < 256 ^ size)
    (hf : x.field.length + 2 ≤ fuel) :
    Inf.modulo fuel size x arg = if arg = 0 then .error .infinint else .ok (beVal x.field % arg) := by
  obtain ⟨w, v, c⟩ := Inf.ofMachine_spec size arg ha
  unfold Inf.modulo
  by_cases h0 : arg = 0
  · rw [if_pos h0, Inf.euclide_zero _ _ _ (by rw [v, h0])]; rfl
  · rw [if_neg h0]
    obtain ⟨q, r, e, _, hr, _, hv⟩ := Inf.euclide_spec fuel x _ hx w (by rw [v]; exact h0) hf
    rw [e]
    show (if (r.field.take (r.field.length - size)).all (· == 0) then
      Except.ok (beVal (r.field.drop (r.field.length - size))) else Except.error Err.bug : Res Nat) = _
    rw [v] at hv
    have hlt : beVal r.field < 256 ^ size := by
      rw [hv]; exact Nat.lt_trans (Nat.mod_lt _ (by omega)) ha
    have hsplit : beVal r.field = beVal (r.field.take (r.field.length - size)) * 256 ^ (r.field.drop (r.field.length - size)).length
        + beVal (r.field.drop (r.field.length - size)) := by
      rw [← beVal_append, List.take_append_drop]
    have hz : beVal (r.field.take (r.field.length - size)) = 0 := by
      by_cases hs : size ≤ r.field.length
      · have hl : (r.field.drop (r.field.length - size)).length = size := by simp; omega
        rw [hl] at hsplit
        rcases Nat.eq_zero_or_pos (beVal (r.field.take (r.field.length - size))) with h | h
        · exact h
        · have := Nat.mul_le_mul_right (256 ^ size) h
          omega
      · have : r.field.length - size = 0 := by omega
        rw [this]; rfl
    have hall : (r.field.take (r.field.length - size)).all (· == 0) = true :=
      (Inf.isZero_iff ⟨_⟩).2 hz
    rw [if_pos hall]
    rw [hz] at hsplit
    congr 1
    omega

theorem Inf.byteAt_spec (x : Inf) (i : Nat) : (x.byteAt i).toNat = beVal x.field / 256 ^ i % 256 := by
  unfold Inf.byteAt
  obtain ⟨f⟩ := x
  simp only
  by_cases h : i < f.length
  · rw [if_pos h]
    have e : f = f.take (f.length - (i + 1)) ++ f.drop (f.length - (i + 1)) := (List.take_append_drop ..).symm
    have hd : f.drop (f.length - (i + 1)) = f.getD (f.length - (i + 1)) 0 :: f.drop (f.length - i) := by
      rw [List.drop_eq_getElem_cons (by omega), List.getD_eq_getElem?_getD, List.getElem?_eq_getElem (by omega)]
      simp only [Option.getD_some]
      congr 2; omega
    generalize hb : f.getD (f.length - (i + 1)) 0 = b at *
    have hl : (f.drop (f.length - i)).length = i := by simp; omega
    have hv : beVal f = (beVal (f.take (f.length - (i + 1))) * 256 + b.toNat) * 256 ^ i + beVal (f.drop (f.length - i)) := by
      conv => lhs; rw [e, hd]
      rw [beVal_append, beVal_cons, List.length_cons, hl, Nat.pow_succ]
      ring
    have hlt := beVal_lt (f.drop (f.length - i))
    rw [hl] at hlt
    rw [hv, Nat.mul_comm _ (256 ^ i), Nat.mul_add_div (Nat.pow_pos (by omega)), Nat.div_eq_of_lt hlt]
    have := byte_lt b
    omega
  · rw [if_neg h]
    have h1 := beVal_lt f
    have h2 : 256 ^ f.length ≤ 256 ^ i := Nat.pow_le_pow_right (by omega) (by omega)
    rw [Nat.div_eq_of_lt (by omega)]; rfl

/-! ### reading -/

theorem readPreamble_safe (skip : Nat) (s : Bytes) (n : Nat) (rest t : Bytes)
    (h : readPreamble skip s = .ok (n, rest)) : readPreamble skip (s ++ t) = .ok (n, rest ++ t) := by
  induction s generalizing skip with
  | nil => cases h
  | cons a s ih =>
    simp only [readPreamble, List.cons_append] at h ⊢
    by_cases ha : a = 0
    · rw [if_pos ha] at h ⊢; exact ih _ h
    · rw [if_neg ha] at h ⊢
      cases hp : preambleBit a with
      | none => rw [hp] at h; cases h
      | some pos =>
        rw [hp] at h
        injection h with h; injection h with h1 h2
        subst h1; subst h2; rfl

theorem Inf.read_safe : StreamSafe Inf.read := by
  have h : Inf.read = (StateT.bind (readPreamble 0) fun n =>
      StateT.bind (readExact n) fun f => (pure ⟨reduceField f⟩ : Reader Inf)) := rfl
  rw [h]
  exact StreamSafe.bind (r := (readPreamble 0 : Reader Nat)) (fun s v rest t => readPreamble_safe 0 s v rest t)
    (fun n => StreamSafe.bind (StreamSafe.readExact n) fun f => StreamSafe.pure _)

/-- a preamble byte with several bits set is refused -/
theorem preambleBit_none (a : UInt8) (h : ∀ i, i < 8 → a ≠ 0x80 >>> UInt8.ofNat i) : preambleBit a = none := by
  have key : ∀ k : Fin 256, preambleBit (UInt8.ofNat k.val) = none ∨
      ∃ i, i < 8 ∧ UInt8.ofNat k.val = 0x80 >>> UInt8.ofNat i := by decide +kernel
  have := key ⟨a.toNat, byte_lt a⟩
  simp only [UInt8.ofNat_toNat] at this
  rcases this with h1 | ⟨i, hi, h1⟩
  · exact h1
  · exact absurd h1 (h i hi)

theorem readPreamble_bad (k : Nat) (skip : Nat) (a : UInt8) (ha : a ≠ 0)
    (h : ∀ i, i < 8 → a ≠ 0x80 >>> UInt8.ofNat i) (s : Bytes) :
    readPreamble skip (List.replicate k 0 ++ a :: s) = .error .range := by
  induction k generalizing skip with
  | zero => simp [readPreamble, ha, preambleBit_none a h]
  | succ k ih => simp [List.replicate_succ, readPreamble, ih]

/-! ### `putInt`, `getInt` -/

theorem Inf.ofNat_spec (n : Nat) : Canon (Inf.ofNat n).field ∧ beVal (Inf.ofNat n).field = n := by
  refine ⟨canon_reduceField _, ?_⟩
  unfold Inf.ofNat
  rw [beVal_reduceField, beVal_beBytes]
  apply Nat.mod_eq_of_lt
  rw [show (256 : Nat) = 2 ^ 8 from rfl, ← Nat.pow_mul]
  calc n < 2 ^ (Nat.log2 n + 1) := Nat.lt_log2_self
    _ ≤ _ := Nat.pow_le_pow_right (by omega) (by omega)

theorem putInt_eq (n : Nat) : putInt n = dumpPreamble (Inf.ofNat n).field.length ++ (Inf.ofNat n).field :=
  Inf.dump_eq_of_val _ (canon_ne_nil (Inf.ofNat_spec n).1) _ (Inf.ofNat_spec n).1 rfl

theorem getInt_putInt (n : Nat) : ReadsAs getInt (putInt n) n := by
  intro rest
  rw [putInt_eq]
  unfold getInt
  rw [Inf.read_dump_field _ (Inf.ofNat_spec n).1]
  show (Except.ok (beVal (Inf.ofNat n).field, rest) : Res (Nat × Bytes)) = _
  rw [(Inf.ofNat_spec n).2]

theorem getInt_safe : StreamSafe getInt := by
  have h : getInt = (StateT.bind Inf.read fun x => (pure (beVal x.field) : Reader Nat)) := rfl
  rw [h]
  exact StreamSafe.bind Inf.read_safe fun _ => StreamSafe.pure _

theorem putInt_ne_nil (n : Nat) : putInt n ≠ [] := by
  rw [putInt_eq]; simp [canon_ne_nil (Inf.ofNat_spec n).1]

end Dar
