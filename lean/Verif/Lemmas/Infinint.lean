import Verif.Model.Infinint
import Verif.Spec.Integer
import Mathlib.Tactic.Ring
/-
Helper lemmas on digit strings and the loops of infinint.
-/
namespace Dar

/-! ### value of digit strings -/

theorem foldl_be (l : Bytes) (acc : Nat) :
    l.foldl (fun acc (b : UInt8) => acc * 256 + b.toNat) acc = acc * 256 ^ l.length + beVal l := by
  unfold beVal
  induction l generalizing acc with
  | nil => simp
  | cons b l ih =>
    simp only [List.foldl_cons, List.length_cons, Nat.zero_mul, Nat.zero_add]
    rw [ih, ih (b.toNat)]; ring

theorem beVal_nil : beVal [] = 0 := rfl

theorem beVal_cons (b : UInt8) (l : Bytes) :
    beVal (b :: l) = b.toNat * 256 ^ l.length + beVal l := by
  have := foldl_be l b.toNat
  simpa [beVal] using this

theorem beVal_append (l m : Bytes) : beVal (l ++ m) = beVal l * 256 ^ m.length + beVal m := by
  have := foldl_be m (beVal l)
  rw [← this]; simp [beVal, List.foldl_append]

theorem beVal_replicate_zero (n : Nat) : beVal (List.replicate n 0) = 0 := by
  induction n with
  | zero => rfl
  | succ n ih => simp [List.replicate_succ, beVal_cons, ih]

theorem beVal_reverse (l : Bytes) : beVal l.reverse = leVal l := by
  induction l with
  | nil => rfl
  | cons b l ih =>
    simp only [List.reverse_cons, beVal_append, ih, leVal, List.length_singleton]
    simp [beVal_cons, beVal_nil]; omega

theorem leVal_reverse (l : Bytes) : leVal l.reverse = beVal l := by
  rw [← beVal_reverse, List.reverse_reverse]

theorem byte_lt (b : UInt8) : b.toNat < 256 := b.toNat_lt

theorem beVal_lt (l : Bytes) : beVal l < 256 ^ l.length := by
  induction l with
  | nil => simp [beVal_nil]
  | cons b l ih =>
    rw [beVal_cons, List.length_cons, Nat.pow_succ]
    have := byte_lt b
    have h2 : b.toNat * 256 ^ l.length ≤ 255 * 256 ^ l.length := Nat.mul_le_mul_right _ (by omega)
    omega

theorem leVal_lt (l : Bytes) : leVal l < 256 ^ l.length := by
  have := beVal_lt l.reverse
  rw [beVal_reverse] at this; simpa using this

theorem beVal_pos_of_head (b : UInt8) (l : Bytes) (h : b ≠ 0) :
    256 ^ l.length ≤ beVal (b :: l) := by
  rw [beVal_cons]
  have : 1 ≤ b.toNat := by
    rcases Nat.eq_zero_or_pos b.toNat with h0 | h0
    · exact absurd (UInt8.toNat_inj.mp (by simpa using h0)) h
    · exact h0
  have := Nat.mul_le_mul_right (256 ^ l.length) this
  omega

/-! ### reduce -/

theorem beVal_stripZeros (l : Bytes) : beVal (stripZeros l) = beVal l := by
  induction l with
  | nil => rfl
  | cons b l ih =>
    unfold stripZeros; split
    · next h => rw [ih, beVal_cons, h]; simp
    · rfl

theorem stripZeros_head (l : Bytes) : ∀ b ∈ (stripZeros l).head?, b ≠ 0 := by
  induction l with
  | nil => simp [stripZeros]
  | cons b l ih =>
    unfold stripZeros; split
    · exact ih
    · next h => simpa using h

theorem stripZeros_length_le (l : Bytes) : (stripZeros l).length ≤ l.length := by
  induction l with
  | nil => simp [stripZeros]
  | cons b l ih => unfold stripZeros; split <;> simp <;> omega

theorem reduceField_ne_nil (l : Bytes) : reduceField l ≠ [] := by
  unfold reduceField; split <;> simp_all

theorem beVal_reduceField (l : Bytes) : beVal (reduceField l) = beVal l := by
  unfold reduceField
  have := beVal_stripZeros l
  split
  · next h => rw [h] at this; rw [← this]; rfl
  · exact this

theorem reduceIfNeeded_ne_nil (l : Bytes) (h : l ≠ []) : reduceIfNeeded l ≠ [] := by
  unfold reduceIfNeeded; split
  · exact absurd rfl h
  · split
    · exact reduceField_ne_nil _
    · simp

theorem beVal_reduceIfNeeded (l : Bytes) : beVal (reduceIfNeeded l) = beVal l := by
  unfold reduceIfNeeded; split
  · rfl
  · split
    · exact beVal_reduceField _
    · rfl

/-- Canonical form: a single zero byte, or a leading non-zero byte. -/
def Canon (l : Bytes) : Prop := l = [0] ∨ ∃ b t, l = b :: t ∧ b ≠ 0

theorem canon_reduceField (l : Bytes) : Canon (reduceField l) := by
  unfold reduceField
  have := stripZeros_head l
  split
  · exact Or.inl rfl
  · next h =>
    cases h' : stripZeros l with
    | nil => exact absurd h' h
    | cons b t => rw [h'] at this; exact Or.inr ⟨b, t, rfl, this b (by simp)⟩

theorem canon_reduceIfNeeded (l : Bytes) (h : l ≠ []) : Canon (reduceIfNeeded l) := by
  unfold reduceIfNeeded; split
  · exact absurd rfl h
  · split
    · exact canon_reduceField _
    · next b l' hb => exact Or.inr ⟨b, l', rfl, hb⟩

theorem canon_ne_nil {l : Bytes} (h : Canon l) : l ≠ [] := by
  rcases h with h | ⟨b, t, h, _⟩ <;> simp [h]

theorem canon_length_lt {l m : Bytes} (hm : Canon m) (hl : l ≠ []) (h : l.length < m.length) :
    beVal l < beVal m := by
  rcases hm with hm | ⟨b, t, hm, hb⟩
  · subst hm; simp at h; exact absurd h hl
  · subst hm
    have h1 := beVal_lt l
    have h2 := beVal_pos_of_head b t hb
    simp at h
    have : 256 ^ l.length ≤ 256 ^ t.length := Nat.pow_le_pow_right (by omega) (by omega)
    omega

/-! ### comparison -/

theorem cmpDigits_spec (l m : Bytes) (h : l.length = m.length) :
    (cmpDigits l m < 0 ↔ beVal l < beVal m) ∧ (cmpDigits l m = 0 ↔ beVal l = beVal m) := by
  induction l generalizing m with
  | nil => cases m with
    | nil => simp [cmpDigits, beVal_nil]
    | cons => simp at h
  | cons a l ih => cases m with
    | nil => simp at h
    | cons b m =>
      simp at h
      unfold cmpDigits
      rw [beVal_cons, beVal_cons, h]
      split
      · next hab =>
        subst hab
        have := ih m h
        constructor
        · rw [this.1]; omega
        · rw [this.2]; omega
      · next hab =>
        have hne : a.toNat ≠ b.toNat := fun e => hab (UInt8.toNat_inj.mp e)
        have hl := beVal_lt l
        have hm := beVal_lt m
        rw [h] at hl
        have key : ∀ x y p q P : Nat, p < P → q < P → x < y → x * P + p < y * P + q := by
          intro x y p q P hp hq hxy
          have : (x + 1) * P ≤ y * P := Nat.mul_le_mul_right P hxy
          have : (x + 1) * P = x * P + P := by ring
          omega
        rcases Nat.lt_or_gt_of_ne hne with hlt | hgt
        · have := key _ _ _ _ _ hl hm hlt
          constructor <;> omega
        · have := key _ _ _ _ _ hm hl hgt
          constructor <;> omega

theorem Inf.difference_spec (a b : Inf) (ha : a.Wf) (hb : b.Wf) :
    (a.difference b < 0 ↔ beVal a.field < beVal b.field) ∧
    (a.difference b = 0 ↔ beVal a.field = beVal b.field) := by
  unfold Inf.difference
  have ca := canon_reduceIfNeeded _ ha
  have cb := canon_reduceIfNeeded _ hb
  rw [← beVal_reduceIfNeeded a.field, ← beVal_reduceIfNeeded b.field]
  generalize reduceIfNeeded a.field = fa at *
  generalize reduceIfNeeded b.field = fb at *
  simp only
  split
  · next h => have := canon_length_lt cb (canon_ne_nil ca) h; constructor <;> omega
  · split
    · next h => have := canon_length_lt ca (canon_ne_nil cb) h; constructor <;> omega
    · exact cmpDigits_spec fa fb (by omega)

/-! ### addition -/

theorem ofNat_toNat_and (s : Nat) : (UInt8.ofNat (s &&& 0xFF)).toNat = s % 256 := by
  have : s &&& 0xFF = s % 256 := Nat.and_two_pow_sub_one_eq_mod s 8
  rw [this]; simp

theorem shr8 (s : Nat) : s >>> 8 = s / 256 := by simp [Nat.shiftRight_eq_div_pow]

theorem addLoop_spec (r a : Bytes) (c : Nat) (h : a.length ≤ r.length) :
    (addLoop r a c).1.length = r.length ∧
    leVal (addLoop r a c).1 + 256 ^ r.length * (addLoop r a c).2 = leVal r + leVal a + c := by
  induction r generalizing a c with
  | nil => cases a <;> simp_all [addLoop, leVal]
  | cons x r ih =>
    cases a with
    | nil =>
      cases c with
      | zero => simp [addLoop, leVal]
      | succ c =>
        have := ih [] ((x.toNat + (c + 1)) >>> 8) (by simp)
        simp only [addLoop, leVal, List.length_cons, ofNat_toNat_and]
        refine ⟨by omega, ?_⟩
        rw [Nat.pow_succ]
        have h2 := this.2
        rw [shr8] at h2
        rw [shr8]
        simp only [leVal] at h2
        have e : 256 ^ r.length * 256 * (addLoop r [] ((x.toNat + (c + 1)) / 256)).2
          = 256 * (256 ^ r.length * (addLoop r [] ((x.toNat + (c + 1)) / 256)).2) := by ring
        omega
    | cons y a =>
      simp at h
      have := ih a ((x.toNat + y.toNat + c) >>> 8) h
      simp only [addLoop, leVal, List.length_cons, ofNat_toNat_and]
      refine ⟨by omega, ?_⟩
      rw [Nat.pow_succ]
      have h2 := this.2
      rw [shr8] at h2
      rw [shr8]
      have e : 256 ^ r.length * 256 * (addLoop r a ((x.toNat + y.toNat + c) / 256)).2
          = 256 * (256 ^ r.length * (addLoop r a ((x.toNat + y.toNat + c) / 256)).2) := by ring
      omega

theorem addLoop_carry_le (r a : Bytes) (c : Nat) (hc : c ≤ 1) : (addLoop r a c).2 ≤ 1 := by
  induction r generalizing a c with
  | nil => simpa [addLoop]
  | cons x r ih =>
    have hx := byte_lt x
    cases a with
    | nil =>
      cases c with
      | zero => simp [addLoop]
      | succ c => simp only [addLoop]; apply ih; rw [shr8]; omega
    | cons y a =>
      have hy := byte_lt y
      simp only [addLoop]; apply ih; rw [shr8]; omega

theorem beVal_widen (l m : Bytes) : beVal (widen l m) = beVal l := by
  unfold widen; rw [beVal_append, beVal_replicate_zero]; simp

theorem widen_length (l m : Bytes) : (widen l m).length = max l.length m.length := by
  unfold widen; simp; omega

theorem Inf.add_spec (x y : Inf) (hx : x.Wf) :
    (x.add y).Wf ∧ beVal (x.add y).field = beVal x.field + beVal y.field := by
  unfold Inf.add
  have h := addLoop_spec (widen x.field y.field).reverse y.field.reverse 0
    (by simp [widen_length])
  have hc := addLoop_carry_le (widen x.field y.field).reverse y.field.reverse 0 (by omega)
  generalize addLoop (widen x.field y.field).reverse y.field.reverse 0 = p at *
  obtain ⟨l, c⟩ := p
  simp only [List.length_reverse, leVal_reverse, beVal_widen] at h hc ⊢
  obtain ⟨hlen, hval⟩ := h
  have hx' : x.field.length ≠ 0 := by
    have : x.field ≠ [] := hx
    simpa using this
  split
  · refine ⟨by simp [Inf.Wf], ?_⟩
    rw [beVal_cons, beVal_reverse]
    simp only [List.length_reverse]
    rw [hlen]
    have : (UInt8.ofNat c).toNat = c := by simp; omega
    rw [this]
    have := Nat.mul_comm c (256 ^ (widen x.field y.field).length)
    omega
  · next hc0 =>
    simp at hc0; subst hc0
    refine ⟨?_, ?_⟩
    · simp only [Inf.Wf]; intro h0
      have : l.length = 0 := by simpa using congrArg List.length h0
      rw [widen_length] at hlen; omega
    · rw [beVal_reverse]; omega

/-! ### subtraction -/

theorem subDigit_spec (s : Int) (h1 : -256 ≤ s) (h2 : s < 256) :
    ((subDigit s).1.toNat : Int) = s + 256 * (subDigit s).2 ∧ (subDigit s).2 ≤ 1 := by
  unfold subDigit
  split
  · next hs =>
    simp only
    have e : (-s).toNat &&& 0xFF = (-s).toNat % 256 := Nat.and_two_pow_sub_one_eq_mod _ 8
    rw [e, shr8]
    split
    · next ht =>
      have : (UInt8.ofNat (0x100 - (-s).toNat % 256)).toNat = 0x100 - (-s).toNat % 256 := by
        simp; omega
      simp only [this]; omega
    · next ht => simp at ht ⊢; omega
  · next hs =>
    have : (UInt8.ofNat s.toNat).toNat = s.toNat := by simp; omega
    simp only [this]; omega

theorem subLoop_spec (r a : Bytes) (c : Nat) (h : a.length ≤ r.length) (hc : c ≤ 1) :
    (subLoop r a c).1.length = r.length ∧
    (leVal (subLoop r a c).1 : Int) = leVal r - leVal a - c + 256 ^ r.length * (subLoop r a c).2 := by
  induction r generalizing a c with
  | nil => cases a <;> simp_all [subLoop, leVal]
  | cons x r ih =>
    have hx := byte_lt x
    cases a with
    | nil =>
      cases c with
      | zero => simp [subLoop, leVal]
      | succ c =>
        have hd := subDigit_spec ((x.toNat : Int) - ((c + 1 : Nat) : Int)) (by omega) (by omega)
        simp only [subLoop, leVal, List.length_cons]
        generalize subDigit ((x.toNat : Int) - ((c + 1 : Nat) : Int)) = p at *
        obtain ⟨d, c'⟩ := p
        have := ih [] c' (by simp) hd.2
        simp only at hd ⊢
        generalize subLoop r [] c' = q at *
        obtain ⟨l, c''⟩ := q
        simp only [leVal] at this ⊢
        refine ⟨by omega, ?_⟩
        have e : (256 : Int) ^ (r.length + 1) * c'' = 256 * (256 ^ r.length * c'') := by ring
        rw [e]; push_cast; push_cast at hd; omega
    | cons y a =>
      have hy := byte_lt y
      simp at h
      have hd := subDigit_spec ((x.toNat : Int) - (y.toNat : Int) - (c : Int)) (by omega) (by omega)
      simp only [subLoop, leVal, List.length_cons]
      generalize subDigit ((x.toNat : Int) - (y.toNat : Int) - (c : Int)) = p at *
      obtain ⟨d, c'⟩ := p
      have := ih a c' h hd.2
      simp only at hd ⊢
      generalize subLoop r a c' = q at *
      obtain ⟨l, c''⟩ := q
      simp only at this ⊢
      refine ⟨by omega, ?_⟩
      have e : (256 : Int) ^ (r.length + 1) * c'' = 256 * (256 ^ r.length * c'') := by ring
      rw [e]; push_cast; omega

theorem Inf.sub_spec (x y : Inf) (hx : x.Wf) (hy : y.Wf) :
    (beVal x.field < beVal y.field ∧ x.sub y = .error .range) ∨
    (beVal y.field ≤ beVal x.field ∧ ∃ z, x.sub y = .ok z ∧ z.Wf ∧
       z.field.length = (reduceIfNeeded x.field).length ∧
       beVal z.field = beVal x.field - beVal y.field) := by
  have hd := Inf.difference_spec x y hx hy
  unfold Inf.sub Inf.lt
  by_cases h : beVal x.field < beVal y.field
  · left; refine ⟨h, ?_⟩; simp [hd.1.mpr h]
  · right; refine ⟨by omega, ?_⟩
    have hn : ¬ (x.difference y < 0) := fun e => h (hd.1.mp e)
    simp only [hn, decide_false, Bool.false_eq_true, if_false]
    have cx := canon_reduceIfNeeded _ hx
    have cy := canon_reduceIfNeeded _ hy
    rw [← beVal_reduceIfNeeded x.field, ← beVal_reduceIfNeeded y.field] at h ⊢
    generalize reduceIfNeeded x.field = fx at *
    generalize reduceIfNeeded y.field = fy at *
    have hlen : fy.length ≤ fx.length := by
      by_contra hcon
      exact h (canon_length_lt cy (canon_ne_nil cx) (by omega))
    have hs := subLoop_spec fx.reverse fy.reverse 0 (by simpa using hlen) (by omega)
    generalize subLoop fx.reverse fy.reverse 0 = p at *
    obtain ⟨l, c⟩ := p
    simp only [List.length_reverse, leVal_reverse] at hs ⊢
    refine ⟨_, rfl, ?_, by simpa using hs.1, ?_⟩
    · simp only [Inf.Wf]; intro h0
      have h1 : l.length = 0 := by simpa using congrArg List.length h0
      have := canon_ne_nil cx
      rw [← List.length_pos_iff] at this; omega
    · rw [beVal_reverse]
      have hl := leVal_lt l
      rw [hs.1] at hl
      have h2 := hs.2
      have hb := beVal_lt fx
      rcases Nat.eq_zero_or_pos c with hc | hc
      · subst hc; simp at h2; omega
      · exfalso
        have : (256 : Int) ^ fx.length * 1 ≤ 256 ^ fx.length * c := by
          apply Int.mul_le_mul_of_nonneg_left (by omega) (Int.pow_nonneg (by omega))
        have e : ((256 ^ fx.length : Nat) : Int) = (256 : Int) ^ fx.length := by push_cast; rfl
        omega

end Dar
