import Verif.Lemmas.Infinint4
/-
Property theorems C01-C04, C06: integers.

Reading guide.  An unbounded integer (`Inf`) is a non-empty string of base-256 digits (`Wf`), possibly
with leading zeros; the number it denotes is `beVal x.field` (Spec/Integer.lean), written `num⟦x⟧` here.
A bounded integer of the 32/64-bit builds is a `Nat` below `256 ^ w`, `w = 4` or `8`.
-/
namespace Dar

/-- the number denoted by an unbounded integer -/
local notation "num⟦" x "⟧" => beVal (Inf.field x)

/-! ## C01 integer serialisation round-trips -/

/-- Writing any unbounded integer then reading gives the same number, and leaves exactly what followed. -/
theorem C01_infinint_roundtrip (x : Inf) (hx : x.Wf) (rest : Bytes) :
    ∃ y : Inf, Inf.read (x.dump ++ rest) = .ok (y, rest) ∧ y.Wf ∧ num⟦y⟧ = num⟦x⟧ := by
  have hc := canon_reduceIfNeeded _ hx
  refine ⟨⟨reduceIfNeeded x.field⟩, ?_, canon_ne_nil hc, beVal_reduceIfNeeded _⟩
  exact Inf.read_dump_field _ hc rest

/-- The same for the 32-bit and 64-bit builds. -/
theorem C01_limitint_roundtrip (w : Nat) (hw : w = 4 ∨ w = 8) (n : Nat) (hn : n < 256 ^ w) (rest : Bytes) :
    Lim.read w (Lim.dump w n ++ rest) = .ok (n, rest) := by
  obtain ⟨e, c, v⟩ := Lim.dump_eq w n hn
  rw [e, Lim.read_dump_field w (by omega) (by omega) _ c, v]
  exact if_pos hn

/-- All builds write the same bytes for the same number: archives can be exchanged. -/
theorem C01_same_bytes_in_all_builds (w n : Nat) (hn : n < 256 ^ w) (x : Inf) (hx : x.Wf) (hv : num⟦x⟧ = n) :
    Lim.dump w n = x.dump := by
  obtain ⟨e, c, v⟩ := Lim.dump_eq w n hn
  rw [e, Inf.dump_eq_of_val x hx _ c (by rw [v, hv])]

/-- Reading in a bounded build a number written by an unbounded build: exact if it fits, else an
overflow error. -/
theorem C01_read_by_bounded_build (w : Nat) (hw : w = 4 ∨ w = 8) (x : Inf) (hx : x.Wf) (rest : Bytes) :
    Lim.read w (x.dump ++ rest) = if num⟦x⟧ < 256 ^ w then .ok (num⟦x⟧, rest) else .error .limitint := by
  have hc := canon_reduceIfNeeded _ hx
  have := Lim.read_dump_field w (by omega) (by omega) _ hc rest
  rw [beVal_reduceIfNeeded] at this
  exact this

/-- The form is self-delimiting: two integers followed by anything give the same file only if they are
the same number followed by the same bytes. -/
theorem C01_self_delimiting (x y : Inf) (hx : x.Wf) (hy : y.Wf) (r r' : Bytes)
    (h : x.dump ++ r = y.dump ++ r') : num⟦x⟧ = num⟦y⟧ ∧ r = r' := by
  obtain ⟨a, h1, _, v1⟩ := C01_infinint_roundtrip x hx r
  obtain ⟨b, h2, _, v2⟩ := C01_infinint_roundtrip y hy r'
  rw [h, h2] at h1
  injection h1 with h1; injection h1 with h3 h4
  subst h3
  exact ⟨v1.symm.trans v2, h4.symm⟩

example : (⟨[0, 0, 1, 2, 3, 4, 5]⟩ : Inf).Wf ∧
    (⟨[0, 0, 1, 2, 3, 4, 5]⟩ : Inf).dump = [0x40, 0, 0, 0, 1, 2, 3, 4, 5] := by decide
example : (0x0102030405 : Nat) < 256 ^ 8 ∧ Lim.dump 8 0x0102030405 = [0x40, 0, 0, 0, 1, 2, 3, 4, 5] := by decide

/-! ## C02 unbounded integers compute exactly -/

/-- Addition. -/
theorem C02_add (x y : Inf) (hx : x.Wf) : (x.add y).Wf ∧ num⟦x.add y⟧ = num⟦x⟧ + num⟦y⟧ := Inf.add_spec x y hx

/-- Subtraction: exact, or an error exactly when the result would be negative. -/
theorem C02_sub (x y : Inf) (hx : x.Wf) (hy : y.Wf) :
    (num⟦x⟧ < num⟦y⟧ → x.sub y = .error .range) ∧
    (num⟦y⟧ ≤ num⟦x⟧ → ∃ z, x.sub y = .ok z ∧ z.Wf ∧ num⟦z⟧ = num⟦x⟧ - num⟦y⟧) := by
  rcases Inf.sub_spec x y hx hy with ⟨h1, h2⟩ | ⟨h1, z, h2, h3, _, h4⟩
  · exact ⟨fun _ => h2, fun h => by omega⟩
  · exact ⟨fun h => by omega, fun _ => ⟨z, h2, h3, h4⟩⟩

/-- Multiplication by an unbounded integer and by a byte. -/
theorem C02_mul (x y : Inf) (hy : y.Wf) : (x.mul y).Wf ∧ num⟦x.mul y⟧ = num⟦x⟧ * num⟦y⟧ := Inf.mul_spec x y hy
theorem C02_mul_byte (x : Inf) (hx : x.Wf) (b : UInt8) :
    (x.mulByte b).Wf ∧ num⟦x.mulByte b⟧ = num⟦x⟧ * b.toNat := Inf.mulByte_spec x hx b

/-- Division and remainder: the loops end (within the stated number of turns) with the Euclidean
quotient and remainder; division by zero is an error. -/
theorem C02_euclide (a b : Inf) (ha : a.Wf) (hb : b.Wf) (fuel : Nat) (hf : a.field.length + 2 ≤ fuel) :
    (num⟦b⟧ = 0 → Inf.euclide fuel a b = .error .infinint) ∧
    (num⟦b⟧ ≠ 0 → ∃ q r, Inf.euclide fuel a b = .ok (q, r) ∧ q.Wf ∧ r.Wf ∧
      num⟦q⟧ * num⟦b⟧ + num⟦r⟧ = num⟦a⟧ ∧ num⟦r⟧ < num⟦b⟧) := by
  refine ⟨Inf.euclide_zero fuel a b, fun h => ?_⟩
  obtain ⟨q, r, e, h1, h2, h3, h4⟩ := Inf.euclide_spec fuel a b ha hb h hf
  refine ⟨q, r, e, h1, h2, ?_, ?_⟩
  · rw [h3, h4, Nat.mul_comm]; exact Nat.div_add_mod _ _
  · rw [h4]; exact Nat.mod_lt _ (by omega)

/-- Remainder by a machine integer of `size` bytes. -/
theorem C02_modulo (fuel size : Nat) (x : Inf) (hx : x.Wf) (arg : Nat) (ha : arg < 256 ^ size)
    (hf : x.field.length + 2 ≤ fuel) :
    Inf.modulo fuel size x arg = if arg = 0 then .error .infinint else .ok (num⟦x⟧ % arg) :=
  Inf.modulo_spec fuel size x hx arg ha hf

/-- Shifts by a machine integer or by an unbounded integer. -/
theorem C02_shift_left (x : Inf) (hx : x.Wf) (n : Nat) : (x.shl n).Wf ∧ num⟦x.shl n⟧ = num⟦x⟧ * 2 ^ n :=
  Inf.shl_spec x hx n
theorem C02_shift_right (x : Inf) (hx : x.Wf) (n : Nat) : (x.shr n).Wf ∧ num⟦x.shr n⟧ = num⟦x⟧ / 2 ^ n :=
  Inf.shr_spec x hx n
theorem C02_shift_left_infinint (fuel : Nat) (x n : Inf) (hx : x.Wf) (hn : n.Wf) (hf : num⟦n⟧ < fuel) :
    ∃ z, Inf.shlInf fuel x n = .ok z ∧ z.Wf ∧ num⟦z⟧ = num⟦x⟧ * 2 ^ num⟦n⟧ := Inf.shlInf_spec fuel x n hx hn hf
theorem C02_shift_right_infinint (fuel : Nat) (x n : Inf) (hx : x.Wf) (hn : n.Wf) (hf : num⟦n⟧ < fuel) :
    ∃ z, Inf.shrInf fuel x n = .ok z ∧ z.Wf ∧ num⟦z⟧ = num⟦x⟧ / 2 ^ num⟦n⟧ := Inf.shrInf_spec fuel x n hx hn hf

/-- Bitwise operations. -/
theorem C02_and (x y : Inf) (hx : x.Wf) : (x.land y).Wf ∧ num⟦x.land y⟧ = num⟦x⟧ &&& num⟦y⟧ := Inf.land_spec x y hx
theorem C02_or (x y : Inf) (hx : x.Wf) : (x.lor y).Wf ∧ num⟦x.lor y⟧ = num⟦x⟧ ||| num⟦y⟧ := Inf.lor_spec x y hx
theorem C02_xor (x y : Inf) (hx : x.Wf) : (x.lxor y).Wf ∧ num⟦x.lxor y⟧ = num⟦x⟧ ^^^ num⟦y⟧ := Inf.lxor_spec x y hx

/-- Comparisons. -/
theorem C02_compare (x y : Inf) (hx : x.Wf) (hy : y.Wf) :
    (x.lt y = true ↔ num⟦x⟧ < num⟦y⟧) ∧ (x.le y = true ↔ num⟦x⟧ ≤ num⟦y⟧) ∧ (x.eqv y = true ↔ num⟦x⟧ = num⟦y⟧) ∧
    (x.isZero = true ↔ num⟦x⟧ = 0) :=
  ⟨Inf.lt_iff x y hx hy, Inf.le_iff x y hx hy, Inf.eqv_iff x y hx hy, Inf.isZero_iff x⟩

/-- Power, conversion from machine integers, byte access. -/
theorem C02_power (x : Inf) (hx : x.Wf) (n : Nat) : (x.power n).Wf ∧ num⟦x.power n⟧ = num⟦x⟧ ^ n :=
  Inf.power_spec x hx n
theorem C02_from_machine (size n : Nat) (h : n < 256 ^ size) :
    (Inf.ofMachine size n).Wf ∧ num⟦Inf.ofMachine size n⟧ = n :=
  ⟨(Inf.ofMachine_spec size n h).1, (Inf.ofMachine_spec size n h).2.1⟩
theorem C02_byte (x : Inf) (i : Nat) : (x.byteAt i).toNat = num⟦x⟧ / 256 ^ i % 256 := Inf.byteAt_spec x i

example : (⟨[0, 255, 255]⟩ : Inf).Wf ∧ (⟨[1]⟩ : Inf).Wf ∧ (⟨[0, 255, 255]⟩ : Inf).add ⟨[1]⟩ = ⟨[1, 0, 0]⟩ := by decide
example : (⟨[1, 0, 7]⟩ : Inf).Wf ∧ num⟦(⟨[3]⟩ : Inf)⟧ ≠ 0 ∧
    (Inf.euclide 5 ⟨[1, 0, 7]⟩ ⟨[3]⟩).toOption.map (fun p => (num⟦p.1⟧, num⟦p.2⟧)) = some (21847, 2) := by decide +kernel

/-! ## C03 bounded integers never wrap silently

Full statement (kept in view): for each of the two widths and every pair of representable values,
*every* operation returns the mathematical result or reports an overflow.  It does not hold of the
code: `x >>= n` and `x <<= n` with `n` a bounded integer are undefined behaviour for some `n`
(`C03_shift_counterexamples`), as is `x <<= n` with a 32-bit machine `n` in the 32-bit build.  All
the other operations are covered by the theorems below. -/

/-- `+`, `-`, `*`, power, conversion from a machine integer. -/
theorem C03_arithmetic_partial (w : Nat) (hw : w = 4 ∨ w = 8) (a b : Nat) (ha : a < 256 ^ w) (hb : b < 256 ^ w) :
    (Lim.add w a b = if a + b < 256 ^ w then .ok (a + b) else .error .limitint) ∧
    (Lim.sub a b = if b ≤ a then .ok (a - b) else .error .range) ∧
    (Lim.mul w a b = .ok (a * b) ∧ a * b < 256 ^ w ∨ Lim.mul w a b = .error .limitint) ∧
    (∀ n, Lim.power w a n = .ok (a ^ n) ∧ a ^ n < 256 ^ w ∨ Lim.power w a n = .error .limitint) ∧
    (Lim.div a b = if b = 0 then .error .infinint else .ok (a / b)) ∧
    (Lim.mod a b = if b = 0 then .error .infinint else .ok (a % b)) ∧
    (∀ n, Lim.shr w a n = .ok (a / 2 ^ n)) ∧
    (∀ size c, c < 256 ^ size → Lim.ofMachine w size c = if c < 256 ^ w then .ok c else .error .limitint) :=
  ⟨Lim.add_spec w a b ha hb, Lim.sub_spec a b, Lim.mul_spec w a b (by omega) ha hb,
   fun n => Lim.power_spec w a n (by omega) ha, rfl, rfl, fun n => Lim.shr_spec w a n ha,
   fun size c hc => Lim.ofMachine_spec w size c hc⟩

/-- The multiplication is not refused when the operands' bit lengths leave one bit of room. -/
theorem C03_mul_accepts (w : Nat) (a b i j : Nat) (ha : a < 2 ^ i) (hb : b < 2 ^ j) (hi : 0 < i) (hj : 0 < j)
    (h : i + j ≤ w * 8) : Lim.mul w a b = .ok (a * b) := by
  have h8 : (2 : Nat) ^ (w * 8) = Lim.modulus w := by rw [modulus_two, Nat.mul_comm]
  have bound : ∀ v k, v < 2 ^ k → 0 < k → k ≤ w * 8 → v < Lim.modulus w ∧ hp2 w v < k := by
    intro v k hv hk hkw
    have hm : v < Lim.modulus w := by
      rw [← h8]; exact Nat.lt_of_lt_of_le hv (Nat.pow_le_pow_right (by omega) hkw)
    refine ⟨hm, ?_⟩
    rcases hp2_spec w v hm with ⟨h0, _⟩ | h1
    · omega
    · exact (Nat.pow_lt_pow_iff_right (by omega : 1 < 2)).1 (Nat.lt_of_le_of_lt h1.1 hv)
  obtain ⟨ma, la⟩ := bound a i ha hi (by omega)
  obtain ⟨mb, lb⟩ := bound b j hb hj (by omega)
  exact Lim.mul_ok w a b ma mb (by omega)

/-- Left shift by a 32-bit machine integer, 64-bit build. -/
theorem C03_shift_left_64 (a n : Nat) (ha : a < 256 ^ 8) (hn : n < 2 ^ 32) :
    (Lim.shl 8 a n = .ok (a * 2 ^ n) ∧ a * 2 ^ n < 256 ^ 8) ∨ Lim.shl 8 a n = .error .limitint :=
  Lim.shl_spec a n ha hn

/-- Left shift in either build, for shift amounts below 2^31. -/
theorem C03_shift_left_partial (w : Nat) (hw : w = 4 ∨ w = 8) (a n : Nat) (ha : a < 256 ^ w) (hn : n < 2 ^ 31) :
    ((Lim.shl w a n = .ok (a * 2 ^ n) ∧ a * 2 ^ n < 256 ^ w) ∨ Lim.shl w a n = .error .limitint) ∧
    ((Lim.shlLim w a n = .ok (a * 2 ^ n) ∧ a * 2 ^ n < 256 ^ w) ∨ Lim.shlLim w a n = .error .limitint) := by
  have h1 := hp2_le w a ha (by omega)
  have hb : n + hp2 w a < 4294967296 := by omega
  have e1 : (n + hp2 w a) % 256 ^ (max 4 w) = n + hp2 w a := by
    apply Nat.mod_eq_of_lt
    rcases hw with rfl | rfl
    · have : (256 : Nat) ^ (max 4 4) = 4294967296 := by decide
      omega
    · have : (256 : Nat) ^ (max 4 8) = 18446744073709551616 := by decide
      omega
  have e2 : (n + hp2 w a) % Lim.modulus w = n + hp2 w a := by
    apply Nat.mod_eq_of_lt
    rcases hw with rfl | rfl
    · have : Lim.modulus 4 = 4294967296 := by decide
      omega
    · have : Lim.modulus 8 = 18446744073709551616 := by decide
      omega
  unfold Lim.shl Lim.shlLim
  rw [e1, e2]
  by_cases h : n + hp2 w a ≥ w * 8
  · rw [if_pos h]; exact ⟨Or.inr rfl, Or.inr rfl⟩
  · rw [if_neg h]
    have := machineShl_ok w a n ha (by omega)
    exact ⟨Or.inl this, Or.inl this⟩

/-- Right shift by a bounded integer: exact below the width. -/
theorem C03_shift_right_limitint_partial (w a n : Nat) (hn : n < 8 * w) :
    Lim.shrLim w a n = .ok (a / 2 ^ n) := by
  unfold Lim.shrLim machineShr
  rw [if_pos hn, Nat.shiftRight_eq_div_pow]

/-- Where the full property fails: the shifts by a bounded integer reach undefined behaviour, as does the
shift by a machine integer in the 32-bit build; and a multiplication whose exact result fits is
sometimes refused (2^63 * 1), which the property allows. -/
theorem C03_shift_counterexamples :
    Lim.shrLim 8 1 64 = .error .ub ∧
    Lim.shlLim 8 3 (2 ^ 64 - 1) = .error .ub ∧
    Lim.shl 4 3 (2 ^ 32 - 1) = .error .ub ∧
    Lim.mul 8 (2 ^ 63) 1 = .error .limitint := by decide

example : Lim.mul 8 0xFFFFFFFF 0xFFFFFFFF = .ok 0xFFFFFFFE00000001 ∧
    Lim.add 4 0xFFFFFFFF 1 = .error .limitint := by decide

/-! ## C04 conversion to machine integers conserves the value -/

/-- Unbounded build: for any target type of at most 8 bytes with maximum `maxT`. -/
theorem C04_infinint_unstack (size maxT : Nat) (x : Inf) (a : Nat) (hx : x.Wf)
    (hm : maxT < 256 ^ size) (h8 : size ≤ 8) (ha : a ≤ maxT) :
    ∃ x' a', Inf.unstack size maxT x a = .ok (x', a') ∧ x'.Wf ∧
      a' ≤ maxT ∧ num⟦x'⟧ + a' = num⟦x⟧ + a ∧ (a' = maxT ∨ num⟦x'⟧ = 0) := by
  have h9 : maxT < 256 ^ 8 := Nat.lt_of_lt_of_le hm (Nat.pow_le_pow_right (by omega) h8)
  obtain ⟨x', a', e, w, h1, h2⟩ := Inf.unstack_spec size maxT x a hx hm h9 ha
  refine ⟨x', a', e, w, by omega, h2, by omega⟩

/-- Repeating with a fresh target until nothing remains transfers everything. -/
theorem C04_infinint_unstack_all (size maxT : Nat) (hm : maxT < 256 ^ size) (h8 : size ≤ 8) (hpos : 0 < maxT)
    (n : Nat) (x : Inf) (hx : x.Wf) (hn : num⟦x⟧ ≤ n * maxT) :
    ∃ l : List Nat, l.length = n ∧ l.sum = num⟦x⟧ ∧ (∀ a ∈ l, a ≤ maxT) ∧
      ∃ y : Inf, y.Wf ∧ num⟦y⟧ = 0 ∧
        (List.range n).foldlM (fun (p : Inf × List Nat) _ => do
          let (x', a) ← Inf.unstack size maxT p.1 0; pure (x', p.2 ++ [a])) (x, []) = .ok (y, l) := by
  have gen : ∀ (k : List Nat) (x : Inf) (acc : List Nat), x.Wf → num⟦x⟧ ≤ k.length * maxT →
      ∃ l : List Nat, l.length = k.length ∧ l.sum = num⟦x⟧ ∧ (∀ a ∈ l, a ≤ maxT) ∧
      ∃ y : Inf, y.Wf ∧ num⟦y⟧ = 0 ∧
        k.foldlM (fun (p : Inf × List Nat) _ => do
          let (x', a) ← Inf.unstack size maxT p.1 0; pure (x', p.2 ++ [a])) (x, acc) = (.ok (y, acc ++ l) : Res _) := by
    intro k
    induction k with
    | nil =>
      intro x acc hx h
      simp at h
      exact ⟨[], rfl, by simpa using h.symm, by simp, x, hx, h, by simp [pure, Except.pure]⟩
    | cons i k ih =>
      intro x acc hx h
      obtain ⟨x', a', e, w, h1, h2, h3⟩ := C04_infinint_unstack size maxT x 0 hx hm h8 (by omega)
      have hle : num⟦x'⟧ ≤ k.length * maxT := by
        simp only [List.length_cons, Nat.add_mul, Nat.one_mul] at h
        rcases h3 with h3 | h3
        · omega
        · rw [h3]; exact Nat.zero_le _
      obtain ⟨l, l1, l2, l3, y, y1, y2, y3⟩ := ih x' (acc ++ [a']) w hle
      refine ⟨a' :: l, by simp [l1], by simp [l2]; omega, ?_, y, y1, y2, ?_⟩
      · intro b hb
        rcases List.mem_cons.1 hb with rfl | hb
        · exact h1
        · exact l3 b hb
      · rw [List.foldlM_cons]
        simp only [e]
        have : acc ++ a' :: l = acc ++ [a'] ++ l := by simp
        rw [this, ← y3]; rfl
  have := gen (List.range n) x [] hx (by simpa using hn)
  simpa using this

/-- Bounded builds, target type not wider than the bounded integer.  (Full statement: any target type;
it is false, see `C04_limitint_counterexample`.) -/
theorem C04_limitint_unstack_partial (w : Nat) (t : MType) (field a : Nat) (hf : field < 256 ^ w)
    (ht : 0 < t.size) (ha : a ≤ t.max) (htw : t.max < 256 ^ w) :
    (Lim.unstack w t field a).2 ≤ t.max ∧
    (Lim.unstack w t field a).1 + (Lim.unstack w t field a).2 = field + a ∧
    ((Lim.unstack w t field a).2 = t.max ∨ (Lim.unstack w t field a).1 = 0) := by
  have := Lim.unstack_spec w t field a hf ht ha htw
  simp only at this
  omega

/-- In the 32-bit build, unstacking 2^32-1 in a 64-bit target (size_t) yields 2^64-1. -/
theorem C04_limitint_counterexample :
    Lim.unstack 4 ⟨8, false⟩ (2 ^ 32 - 1) 0 = (0, 2 ^ 64 - 1) := by decide

example : (⟨[1, 0, 0, 0, 0, 9]⟩ : Inf).Wf ∧ (2 ^ 32 - 1 < 256 ^ 4) ∧
    ∃ x', Inf.unstack 4 (2 ^ 32 - 1) ⟨[1, 0, 0, 0, 0, 9]⟩ 10 = .ok (x', 4294967295) := ⟨by decide, by decide, _, rfl⟩
example : (⟨2, true⟩ : MType).max = 32767 ∧ Lim.unstack 8 ⟨2, true⟩ 70000 32000 = (69233, 32767) := by decide

/-! ## C06 damaged integers are refused -/

/-- Unbounded build: reading fails on every strict prefix of a serialised integer. -/
theorem C06_infinint_truncated (x : Inf) (hx : x.Wf) (p q : Bytes) (h : x.dump = p ++ q) (hq : q ≠ []) :
    ∃ e, Inf.read p = .error e := by
  have hc := canon_reduceIfNeeded _ hx
  exact strict_prefix_error Inf.read Inf.read_safe x.dump ⟨reduceIfNeeded x.field⟩
    (fun rest => Inf.read_dump_field _ hc rest) p q h hq

/-- All builds: a size prefix whose first non-zero byte does not have exactly one bit set is refused. -/
theorem C06_malformed_prefix (w k : Nat) (a : UInt8) (ha : a ≠ 0)
    (h : ∀ i, i < 8 → a.toNat ≠ 2 ^ i) (s : Bytes) :
    Inf.read (List.replicate k 0 ++ a :: s) = .error .range ∧
    Lim.read w (List.replicate k 0 ++ a :: s) = .error .range := by
  have h' : ∀ i, i < 8 → a ≠ 0x80 >>> UInt8.ofNat i := by
    intro i hi heq
    have key : ∀ i : Fin 8, ((0x80 : UInt8) >>> UInt8.ofNat i.val).toNat = 2 ^ (7 - i.val) := by decide
    have := key ⟨i, hi⟩
    exact h (7 - i) (by omega) (by rw [heq]; exact this)
  have hb := readPreamble_bad k 0 a ha h' s
  unfold Inf.read Lim.read
  rw [hb]
  exact ⟨rfl, rfl⟩

/-- Bounded builds, what holds: a truncation inside the size prefix is refused.  (Full statement: any
truncation; it is false, see `C06_limitint_counterexample`.) -/
theorem C06_limitint_truncated_partial (w k : Nat) : Lim.read w (List.replicate k 0) = .error .range := by
  have : ∀ skip, readPreamble skip (List.replicate k 0) = .error .range := by
    induction k with
    | zero => intro; rfl
    | succ k ih => intro skip; simp [List.replicate_succ, readPreamble, ih]
  unfold Lim.read; rw [this]; rfl

/-- Bounded builds: the number of bytes read is not checked; the number 5 cut after its first digit
byte is read as 0, the number 0x01020304 cut by two bytes is read as 0x01020000. -/
theorem C06_limitint_counterexample :
    Lim.dump 8 5 = [0x80, 0, 0, 0, 5] ∧ Lim.read 8 [0x80, 0] = .ok (0, []) ∧
    Lim.dump 8 0x01020304 = [0x80, 1, 2, 3, 4] ∧ Lim.read 8 [0x80, 1, 2] = .ok (0x01020000, []) := by
  decide

example : (⟨[1, 2, 3, 4, 5]⟩ : Inf).Wf ∧ (⟨[1, 2, 3, 4, 5]⟩ : Inf).dump = [0x40, 0, 0, 0, 1] ++ [2, 3, 4, 5] := by decide
example : (0x48 : UInt8) ≠ 0 ∧ ∀ i, i < 8 → (0x48 : UInt8).toNat ≠ 2 ^ i := by decide

end Dar
