import Verif.Model.Elastic
import Mathlib.Tactic.Ring
import Mathlib.Data.List.Induction
namespace Dar

theorem baseDigits_zero (b : Nat) : baseDigits b 0 = [] := by rw [baseDigits]; simp

theorem baseDigits_pos (n : Nat) (h : n ≠ 0) : baseDigits 254 n = n % 254 :: baseDigits 254 (n / 254) := by
  rw [baseDigits, dif_pos ⟨h, by omega⟩]

theorem baseDigits_lt (n : Nat) : ∀ d ∈ baseDigits 254 n, d < 254 := by
  induction n using Nat.strongRecOn with
  | ind n ih =>
    by_cases h : n = 0
    · subst h; rw [baseDigits_zero]; simp
    · rw [baseDigits_pos n h]
      intro d hd
      rcases List.mem_cons.mp hd with rfl | hd
      · omega
      · exact ih _ (by omega) d hd

theorem baseDigits_len (k n : Nat) (h : n < 254 ^ k) : (baseDigits 254 n).length ≤ k := by
  induction k generalizing n with
  | zero => have : n = 0 := by simpa using h
            subst this; rw [baseDigits_zero]; simp
  | succ k ih =>
    by_cases h0 : n = 0
    · subst h0; rw [baseDigits_zero]; simp
    · rw [baseDigits_pos n h0]
      have := ih (n / 254) (by rw [pow_succ] at h; omega)
      simp; omega

theorem baseDigits_len_le (n : Nat) (h : 3 ≤ n) : (baseDigits 254 n).length + 2 ≤ n := by
  have key : ∀ m, (baseDigits 254 m).length ≤ m := by
    intro m
    induction m using Nat.strongRecOn with
    | ind m ih =>
      by_cases h0 : m = 0
      · subst h0; rw [baseDigits_zero]; simp
      · rw [baseDigits_pos m h0]
        have := ih (m / 254) (by omega)
        simp; omega
  rw [baseDigits_pos n (by omega)]
  have := key (n / 254)
  simp
  by_cases h1 : n / 254 = 0
  · rw [h1, baseDigits_zero]; simp; omega
  · omega

theorem baseDigits_ne_nil (n : Nat) (h : n ≠ 0) : baseDigits 254 n ≠ [] := by
  rw [baseDigits_pos n h]; simp

/-- the size field, forward -/
theorem elSize_fwd (n t pb k : Nat) (rest : Bytes) (hk : k + (baseDigits 254 n).length ≤ 4)
    (hb : t + pb * n < 2 ^ 32) :
    elSize false 254 (elHigh false) ((baseDigits 254 n).map UInt8.ofNat ++ elHigh false :: rest) t pb k
      = .ok (t + pb * n, k + (baseDigits 254 n).length) := by
  induction n using Nat.strongRecOn generalizing t pb k with
  | ind n ih =>
    by_cases h : n = 0
    · subst h; rw [baseDigits_zero]; simp [elSize]
    · have hd := baseDigits_pos n h
      rw [hd] at hk ⊢
      simp only [List.length_cons] at hk
      have hlt : n % 254 < 254 := Nat.mod_lt _ (by omega)
      have hne : UInt8.ofNat (n % 254) ≠ elHigh false := by
        intro e
        have : (UInt8.ofNat (n % 254)).toNat = 254 := by rw [e]; rfl
        rw [UInt8.toNat_ofNat'] at this; omega
      have htn : (UInt8.ofNat (n % 254)).toNat = n % 254 := by rw [UInt8.toNat_ofNat']; omega
      have hsplit : pb * n = pb * (n % 254) + pb * 254 * (n / 254) := by
        have := Nat.div_add_mod n 254
        calc pb * n = pb * (254 * (n / 254) + n % 254) := by rw [this]
          _ = _ := by ring
      simp only [List.map_cons, List.cons_append, elSize, if_neg hne, htn, Bool.false_eq_true, if_false]
      rw [if_neg (by omega)]
      have e1 : u32 (t + pb * (n % 254)) = t + pb * (n % 254) := by
        unfold u32; apply Nat.mod_eq_of_lt
        have : 0 ≤ pb * 254 * (n / 254) := Nat.zero_le _
        omega
      rw [e1]
      by_cases hz : n / 254 = 0
      · rw [hz, baseDigits_zero]
        rw [hz] at hsplit
        simp [elSize]; omega
      · have hpb : u32 (pb * 254) = pb * 254 := by
          unfold u32; apply Nat.mod_eq_of_lt
          have : pb * 254 * 1 ≤ pb * 254 * (n / 254) := Nat.mul_le_mul_left _ (by omega)
          omega
        rw [hpb, ih (n / 254) (by omega) _ _ _ (by omega) (by omega)]
        simp only [List.length_cons]
        congr 2 <;> omega

/-- the size field, backward -/
theorem elSize_back_aux (n k : Nat) (rest : Bytes) (hk : k + (baseDigits 254 n).length ≤ 4)
    (hb : n < 2 ^ 32) (t : Nat) (ht : n ≠ 0 → t = 0) (pb : Nat) :
    elSize true 254 (elLow false) (((baseDigits 254 n).map UInt8.ofNat).reverse ++ rest) t pb k
      = elSize true 254 (elLow false) rest (if n = 0 then t else n) pb (k + (baseDigits 254 n).length) := by
  induction n using Nat.strongRecOn generalizing rest with
  | ind n ih =>
    by_cases h : n = 0
    · subst h; rw [baseDigits_zero]; simp
    · have hd := baseDigits_pos n h
      rw [hd] at hk ⊢
      simp only [List.length_cons] at hk
      have ht0 := ht h
      subst ht0
      have hlt : n % 254 < 254 := Nat.mod_lt _ (by omega)
      have hne : UInt8.ofNat (n % 254) ≠ elLow false := by
        intro e
        have : (UInt8.ofNat (n % 254)).toNat = 255 := by rw [e]; rfl
        rw [UInt8.toNat_ofNat'] at this; omega
      have htn : (UInt8.ofNat (n % 254)).toNat = n % 254 := by rw [UInt8.toNat_ofNat']; omega
      simp only [List.map_cons, List.reverse_cons, List.append_assoc, List.cons_append, List.nil_append, List.length_cons]
      rw [ih (n / 254) (by omega) _ (by omega) (by omega) (fun _ => rfl)]
      have hx : (if n / 254 = 0 then 0 else n / 254) = n / 254 := by split <;> omega
      rw [hx]
      simp only [elSize, if_neg hne, htn, if_true]
      rw [if_neg (by omega), if_neg h]
      have e1 : u32 (u32 (n / 254 * 254) + n % 254) = n := by unfold u32; omega
      rw [e1]
      congr 1

theorem elSize_back (n : Nat) (rest : Bytes) (hk : (baseDigits 254 n).length ≤ 4) (hb : n < 2 ^ 32) :
    elSize true 254 (elLow false) (((baseDigits 254 n).map UInt8.ofNat).reverse ++ elLow false :: rest) 0 1 0
      = .ok (n, (baseDigits 254 n).length) := by
  rw [elSize_back_aux n 0 _ (by omega) hb 0 (fun _ => rfl)]
  have : (if n = 0 then 0 else n) = n := by split <;> omega
  rw [this]
  simp [elSize]

theorem elFind_skip (first : UInt8) (junk : Bytes) (m : UInt8) (rest : Bytes) (k : Nat)
    (hj : ∀ b ∈ junk, b ≠ elSingle ∧ b ≠ first) (hm : m = elSingle ∨ m = first) :
    elFind first (junk ++ m :: rest) k = some (m, k + junk.length + 1, rest) := by
  induction junk generalizing k with
  | nil => simp [elFind, hm]
  | cons a l ih =>
    have ha := hj a (by simp)
    simp only [List.cons_append, elFind]
    rw [if_neg (by simp [ha.1, ha.2]), ih _ fun b hb => hj b (by simp [hb])]
    simp; omega

/-- Shape of a dumped padding buffer. -/
theorem elDump_spec (n room r : Nat) (rnd : Nat → UInt8) (hr : RndOk rnd) (h0 : n ≠ 0) (hmax : n ≤ elMax)
    (hroom : n ≤ room) :
    ∃ b, elDump n room r rnd = .ok b ∧ b.length = n ∧
      (∀ rest, ∃ c, 1 ≤ c ∧ c ≤ n ∧ elScan false false (b ++ rest) = .ok (n, c)) ∧
      (∀ rest, ∃ c, 1 ≤ c ∧ c ≤ n ∧ elScan true false (b.reverse ++ rest) = .ok (n, c)) := by
  have hbnd : n < 254 ^ 4 := by
    have : elMax = 254 ^ 4 - 1 := by rfl
    omega
  have h32 : n < 2 ^ 32 := lt_trans hbnd (by decide)
  have hlen := baseDigits_len 4 n hbnd
  unfold elDump
  rw [if_neg (by omega)]
  by_cases h2 : n > 2
  · rw [if_pos h2]
    have hl2 := baseDigits_len_le n h2
    simp only
    rw [if_neg (by omega)]
    set len := (baseDigits 254 n).length with hlen_def
    set cur := (if len + 2 < n then r % (n - (len + 2)) else 0) with hcur
    have hcb : cur + len + 2 ≤ n := by
      rw [hcur]; split
      · have := Nat.mod_lt r (show 0 < n - (len + 2) by omega); omega
      · omega
    refine ⟨_, rfl, ?_, ?_, ?_⟩
    · simp; omega
    · intro rest
      refine ⟨cur + len + 2, by omega, hcb, ?_⟩
      unfold elScan
      simp only [Bool.false_eq_true, if_false, List.append_assoc, List.cons_append, List.nil_append]
      rw [elFind_skip (elLow false) _ (elLow false) _ 0 ?_ (Or.inr rfl)]
      · simp only
        rw [if_neg (by decide)]
        have := elSize_fwd n 0 1 0 ((List.range (n - (cur + len + 2))).map (fun i => rnd (cur + len + 2 + i)) ++ rest) (by omega) (by omega)
        rw [show elBase false = 254 from rfl, this]
        simp only [List.length_map, List.length_range]
        rw [if_neg (by omega), if_neg (by omega)]
        congr 2 <;> omega
      · intro b hb
        obtain ⟨i, _, rfl⟩ := List.mem_map.mp hb
        exact ⟨(hr i).1, (hr i).2.1⟩
    · intro rest
      refine ⟨n - cur, by omega, by omega, ?_⟩
      unfold elScan
      simp only [if_true, List.reverse_append, List.append_assoc, List.reverse_cons, List.cons_append, List.nil_append]
      rw [elFind_skip (elHigh false) _ (elHigh false) _ 0 ?_ (Or.inr rfl)]
      · simp only
        rw [if_neg (by decide)]
        rw [show elBase false = 254 from rfl, elSize_back n _ hlen h32]
        simp only [List.length_map, List.length_range, List.length_reverse]
        rw [if_neg (by omega), if_neg (by omega)]
        congr 2; omega
      · intro b hb
        obtain ⟨i, _, rfl⟩ := List.mem_map.mp (List.mem_reverse.mp hb)
        exact ⟨(hr _).1, (hr _).2.2⟩
  · rw [if_neg h2]
    by_cases h1 : n = 1
    · subst h1
      rw [if_pos rfl]
      refine ⟨_, rfl, rfl, ?_, ?_⟩ <;> intro rest <;> exact ⟨1, by omega, by omega, rfl⟩
    · have : n = 2 := by omega
      subst this
      rw [if_neg h1, if_pos rfl]
      refine ⟨_, rfl, rfl, ?_, ?_⟩ <;> intro rest <;> exact ⟨2, by omega, by omega, rfl⟩

end Dar
