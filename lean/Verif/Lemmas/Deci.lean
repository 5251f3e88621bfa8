import Verif.Model.Deci
import Verif.Spec.Decimal
import Mathlib.Tactic.Ring
import Mathlib.Data.List.Induction
import Mathlib.Tactic.IntervalCases
/- Lemmas on decimal conversion. -/
namespace Dar

theorem u8_all (p : UInt8 → Prop) (h : ∀ k : Fin 256, p (UInt8.ofNat k.val)) (b : UInt8) : p b := by
  have := h ⟨b.toNat, b.toNat_lt⟩
  simpa using this

theorem getLeft_setLeft15 (b : UInt8) : getLeft (setLeft b 0xF) = 0xF ∧ getRight (setLeft b 0xF) = getRight b :=
  u8_all (fun b => getLeft (setLeft b 0xF) = 0xF ∧ getRight (setLeft b 0xF) = getRight b) (by decide +kernel) b

theorem getLeft_setRight15 (b : UInt8) : getRight (setRight b 0xF) = 0xF ∧ getLeft (setRight b 0xF) = getLeft b :=
  u8_all (fun b => getRight (setRight b 0xF) = 0xF ∧ getLeft (setRight b 0xF) = getLeft b) (by decide +kernel) b

theorem nib_ext (b : UInt8) : getLeft b = 0xF → getRight b = 0xF → b = 0xFF :=
  u8_all (fun b => getLeft b = 0xF → getRight b = 0xF → b = 0xFF) (by decide +kernel) b

theorem set_both : ∀ (b : UInt8) (r l : Fin 16),
    getLeft (setLeft (setRight b (UInt8.ofNat r.val)) (UInt8.ofNat l.val)) = UInt8.ofNat l.val ∧
    getRight (setLeft (setRight b (UInt8.ofNat r.val)) (UInt8.ofNat l.val)) = UInt8.ofNat r.val := by
  intro b r l
  have e : ∀ b : UInt8, ∀ v : UInt8, setLeft (setRight b (UInt8.ofNat r.val)) v = setLeft (setRight 0 (UInt8.ofNat r.val)) v := by
    intro b v
    unfold setLeft setRight
    have : ∀ x : UInt8, ((b &&& 0xF0) ||| x) &&& 0x0F = ((0 &&& 0xF0) ||| x) &&& 0x0F := by
      intro x
      apply UInt8.toBitVec_inj.1
      simp only [UInt8.toBitVec_and, UInt8.toBitVec_or]
      ext i hi
      have h8 : i < 8 := hi
      interval_cases i <;> simp
    rw [this]
  rw [e]
  clear e
  revert r l; decide +kernel

theorem set_both' (b r l : UInt8) (hr : r.toNat < 16) (hl : l.toNat < 16) :
    getLeft (setLeft (setRight b r) l) = l ∧ getRight (setLeft (setRight b r) l) = r := by
  have := set_both b ⟨r.toNat, hr⟩ ⟨l.toNat, hl⟩
  simpa using this

theorem deciDigits_cons (b : UInt8) (l : Bytes) :
    deciDigits (b :: l) = [getLeft b, getRight b].filter (· ≠ 0xF) ++ deciDigits l := by
  unfold deciDigits; rw [List.flatMap_cons, List.filter_append]

theorem deciDigits_append (l m : Bytes) : deciDigits (l ++ m) = deciDigits l ++ deciDigits m := by
  unfold deciDigits; rw [List.flatMap_append, List.filter_append]

theorem deciDigits_ff (n : Nat) : deciDigits (List.replicate n 0xFF) = [] := by
  induction n with
  | zero => rfl
  | succ n ih => rw [List.replicate_succ, deciDigits_cons, ih]; decide

/-- digits of `x`, most significant first, nothing for zero -/
def rdig (x : Nat) : List UInt8 :=
  if 0 < x then rdig (x / 10) ++ [UInt8.ofNat (x % 10)] else []

theorem rdig_zero : rdig 0 = [] := by unfold rdig; simp

theorem rdig_pos (x : Nat) (h : 0 < x) : rdig x = rdig (x / 10) ++ [UInt8.ofNat (x % 10)] := by
  rw [rdig, if_pos h]

theorem ofNat_mod10 (x : Nat) : (UInt8.ofNat (x % 10)).toNat = x % 10 := by
  simp; omega

theorem u8_ne15 (d : UInt8) (h : d.toNat < 10) : d ≠ 0xF := by
  intro he; subst he; simp at h

theorem decicoupe_digits (x : Nat) :
    (∀ tmp free done, deciDigits (decicoupeLoop x false tmp free done) = rdig x ++ deciDigits done) ∧
    (∀ t (r : UInt8) free done, r.toNat < 10 →
      deciDigits (decicoupeLoop x true (setRight t r) free done) = rdig x ++ [r] ++ deciDigits done) := by
  induction x using Nat.strongRecOn with
  | ind x ih =>
    have h0 : ∀ tmp free done, deciDigits (decicoupeLoop 0 false tmp free done) = deciDigits done := by
      intro tmp free done
      rw [decicoupeLoop]; simp [deciDigits_append, deciDigits_ff]
    have second : ∀ t (r : UInt8) free done, r.toNat < 10 →
        deciDigits (decicoupeLoop x true (setRight t r) free done) = rdig x ++ [r] ++ deciDigits done := by
      intro t r free done hr
      rw [decicoupeLoop]
      simp only [or_true, if_true]
      by_cases hx : 0 < x
      · simp only [if_pos hx]
        rw [(ih (x / 10) (by omega)).1, deciDigits_cons, rdig_pos x hx]
        have hm := ofNat_mod10 x
        obtain ⟨e1, e2⟩ := set_both' t r (UInt8.ofNat (x % 10)) (by omega) (by omega)
        rw [e1, e2]
        have n1 : UInt8.ofNat (x % 10) ≠ 0xF := u8_ne15 _ (by omega)
        have n2 : r ≠ 0xF := u8_ne15 _ hr
        simp [n1, n2]
      · have hx0 : x = 0 := by omega
        subst hx0
        simp only [Nat.lt_irrefl, if_false]
        rw [h0, deciDigits_cons, rdig_zero]
        obtain ⟨e1, e2⟩ := set_both' t r 0xF (by omega) (by decide)
        rw [e1, e2]
        have n2 : r ≠ 0xF := u8_ne15 _ hr
        simp [n2]
    refine ⟨?_, second⟩
    intro tmp free done
    by_cases hx : 0 < x
    · rw [decicoupeLoop]
      simp only [hx, true_or, if_true, Bool.false_eq_true, if_false]
      have hm := ofNat_mod10 x
      rw [(ih (x / 10) (by omega)).2 _ _ _ _ (by omega), rdig_pos x hx]
    · have hx0 : x = 0 := by omega
      subst hx0
      rw [h0, rdig_zero]; rfl

theorem deciReduceLoop_spec (l : Bytes) :
    let r := deciReduceLoop l
    r.1.length = l.length ∧ r.2 ≤ l.length ∧ r.1.take r.2 = List.replicate r.2 0xFF ∧
    deciDigits r.1 = (deciDigits l).dropWhile (· = 0) ∧
    (r.2 < l.length → ∃ d t, deciDigits r.1 = d :: t ∧ d ≠ 0) := by
  induction l with
  | nil => simp [deciReduceLoop, deciDigits]
  | cons b l ih =>
    simp only [deciReduceLoop]
    -- left nibble
    by_cases h1 : getLeft b ≠ 0 ∧ getLeft b ≠ 0xF
    · simp only [if_pos h1, if_neg h1.1]
      refine ⟨by simp, by omega, by simp, ?_, fun _ => ⟨getLeft b, [getRight b].filter (· ≠ 0xF) ++ deciDigits l, ?_, h1.1⟩⟩
      · simp [deciDigits_cons, h1.1, h1.2]
      · rw [deciDigits_cons, List.filter_cons]
        simp only [ne_eq, h1.2, not_false_eq_true, decide_true, if_true, List.cons_append]
    · rw [if_neg h1]
      have hl : getLeft b = 0 ∨ getLeft b = 0xF := by
        by_contra hc; push Not at hc; exact h1 hc
      -- the byte after treatment of the left nibble
      generalize hb' : (if getLeft b = 0 then setLeft b 0xF else b) = b'
      have e1 : getLeft b' = 0xF := by
        subst hb'
        rcases hl with h | h
        · rw [if_pos h]; exact (getLeft_setLeft15 b).1
        · rw [if_neg (by rw [h]; decide)]; exact h
      have e2 : getRight b' = getRight b := by
        subst hb'
        split
        · exact (getLeft_setLeft15 b).2
        · rfl
      rw [e2]
      have hdrop : ∀ m : List UInt8, (([getLeft b, getRight b].filter (· ≠ 0xF)) ++ m).dropWhile (· = 0)
          = (([getRight b].filter (· ≠ 0xF)) ++ m).dropWhile (· = 0) := by
        intro m
        rcases hl with h | h <;> simp [h]
      by_cases h2 : getRight b ≠ 0 ∧ getRight b ≠ 0xF
      · simp only [if_pos h2, if_neg h2.1]
        refine ⟨by simp, by omega, by simp, ?_, fun _ => ⟨getRight b, deciDigits l, ?_, h2.1⟩⟩
        · rw [deciDigits_cons, deciDigits_cons, hdrop, e1, e2]
          simp [h2.1, h2.2]
        · rw [deciDigits_cons, e1, e2]; simp [h2.2]
      · rw [if_neg h2]
        have hr : getRight b = 0 ∨ getRight b = 0xF := by
          by_contra hc; push Not at hc; exact h2 hc
        generalize hb'' : (if getRight b = 0 then setRight b' 0xF else b') = b''
        have f1 : b'' = 0xFF := by
          apply nib_ext
          · subst hb''
            split
            · rw [(getLeft_setRight15 b').2, e1]
            · exact e1
          · subst hb''
            rcases hr with h | h
            · rw [if_pos h]; exact (getLeft_setRight15 b').1
            · rw [if_neg (by rw [h]; decide), e2]; exact h
        obtain ⟨i1, i2, i3, i4, i5⟩ := ih
        generalize deciReduceLoop l = p at *
        obtain ⟨l', j⟩ := p
        simp only at *
        have hd : deciDigits (b'' :: l') = deciDigits l' := by
          rw [f1, deciDigits_cons]; rfl
        refine ⟨by simp [i1], by simp; omega, by simp [f1, i3, List.replicate_succ], ?_, ?_⟩
        · rw [hd, i4, deciDigits_cons, hdrop]
          rcases hr with h | h <;> simp [h]
        · intro hlt
          rw [hd]; apply i5; simp at hlt; omega

theorem deciReduce_digits (l : Bytes) (hl : l ≠ []) :
    deciDigits (deciReduce l) = (if (deciDigits l).dropWhile (· = 0) = [] then [0] else (deciDigits l).dropWhile (· = 0)) := by
  have h := deciReduceLoop_spec l
  unfold deciReduce
  generalize deciReduceLoop l = p at *
  obtain ⟨l', j⟩ := p
  simp only at *
  obtain ⟨h1, h2, h3, h4, h5⟩ := h
  by_cases hj : j = l'.length
  · rw [if_pos hj]
    have hff : l' = List.replicate j 0xFF := by
      rw [← h3, hj, List.take_length]
    have hj0 : 0 < j := by
      rw [hj, h1]; exact List.length_pos_iff.mpr hl
    have e1 : (l'.dropLast ++ [0xF0]).drop (j - 1) = [0xF0] := by
      rw [List.drop_left' (by simp; omega)]
    rw [e1, ← h4]
    have : deciDigits l' = [] := by rw [hff]; exact deciDigits_ff j
    rw [if_pos this]; decide
  · rw [if_neg hj]
    obtain ⟨d, t, e1, e2⟩ := h5 (by omega)
    have e3 : deciDigits (l'.drop j) = deciDigits l' := by
      conv => rhs; rw [← List.take_append_drop j l', deciDigits_append, h3, deciDigits_ff]
      rfl
    rw [e3, ← h4, if_neg (by rw [e1]; simp)]

/-- the digits of a text, last first in pairs -/
theorem digitHtoc_ok (c : UInt8) (h : isDigitByte c) : digitHtoc c = .ok (c - 48) := by
  unfold digitHtoc
  obtain ⟨h1, h2⟩ := h
  rw [if_neg]
  rintro (h3 | h3)
  · have := UInt8.lt_iff_toNat_lt.1 h3; simp at this; omega
  · have := UInt8.lt_iff_toNat_lt.1 h3; simp at this; omega

theorem digitHtoc_bad (c : UInt8) (h : ¬ isDigitByte c) : digitHtoc c = .error .deci := by
  unfold digitHtoc
  rw [if_pos]
  unfold isDigitByte at h
  by_cases h1 : c.toNat < 48
  · left; apply UInt8.lt_iff_toNat_lt.2; simpa using h1
  · right; apply UInt8.lt_iff_toNat_lt.2
    have : 57 < c.toNat := by omega
    simpa using this

theorem sub48 (c : UInt8) (h : isDigitByte c) : (c - 48).toNat = c.toNat - 48 := by
  rw [UInt8.toNat_sub_of_le]
  · rfl
  · apply UInt8.le_iff_toNat_le.2; exact h.1

theorem digitHtoc_res (c : UInt8) : digitHtoc c = .error .deci ∨ ∃ d, digitHtoc c = .ok d := by
  unfold digitHtoc; split
  · exact Or.inl rfl
  · exact Or.inr ⟨_, rfl⟩

theorem deciTextLoop_ok (s : Bytes) (h : ∀ c ∈ s, isDigitByte c) :
    ∃ l, deciTextLoop s = .ok l ∧ (s ≠ [] → l ≠ []) ∧ deciDigits l.reverse = (s.map (· - 48)).reverse := by
  induction s using deciTextLoop.induct with
  | case1 => exact ⟨[], rfl, by simp, rfl⟩
  | case2 c =>
    have hc := h c (by simp)
    refine ⟨[setLeft (setRight 0xFF (c - 48)) 0xF], ?_, by simp, ?_⟩
    · simp only [deciTextLoop, digitHtoc_ok c hc]; rfl
    · have hv := sub48 c hc
      have hlt : (c - 48).toNat < 10 := by rw [hv]; have := hc.2; omega
      obtain ⟨e1, e2⟩ := set_both' 0xFF (c - 48) 0xF (by omega) (by decide)
      have n := u8_ne15 _ hlt
      simp [deciDigits_cons, e1, e2, n]
      rfl
  | case3 c1 c2 rest ih =>
    have h1 := h c1 (by simp)
    have h2 := h c2 (by simp)
    obtain ⟨l, e, _, d⟩ := ih (fun c hc => h c (by simp [hc]))
    refine ⟨setLeft (setRight 0xFF (c1 - 48)) (c2 - 48) :: l, ?_, by simp, ?_⟩
    · simp only [deciTextLoop, digitHtoc_ok c1 h1, digitHtoc_ok c2 h2, e]; rfl
    · have hv1 := sub48 c1 h1
      have hv2 := sub48 c2 h2
      have l1 : (c1 - 48).toNat < 10 := by rw [hv1]; have := h1.2; omega
      have l2 : (c2 - 48).toNat < 10 := by rw [hv2]; have := h2.2; omega
      obtain ⟨e1, e2⟩ := set_both' 0xFF (c1 - 48) (c2 - 48) (by omega) (by omega)
      have n1 := u8_ne15 _ l1
      have n2 := u8_ne15 _ l2
      rw [List.reverse_cons, deciDigits_append, d, deciDigits_cons, e1, e2]
      simp [n1, n2, deciDigits]

theorem deciTextLoop_bad (s : Bytes) (h : ∃ c ∈ s, ¬ isDigitByte c) : deciTextLoop s = .error .deci := by
  induction s using deciTextLoop.induct with
  | case1 => simp at h
  | case2 c =>
    simp at h
    simp only [deciTextLoop, digitHtoc_bad c h]; rfl
  | case3 c1 c2 rest ih =>
    simp only [deciTextLoop]
    rcases digitHtoc_res c1 with e1 | ⟨d1, e1⟩
    · rw [e1]; rfl
    · rw [e1]
      rcases digitHtoc_res c2 with e2 | ⟨d2, e2⟩
      · rw [e2]; rfl
      · rw [e2]
        have : deciTextLoop rest = .error .deci := by
          apply ih
          obtain ⟨c, hc, hn⟩ := h
          rcases List.mem_cons.1 hc with rfl | hc
          · rw [digitHtoc_bad _ hn] at e1; cases e1
          · rcases List.mem_cons.1 hc with rfl | hc
            · rw [digitHtoc_bad _ hn] at e2; cases e2
            · exact ⟨c, hc, hn⟩
        rw [this]; rfl

/-! from digits to text -/

theorem foldl_dec (l : List UInt8) (acc : Nat) :
    l.foldl (fun r c => r * 10 + c.toNat) acc = acc * 10 ^ l.length + l.foldl (fun r c => r * 10 + c.toNat) 0 := by
  induction l generalizing acc with
  | nil => simp
  | cons b l ih =>
    simp only [List.foldl_cons, List.length_cons]
    rw [ih, ih (0 * 10 + b.toNat), Nat.pow_succ]; ring

theorem rdig_val (x : Nat) : (rdig x).foldl (fun r c => r * 10 + c.toNat) 0 = x := by
  induction x using Nat.strongRecOn with
  | ind x ih =>
    by_cases hx : 0 < x
    · rw [rdig_pos x hx, List.foldl_append, ih _ (by omega)]
      simp only [List.foldl_cons, List.foldl_nil, ofNat_mod10]; omega
    · have : x = 0 := by omega
      subst this; rw [rdig_zero]; rfl

theorem rdig_lt (x : Nat) : ∀ d ∈ rdig x, d.toNat < 10 := by
  induction x using Nat.strongRecOn with
  | ind x ih =>
    by_cases hx : 0 < x
    · rw [rdig_pos x hx]
      intro d hd
      rcases List.mem_append.1 hd with hd | hd
      · exact ih _ (by omega) d hd
      · simp only [List.mem_singleton] at hd; subst hd; rw [ofNat_mod10]; omega
    · have : x = 0 := by omega
      subst this; rw [rdig_zero]; simp

theorem rdig_head (x : Nat) (hx : 0 < x) : ∃ d t, rdig x = d :: t ∧ d ≠ 0 := by
  induction x using Nat.strongRecOn with
  | ind x ih =>
    rw [rdig_pos x hx]
    by_cases h : 0 < x / 10
    · obtain ⟨d, t, e, hd⟩ := ih (x / 10) (by omega) h
      exact ⟨d, t ++ [UInt8.ofNat (x % 10)], by rw [e]; rfl, hd⟩
    · have h0 : x / 10 = 0 := by omega
      rw [h0, rdig_zero]
      refine ⟨_, [], rfl, ?_⟩
      intro he
      have := congrArg UInt8.toNat he
      rw [ofNat_mod10] at this
      simp at this; omega

/-- a digit list without leading zero is determined by its value -/
theorem rdig_unique (l : List UInt8) (hd : ∀ d ∈ l, d.toNat < 10) (hh : ∀ d ∈ l.head?, d ≠ 0) :
    l = rdig (l.foldl (fun r c => r * 10 + c.toNat) 0) := by
  induction l using List.reverseRecOn with
  | nil => simp [rdig_zero]
  | append_singleton l d ih =>
    have hd' : d.toNat < 10 := hd d (by simp)
    have ihl := ih (fun e he => hd e (by simp [he])) (fun e he => by
      apply hh e; cases l with
      | nil => simp at he
      | cons a l => simpa using he)
    rw [List.foldl_append]
    simp only [List.foldl_cons, List.foldl_nil]
    generalize hv : l.foldl (fun r c => r * 10 + c.toNat) 0 = v at *
    have hpos : 0 < v * 10 + d.toNat := by
      by_contra hc
      have hv0 : v = 0 := by omega
      have hd0 : d.toNat = 0 := by omega
      rw [hv0, rdig_zero] at ihl
      subst ihl
      have : d = 0 := UInt8.toNat_inj.1 (by simpa using hd0)
      exact hh d (by simp) this
    rw [rdig_pos _ hpos]
    have h1 : (v * 10 + d.toNat) / 10 = v := by omega
    have h2 : (v * 10 + d.toNat) % 10 = d.toNat := by omega
    rw [h1, h2, ← ihl, UInt8.ofNat_toNat]

theorem digitCtoh_ok (d : UInt8) (h : d.toNat < 10) : digitCtoh d = .ok (48 + d) := by
  unfold digitCtoh
  rw [if_neg]
  intro hc
  have := UInt8.lt_iff_toNat_lt.1 hc
  simp at this; omega

theorem mapM_ctoh (l : List UInt8) (h : ∀ d ∈ l, d.toNat < 10) :
    l.mapM digitCtoh = .ok (l.map (48 + ·)) := by
  induction l with
  | nil => rfl
  | cons d l ih =>
    rw [List.mapM_cons, digitCtoh_ok d (h d (by simp)), ih (fun e he => h e (by simp [he]))]
    rfl

theorem digitChar_byte (d : Nat) (h : d < 10) :
    UInt8.ofNat (Nat.digitChar d).toNat = 48 + UInt8.ofNat d := by
  have : ∀ d : Fin 10, UInt8.ofNat (Nat.digitChar d.val).toNat = 48 + UInt8.ofNat d.val := by decide
  exact this ⟨d, h⟩

/-- the usual decimal text, digit by digit -/
theorem decText_eq (n : Nat) : decText n = (if n = 0 then [0] else rdig n).map (48 + ·) := by
  induction n using Nat.strongRecOn with
  | ind n ih =>
    unfold decText
    by_cases h : n < 10
    · rw [Nat.toDigits_of_lt_base h]
      by_cases h0 : n = 0
      · subst h0; decide
      · rw [if_neg h0, rdig_pos n (by omega)]
        have : n / 10 = 0 := by omega
        rw [this, rdig_zero, show n % 10 = n by omega]
        simp only [List.map_cons, List.map_nil, List.nil_append]
        rw [digitChar_byte n h]
    · rw [Nat.toDigits_of_base_le (by omega) (by omega), if_neg (by omega), rdig_pos n (by omega)]
      have := ih (n / 10) (by omega)
      unfold decText at this
      rw [if_neg (by omega)] at this
      simp only [List.map_append, this, List.map_cons, List.map_nil]
      rw [digitChar_byte _ (by omega)]

end Dar
