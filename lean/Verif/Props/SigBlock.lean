import Verif.Spec.SigBlock
import Mathlib.Tactic.Ring
import Mathlib.Tactic.Tauto
import Mathlib.Tactic.IntervalCases
/- C80: the block size of delta signatures. -/
namespace Dar.Sb
open Dar

/-! ### logarithm and roots -/

theorem bitsLoop_add : ∀ (f tmp ret : Nat), bitsLoop f tmp ret = ret + bitsLoop f tmp 0
  | 0, _, ret => rfl
  | f + 1, tmp, ret => by
    unfold bitsLoop
    split
    · rfl
    · rw [bitsLoop_add f _ (ret + 1), bitsLoop_add f _ (0 + 1)]; omega

theorem bitsLoop_spec : ∀ (f tmp : Nat), tmp ≤ f → tmp < 2 ^ bitsLoop f tmp 0 ∧ (0 < tmp → 2 ^ bitsLoop f tmp 0 ≤ 2 * tmp) ∧ (tmp = 0 → bitsLoop f tmp 0 = 0)
  | 0, tmp, h => by
    have : tmp = 0 := by omega
    subst this; simp [bitsLoop]
  | f + 1, tmp, h => by
    unfold bitsLoop
    by_cases h0 : tmp = 0
    · simp [h0]
    · rw [if_neg h0, bitsLoop_add, Nat.pow_add]
      obtain ⟨h1, h2, h3⟩ := bitsLoop_spec f (tmp / 2) (by omega)
      refine ⟨by simp; omega, fun _ => ?_, fun h => absurd h h0⟩
      by_cases ht : tmp / 2 = 0
      · rw [h3 ht]; simp; omega
      · have := h2 (by omega)
        simp; omega

/-- the number of binary digits -/
theorem bits_spec (x : Nat) : x < 2 ^ bits x ∧ (0 < x → 2 ^ bits x ≤ 2 * x) ∧ (x = 0 → bits x = 0) := bitsLoop_spec x x (Nat.le_refl _)

theorem bits_mono {x y : Nat} (h : x ≤ y) : bits x ≤ bits y := by
  obtain ⟨-, h2, h3⟩ := bits_spec x
  obtain ⟨g1, -, -⟩ := bits_spec y
  by_cases hx : x = 0
  · rw [h3 hx]; omega
  · have := h2 (by omega)
    have hlt : 2 ^ bits x < 2 ^ (bits y + 1) := by rw [Nat.pow_succ]; omega
    have := (Nat.pow_lt_pow_iff_right (by omega : 1 < 2)).1 hlt
    omega

theorem exp2_eq (x : Nat) : exp2 x = 2 ^ x := by simp [exp2, Nat.shiftLeft_eq]

theorem root2_spec (x : Nat) : FnValue .root2 x (root2 x) := by
  obtain ⟨h1, h2, h3⟩ := bits_spec x
  refine ⟨⟨_, exp2_eq _⟩, ?_⟩
  have hr : root2 x ^ 2 = 2 ^ (2 * (bits x / 2)) := by rw [root2, exp2_eq, ← Nat.pow_mul, Nat.mul_comm]
  rw [hr]
  have hcase : bits x = 2 * (bits x / 2) ∨ bits x = 2 * (bits x / 2) + 1 := by omega
  rcases Nat.eq_zero_or_pos x with h0 | h0
  · subst h0; rw [h3 rfl]; simp
  · have h2 := h2 h0
    have hm : max x 1 = x := by omega
    rw [hm]
    rcases hcase with hc | hc
    · rw [hc] at h1 h2
      constructor <;> omega
    · rw [hc, Nat.pow_succ] at h1 h2
      constructor <;> omega

theorem root3_spec (x : Nat) : FnValue .root3 x (root3 x) := by
  obtain ⟨h1, h2, h3⟩ := bits_spec x
  refine ⟨⟨_, exp2_eq _⟩, ?_⟩
  have hr : root3 x ^ 3 = 2 ^ (3 * (bits x / 3)) := by rw [root3, exp2_eq, ← Nat.pow_mul, Nat.mul_comm]
  rw [hr]
  have hcase : bits x = 3 * (bits x / 3) ∨ bits x = 3 * (bits x / 3) + 1 ∨ bits x = 3 * (bits x / 3) + 2 := by omega
  rcases Nat.eq_zero_or_pos x with h0 | h0
  · subst h0; rw [h3 rfl]; simp
  · have h2 := h2 h0
    have hm : max x 1 = x := by omega
    rw [hm]
    rcases hcase with hc | hc | hc
    · rw [hc] at h1 h2
      constructor <;> omega
    · rw [hc, Nat.pow_succ] at h1 h2
      constructor <;> omega
    · rw [hc, Nat.pow_add] at h1 h2
      constructor <;> omega

/-- what the multiplier is multiplied by -/
def Sig.val (s : Sig) (size : Nat) : Nat := (s.factor size).getD 1

theorem val_spec (s : Sig) (size : Nat) : FnValue s.fn size (s.val size) := by
  unfold Sig.val Sig.factor
  cases s.fn with
  | fixed => rfl
  | linear => rfl
  | log2 =>
    obtain ⟨h1, h2, h3⟩ := bits_spec size
    refine ⟨h1, fun h => h2 ?_⟩
    rcases Nat.eq_zero_or_pos size with h0 | h0
    · simp [h3 h0] at h
    · exact h0
  | root2 => exact root2_spec size
  | root3 => exact root3_spec size

theorem val_mono (s : Sig) {x y : Nat} (h : x ≤ y) : s.val x ≤ s.val y := by
  unfold Sig.val Sig.factor
  cases s.fn with
  | fixed => exact Nat.le_refl _
  | linear => exact h
  | log2 => exact bits_mono h
  | root2 => simp only [Option.getD_some, root2, exp2_eq]; exact Nat.pow_le_pow_right (by omega) (Nat.div_le_div_right (bits_mono h))
  | root3 => simp only [Option.getD_some, root3, exp2_eq]; exact Nat.pow_le_pow_right (by omega) (Nat.div_le_div_right (bits_mono h))

/-! ### the block size -/

def clampLen (s : Sig) (x : Nat) : Nat :=
  let ret := if x < s.lo then s.lo else x
  if s.hi > 0 ∧ ret > s.hi then s.hi else ret

theorem check_ok {s : Sig} (h : s.check = .ok ()) : s.dvs ≠ 0 ∧ (s.hi = 0 ∨ s.lo ≤ s.hi) := by
  unfold Sig.check at h
  split at h
  · cases h
  · split at h
    · cases h
    · refine ⟨by assumption, by omega⟩

theorem calculate_eq (lim : Option Nat) (s : Sig) (size : Nat) (hd : s.dvs ≠ 0) :
    s.calculate lim size = (match lim with
      | none => .ok (clampLen s (unstackUI (s.mult * s.val size / s.dvs)))
      | some m => if s.fn ≠ .fixed ∧ s.mult * s.val size > m then .error .limitint else .ok (clampLen s (unstackUI (s.mult * s.val size / s.dvs)))) := by
  unfold Sig.calculate Sig.val
  cases hf : s.fn with
  | fixed =>
    simp only [Sig.factor, hf, bind, Except.bind, if_neg hd, Option.getD_none, Nat.mul_one, ne_eq, not_true_eq_false, false_and, if_false]
    cases lim <;> rfl
  | _ =>
    cases lim with
    | none => simp only [Sig.factor, hf, mul, bind, Except.bind, if_neg hd, Option.getD_some]; rfl
    | some m =>
      by_cases hx : s.mult * (s.factor size).getD 1 > m
      · simp only [Sig.factor, hf, Option.getD_some] at hx
        simp only [Sig.factor, hf, mul, bind, Except.bind, Option.getD_some, ne_eq, reduceCtorEq, not_false_eq_true, true_and, if_pos hx]
      · simp only [Sig.factor, hf, Option.getD_some] at hx
        simp only [Sig.factor, hf, mul, bind, Except.bind, Option.getD_some, ne_eq, reduceCtorEq, not_false_eq_true, true_and, if_neg hx, if_neg hd]
        rfl

theorem clamp_bounded (s : Sig) (hh : s.hi = 0 ∨ s.lo ≤ s.hi) (x : Nat) : Bounded s.lo s.hi x (clampLen s x) := by
  unfold clampLen
  constructor
  · intro h
    simp only [if_pos h]
    rw [if_neg (by omega)]
  · intro h1 h2 h3
    simp only [if_neg (by omega : ¬ x < s.lo)]
    rw [if_pos (by omega)]
  · intro h1 h2
    simp only [if_neg (by omega : ¬ x < s.lo)]
    rw [if_neg (by omega)]

/-- C80: with valid parameters the block size of a file of any size is the one of the formula of the manual; it can always be calculated with unbounded integers, and
with integers limited to `m` except when the product is larger, which is told as such. -/
theorem C80_formula (s : Sig) (hs : s.check = .ok ()) (size : Nat) :
    (∃ n, s.calculate none size = .ok n ∧ BlockLen s size n) ∧
    (∀ m, (∃ n, s.calculate (some m) size = .ok n ∧ BlockLen s size n) ∨
      (s.calculate (some m) size = .error .limitint ∧ ∃ v, FnValue s.fn size v ∧ m < s.mult * v)) := by
  obtain ⟨hd, hh⟩ := check_ok hs
  have hb : BlockLen s size (clampLen s (unstackUI (s.mult * s.val size / s.dvs))) :=
    ⟨s.val size, val_spec s size, by rw [Nat.mul_comm s.mult]; exact clamp_bounded s hh _⟩
  refine ⟨⟨_, calculate_eq none s size hd, hb⟩, fun m => ?_⟩
  rw [calculate_eq (some m) s size hd]
  simp only []
  split
  · rename_i h
    exact Or.inr ⟨rfl, _, val_spec s size, h.2⟩
  · exact Or.inl ⟨_, rfl, hb⟩

/-- C80: the block size is between the bounds. -/
theorem C80_bounds (lim : Option Nat) (s : Sig) (hs : s.check = .ok ()) (size n : Nat) (h : s.calculate lim size = .ok n) :
    s.lo ≤ n ∧ (s.hi ≠ 0 → n ≤ s.hi) := by
  obtain ⟨hd, hh⟩ := check_ok hs
  have : n = clampLen s (unstackUI (s.mult * s.val size / s.dvs)) := by
    rw [calculate_eq lim s size hd] at h
    cases lim with
    | none => cases h; rfl
    | some m =>
      simp only [] at h
      split at h
      · cases h
      · cases h; rfl
  subst this
  unfold clampLen
  simp only []
  split <;> split <;> omega

/-- C80: a larger file has not smaller blocks. -/
theorem C80_monotone (s : Sig) (hs : s.check = .ok ()) (x y : Nat) (h : x ≤ y) :
    ∃ n m, s.calculate none x = .ok n ∧ s.calculate none y = .ok m ∧ n ≤ m := by
  obtain ⟨hd, hh⟩ := check_ok hs
  refine ⟨_, _, calculate_eq none s x hd, calculate_eq none s y hd, ?_⟩
  have hv := val_mono s h
  have h1 : s.mult * s.val x / s.dvs ≤ s.mult * s.val y / s.dvs := Nat.div_le_div_right (Nat.mul_le_mul_left _ hv)
  have h2 : unstackUI (s.mult * s.val x / s.dvs) ≤ unstackUI (s.mult * s.val y / s.dvs) := by unfold unstackUI; omega
  unfold clampLen
  simp only []
  generalize unstackUI (s.mult * s.val x / s.dvs) = a at *
  generalize unstackUI (s.mult * s.val y / s.dvs) = b at *
  repeat' split
  all_goals omega

/-! ### the option -/

instance (t : Bytes) : Decidable (Field t) := by unfold Field; infer_instance

theorem split_fields : ∀ (l : List Bytes) (cur : Bytes) (acc : List Bytes), cur ≠ [] → (∀ t ∈ l, Field t) →
    Mp.splitLoop 58 cur acc (withColons l) = acc ++ cur :: l
  | [], cur, acc, hc, _ => by simp [withColons, Mp.splitLoop, hc]
  | t :: l, cur, acc, hc, h => by
    have ht := h t (by simp)
    have hl : ∀ t ∈ l, Field t := fun t h' => h t (List.mem_cons_of_mem _ h')
    have run : ∀ (w cur : Bytes) (acc : List Bytes) (r : Bytes), (58 : UInt8) ∉ w → Mp.splitLoop 58 cur acc (w ++ r) = Mp.splitLoop 58 (cur ++ w) acc r := by
      intro w
      induction w with
      | nil => intro cur acc r _; simp
      | cons c w ih =>
        intro cur acc r hw
        have hc : c ≠ 58 := fun hh => hw (by simp [hh])
        simp only [List.cons_append, Mp.splitLoop, ne_eq, hc, not_false_eq_true, if_true]
        rw [ih _ _ _ (fun hh => hw (List.mem_cons_of_mem _ hh))]
        simp
    simp only [withColons, Mp.splitLoop, ne_eq, not_true_eq_false, if_false]
    rw [run _ _ _ _ ht.2, List.nil_append, split_fields l t _ ht.1 hl]
    simp

theorem fnText_ok {fn : Fn} {t : Bytes} (h : FnText fn t) : fnOfText t = .ok fn := by
  cases fn <;> simp only [FnText] at h
  case fixed => subst h; rfl
  case linear => subst h; rfl
  case log2 => subst h; rfl
  case root2 => rcases h with rfl | rfl <;> rfl
  case root3 => rcases h with rfl | rfl <;> rfl

theorem lenOfText_ok {base : Nat} {t : Bytes} {v : Nat} (h : extendedSize t base = .ok v) (hv : v < 2 ^ 64) : lenOfText base t = .ok v := by
  unfold lenOfText
  have : unstackUI v = v := by unfold unstackUI; omega
  simp only [h, bind, Except.bind, this]
  simp

/-- C80: the option gives the function, the multiplier, the divisor, the bounds and the hash written, when the divisor is not null and min not above max; the missing ones are: divisor 1,
min 2048, the hash rk-blake2.  Missing: according to the manual the missing max is 0, that is no maximum (see the counterexample). -/
theorem C80_option_partial (magic : Bytes → Option Magic) (base : Nat) (fn : Fn) (f : Bytes) (hf : FnText fn f) (tm td tl th hh : Bytes) (m d lo hi : Nat) (h : Magic)
    (fm : Field tm) (fd : Field td) (fl : Field tl) (fh : Field th) (fhh : Field hh)
    (em : extendedSize tm base = .ok m) (ed : extendedSize td base = .ok d) (el : extendedSize tl base = .ok lo) (eh : extendedSize th base = .ok hi) (ehh : magic hh = some h)
    (hlo : lo < 2 ^ 64) (hhi : hi < 2 ^ 64) :
    parseSig magic base (asc "sig" ++ withColons [f, tm]) = .ok (⟨fn, m, 1, 2048, 131072⟩, .rkBlake2) ∧
    (d ≠ 0 → parseSig magic base (asc "sig" ++ withColons [f, tm, td]) = .ok (⟨fn, m, d, 2048, 131072⟩, .rkBlake2)) ∧
    (d ≠ 0 → lo ≤ 131072 → parseSig magic base (asc "sig" ++ withColons [f, tm, td, tl]) = .ok (⟨fn, m, d, lo, 131072⟩, .rkBlake2)) ∧
    (d ≠ 0 → (hi = 0 ∨ lo ≤ hi) → parseSig magic base (asc "sig" ++ withColons [f, tm, td, tl, th]) = .ok (⟨fn, m, d, lo, hi⟩, .rkBlake2) ∧
      parseSig magic base (asc "sig" ++ withColons [f, tm, td, tl, th, hh]) = .ok (⟨fn, m, d, lo, hi⟩, h)) ∧
    (d = 0 ∨ (hi ≠ 0 ∧ hi < lo) → parseSig magic base (asc "sig" ++ withColons [f, tm, td, tl, th]) = .error .range) := by
  have ff : Field f := by
    cases fn <;> simp only [FnText] at hf
    case fixed => subst hf; decide
    case linear => subst hf; decide
    case log2 => subst hf; decide
    case root2 => rcases hf with rfl | rfl <;> decide
    case root3 => rcases hf with rfl | rfl <;> decide
  have hsp : ∀ l : List Bytes, (∀ t ∈ l, Field t) → (Mp.split 58 (asc "sig" ++ withColons l)).drop 1 = l := by
    intro l hl
    have : Mp.split 58 (asc "sig" ++ withColons l) = Mp.splitLoop 58 (asc "sig") [] (withColons l) := by
      show Mp.splitLoop 58 [] [] (115 :: 105 :: 103 :: withColons l) = _
      simp only [Mp.splitLoop]
      rfl
    rw [this, split_fields l _ _ (by decide) hl]
    simp
  have hfn := fnText_ok hf
  have hl := lenOfText_ok el hlo
  have hh2 := lenOfText_ok eh hhi
  refine ⟨?_, ?_, ?_, ?_, ?_⟩
  · unfold parseSig
    rw [hsp _ (by simp [ff, fm])]
    simp [parseFn, parseDiv, parseLo, parseHi, parseHash, hfn, em, bind, Except.bind, Sig.check, Sig.reset, Magic.dflt, defaultLen]
  · intro hd
    unfold parseSig
    rw [hsp _ (by simp [ff, fm, fd])]
    simp [parseFn, parseDiv, parseLo, parseHi, parseHash, hfn, em, ed, bind, Except.bind, Sig.check, Sig.reset, Magic.dflt, defaultLen, hd]
  · intro hd hb
    unfold parseSig
    rw [hsp _ (by simp [ff, fm, fd, fl])]
    have : ¬ 131072 < lo := by omega
    simp [parseFn, parseDiv, parseLo, parseHi, parseHash, hfn, em, ed, hl, bind, Except.bind, Sig.check, Sig.reset, Magic.dflt, defaultLen, hd, this]
  · intro hd hb
    have : ¬ (¬ hi = 0 ∧ hi < lo) := by omega
    constructor
    · unfold parseSig
      rw [hsp _ (by simp [ff, fm, fd, fl, fh])]
      simp [parseFn, parseDiv, parseLo, parseHi, parseHash, hfn, em, ed, hl, hh2, bind, Except.bind, Sig.check, Sig.reset, Magic.dflt, hd, this]
    · unfold parseSig
      rw [hsp _ (by simp [ff, fm, fd, fl, fh, fhh])]
      simp [parseFn, parseDiv, parseLo, parseHi, parseHash, hfn, em, ed, hl, hh2, ehh, bind, Except.bind, Sig.check, Sig.reset, hd, this]
  · intro hb
    unfold parseSig
    rw [hsp _ (by simp [ff, fm, fd, fl, fh])]
    rcases hb with hb | hb
    · simp [parseFn, parseDiv, parseLo, parseHi, parseHash, hfn, em, ed, hl, hh2, bind, Except.bind, Sig.check, hb]
    · by_cases hd : d = 0
      · simp [parseFn, parseDiv, parseLo, parseHi, parseHash, hfn, em, ed, hl, hh2, bind, Except.bind, Sig.check, hd]
      · have : ¬ hi = 0 ∧ hi < lo := hb
        simp [parseFn, parseDiv, parseLo, parseHi, parseHash, hfn, em, ed, hl, hh2, bind, Except.bind, Sig.check, hd, this]

/-- C80: without the option the block size is the one of root2:1:1:2048:131072. -/
theorem C80_default : Sig.reset = ⟨.root2, 1, 1, 2048, 131072⟩ ∧ ∀ size, ∃ n, Sig.reset.calculate none size = .ok n ∧ BlockLen ⟨.root2, 1, 1, 2048, 131072⟩ size n :=
  ⟨rfl, fun size => (C80_formula Sig.reset rfl size).1⟩

/-- C80: a function alone, an unknown function, an unknown hash, and something after the hash are refused. -/
theorem C80_refused (magic : Bytes → Option Magic) (base : Nat) (f tm td tl th hh x : Bytes) (ff : Field f) (fm : Field tm) (fd : Field td) (fl : Field tl) (fh : Field th) (fhh : Field hh)
    (fx : Field x) :
    (∃ e, parseSig magic base (asc "sig" ++ withColons [f]) = .error e) ∧
    ((∀ fn, ¬ FnText fn f) → ∀ l, (∀ t ∈ l, Field t) → parseSig magic base (asc "sig" ++ withColons (f :: l)) = .error .range) ∧
    (magic hh = none → ∃ e, parseSig magic base (asc "sig" ++ withColons [f, tm, td, tl, th, hh]) = .error e) ∧
    (∃ e, parseSig magic base (asc "sig" ++ withColons [f, tm, td, tl, th, hh, x]) = .error e) := by
  have hsp : ∀ l : List Bytes, (∀ t ∈ l, Field t) → (Mp.split 58 (asc "sig" ++ withColons l)).drop 1 = l := by
    intro l hl
    have : Mp.split 58 (asc "sig" ++ withColons l) = Mp.splitLoop 58 (asc "sig") [] (withColons l) := by
      show Mp.splitLoop 58 [] [] (115 :: 105 :: 103 :: withColons l) = _
      simp only [Mp.splitLoop]
      rfl
    rw [this, split_fields l _ _ (by decide) hl]
    simp
  refine ⟨?_, ?_, ?_, ?_⟩
  · unfold parseSig
    rw [hsp _ (by simp [ff])]
    cases h : fnOfText f with
    | error e => exact ⟨e, by simp [parseFn, h, bind, Except.bind]⟩
    | ok fn => exact ⟨.range, by simp [parseFn, h, bind, Except.bind]⟩
  · intro hf l hl
    unfold parseSig
    rw [hsp _ (by simpa [ff] using hl)]
    have : fnOfText f = .error .range := by
      unfold fnOfText
      have h1 := hf .fixed; have h2 := hf .linear; have h3 := hf .log2; have h4 := hf .root2; have h5 := hf .root3
      simp only [FnText] at h1 h2 h3 h4 h5
      rw [if_neg h1, if_neg h2, if_neg h3, if_neg (by tauto), if_neg (by tauto)]
    simp only [parseFn, this, bind, Except.bind]
  · intro hm
    unfold parseSig
    rw [hsp _ (by simp [ff, fm, fd, fl, fh, fhh])]
    simp only [parseFn, parseDiv, parseLo, parseHi, parseHash, hm, bind, Except.bind]
    repeat' split
    all_goals first | exact ⟨_, rfl⟩ | simp_all
    all_goals (repeat' split at * <;> simp_all)
  · unfold parseSig
    rw [hsp _ (by simp [ff, fm, fd, fl, fh, fhh, fx])]
    simp only [parseFn, parseDiv, parseLo, parseHi, parseHash, bind, Except.bind, reduceCtorEq, if_false]
    repeat' split
    all_goals first | exact ⟨_, rfl⟩ | simp_all
    all_goals (repeat' split at * <;> simp_all)

/-! ### Examples and counterexamples -/

/-- the default: a file of 100 MB has blocks of 8192 bytes, a small one of 2048 bytes, a huge one of 131072 bytes -/
theorem C80_example : Sig.reset.check = .ok () ∧ Sig.reset.calculate none 0 = .ok 2048 ∧ root2 1024 = 32 ∧ root2 1023 = 32 ∧ root3 1023 = 8 ∧ bits 1024 = 11 ∧
    (Sig.mk .linear 1 10 100 500).calculate none 3000 = .ok 300 := ⟨rfl, rfl, by decide +kernel, by decide +kernel, by decide +kernel, by decide +kernel, rfl⟩
/-- "--delta sig:linear:2:3" -/
theorem C80_option_example : FnText .linear (asc "linear") ∧ Field [50] ∧ extendedSize [50] 1024 = .ok 2 ∧
    parseSig (fun _ => none) 1024 (asc "sig:linear:2:3") = .ok (⟨.linear, 2, 3, 2048, 131072⟩, .rkBlake2) := ⟨rfl, by decide, rfl, rfl⟩
/-- Without max there is no maximum according to the manual; the block size of a file of 1000000 bytes with the size of the file as block size is 131072 all the same. -/
theorem C80_max_counterexample : ∃ s h, parseSig (fun _ => none) 1024 (asc "sig:linear:1") = .ok (s, h) ∧ s.calculate none 1000000 = .ok 131072 ∧
    { s with hi := 0 }.calculate none 1000000 = .ok 1000000 := ⟨⟨.linear, 1, 1, 2048, 131072⟩, .rkBlake2, rfl, by decide +kernel, by decide +kernel⟩
/-- and a min above 131072 is refused if max is not given -/
theorem C80_min_counterexample : parseSig (fun _ => none) 1024 (asc "sig:fixed:1:1:200k") = .error .range := by decide +kernel
/-- log2 is told to be rounded up: for an exact power of two it is one more -/
theorem C80_log2_counterexample : bits 1024 = 11 ∧ 1024 = 2 ^ 10 := ⟨by decide +kernel, rfl⟩
/-- a block size of zero is accepted -/
theorem C80_zero_counterexample : (Sig.mk .fixed 0 1 0 0).check = .ok () ∧ (Sig.mk .fixed 0 1 0 0).calculate none 5 = .ok 0 := ⟨rfl, rfl⟩

end Dar.Sb
