import Verif.Spec.ComprArg
import Verif.Props.ToolsText
import Verif.Props.UserArgs
/- C85: the argument of -z. -/
namespace Dar.Zc
open Dar

/-! ### numbers -/

theorem blank_iff (c : UInt8) : blank c = true ↔ Blank c := by
  have : ∀ n < 256, blank (UInt8.ofNat n) = true ↔ Blank (UInt8.ofNat n) := by unfold blank Blank; decide +kernel
  have h := this c.toNat c.toNat_lt
  simpa using h
theorem digit_iff (c : UInt8) : digit c = true ↔ isDigitByte c := by
  have : ∀ n < 256, digit (UInt8.ofNat n) = true ↔ isDigitByte (UInt8.ofNat n) := by unfold digit isDigitByte; decide +kernel
  have h := this c.toNat c.toNat_lt
  simpa using h
theorem digit_notBlank {c : UInt8} (h : digit c = true) : blank c = false := by
  cases hb : blank c with
  | false => rfl
  | true =>
    rw [blank_iff] at hb; rw [digit_iff] at h
    unfold Blank at hb; unfold isDigitByte at h; omega

theorem takeWhile_mem (p : UInt8 → Bool) : ∀ (l : Bytes), ∀ c ∈ l.takeWhile p, p c = true
  | [], c, h => by cases h
  | a :: l, c, h => by
    rw [List.takeWhile_cons] at h
    split at h
    · rename_i ha
      rcases List.mem_cons.1 h with rfl | h
      · exact ha
      · exact takeWhile_mem p l c h
    · cases h
theorem dropWhile_all (p : UInt8 → Bool) : ∀ (a l : Bytes), (∀ c ∈ a, p c = true) → (a ++ l).dropWhile p = l.dropWhile p
  | [], _, _ => rfl
  | c :: a, l, h => by
    rw [List.cons_append, List.dropWhile_cons, if_pos (h c (by simp)), dropWhile_all p a l (fun d hd => h d (by simp [hd]))]
theorem takeWhile_all (p : UInt8 → Bool) : ∀ (a l : Bytes), (∀ c ∈ a, p c = true) → (a ++ l).takeWhile p = a ++ l.takeWhile p
  | [], _, _ => rfl
  | c :: a, l, h => by
    rw [List.cons_append, List.takeWhile_cons, if_pos (h c (by simp)), takeWhile_all p a l (fun d hd => h d (by simp [hd]))]; rfl
theorem dropWhile_none (p : UInt8 → Bool) {l : Bytes} (h : ∀ c l', l = c :: l' → p c = false) : l.dropWhile p = l := by
  cases l with
  | nil => rfl
  | cons c l => rw [List.dropWhile_cons, if_neg (by simp [h c l rfl])]
theorem takeWhile_none (p : UInt8 → Bool) {l : Bytes} (h : ∀ c l', l = c :: l' → p c = false) : l.takeWhile p = [] := by
  cases l with
  | nil => rfl
  | cons c l => rw [List.takeWhile_cons, if_neg (by simp [h c l rfl])]

theorem dropWhile_nil (p : UInt8 → Bool) : ∀ (l : Bytes), l.dropWhile p = [] ↔ ∀ c ∈ l, p c = true
  | [] => by simp
  | c :: l => by
    rw [List.dropWhile_cons]
    by_cases h : p c = true
    · rw [if_pos h, dropWhile_nil p l]; simp [h]
    · rw [if_neg h]; simp [h]

theorem sign_spec (t : Bytes) : ∃ sg, t = sg ++ (sign t).2 ∧ (((sg = [] ∨ sg = [43]) ∧ (sign t).1 = false) ∨ (sg = [45] ∧ (sign t).1 = true)) := by
  cases t with
  | nil => exact ⟨[], rfl, .inl ⟨.inl rfl, rfl⟩⟩
  | cons c l =>
    unfold sign
    by_cases h1 : c = 45
    · exact ⟨[45], by simp [h1], .inr ⟨rfl, by simp [h1]⟩⟩
    · by_cases h2 : c = 43
      · exact ⟨[43], by simp [h2], .inl ⟨.inr rfl, by simp [h2]⟩⟩
      · exact ⟨[], by simp [h1, h2], .inl ⟨.inl rfl, by simp [h1, h2]⟩⟩

/-- **C85** (numbers): tools_str2int accepts exactly the numbers, and gives their value. -/
theorem C85_number (t : Bytes) (n : Nat) : str2int t = some n ↔ NumberSays t n := by
  constructor
  · intro h
    unfold str2int at h
    simp only at h
    split at h
    · cases h
    · rename_i h0
      split at h
      · cases h
      · rename_i hv
        split at h
        · rename_i hr
          obtain ⟨sg, hs, hsg⟩ := sign_spec (t.dropWhile blank)
          refine ⟨t.takeWhile blank, sg, (sign (t.dropWhile blank)).2.takeWhile digit, (sign (t.dropWhile blank)).2.dropWhile digit, ?_, ?_, ?_, h0, ?_, ?_, ?_⟩
          · rw [List.append_assoc, List.takeWhile_append_dropWhile, List.append_assoc, ← hs, List.takeWhile_append_dropWhile]
          · intro c hc; exact (blank_iff c).1 (takeWhile_mem _ _ c hc)
          · intro c hc
            rw [← blank_iff]
            exact (dropWhile_nil blank _).1 hr c hc
          · intro c hc; exact (digit_iff c).1 (takeWhile_mem _ _ c hc)
          · simp only [value] at hv; simp only [decVal]; omega
          · rcases hsg with ⟨hsg, hb⟩ | ⟨hsg, hb⟩
            · rw [hb] at h; simp only [Bool.false_eq_true, if_false, Option.some.injEq] at h
              exact .inl ⟨hsg, h.symm⟩
            · rw [hb] at h; simp only [if_true, Option.some.injEq] at h
              exact .inr ⟨hsg, h.symm⟩
        · cases h
  · rintro ⟨b, sg, d, a, rfl, hb, ha, h0, hd, hv, hn⟩
    have hb' : ∀ c ∈ b, blank c = true := fun c hc => (blank_iff c).2 (hb c hc)
    have hd' : ∀ c ∈ d, digit c = true := fun c hc => (digit_iff c).2 (hd c hc)
    have ha' : ∀ c ∈ a, blank c = true := fun c hc => (blank_iff c).2 (ha c hc)
    obtain ⟨d0, dl, rfl⟩ := List.exists_cons_of_ne_nil h0
    have hd0 : digit d0 = true := hd' d0 (by simp)
    have hsign : sign (sg ++ (d0 :: dl ++ a)) = (decide (sg = [45]), d0 :: dl ++ a) ∧ ∀ c l', sg ++ (d0 :: dl ++ a) = c :: l' → blank c = false := by
      have e1 : d0 ≠ 45 := by rintro rfl; revert hd0; decide
      have e2 : d0 ≠ 43 := by rintro rfl; revert hd0; decide
      rcases hn with ⟨rfl | rfl, _⟩ | ⟨rfl, _⟩
      · exact ⟨by simp [sign, e1, e2], fun c l' e => by cases e; exact digit_notBlank hd0⟩
      · exact ⟨by simp [sign], fun c l' e => by cases e; decide⟩
      · exact ⟨by simp [sign], fun c l' e => by cases e; decide⟩
    have h1 : (b ++ sg ++ (d0 :: dl) ++ a).dropWhile blank = sg ++ (d0 :: dl ++ a) := by
      rw [List.append_assoc, List.append_assoc, dropWhile_all _ _ _ hb', dropWhile_none _ hsign.2]
    have hna : ∀ c l', a = c :: l' → digit c = false := by
      intro c l' e
      have := ha' c (by simp [e])
      cases hx : digit c with
      | false => rfl
      | true => rw [digit_notBlank hx] at this; cases this
    have h2 : (d0 :: dl ++ a).takeWhile digit = d0 :: dl := by
      rw [takeWhile_all _ _ _ hd', takeWhile_none _ hna, List.append_nil]
    have h3 : (d0 :: dl ++ a).dropWhile digit = a := by rw [dropWhile_all _ _ _ hd', dropWhile_none _ hna]
    have h4 : a.dropWhile blank = [] := (dropWhile_nil blank _).2 ha'
    unfold str2int
    simp only [h1, hsign.1, h2, h3, h4, if_true]
    rw [if_neg h0, if_neg (by simp only [decVal] at hv; simp only [value]; omega)]
    rcases hn with ⟨hsg, rfl⟩ | ⟨rfl, rfl⟩
    · have : sg ≠ [45] := by rintro rfl; rcases hsg with h | h <;> revert h <;> decide
      simp [this, value, decVal]
    · simp [value, decVal]

theorem number_noColon {t : Bytes} {n : Nat} (h : NumberSays t n) : 58 ∉ t ∧ t ≠ [] := by
  obtain ⟨b, sg, d, a, rfl, hb, ha, h0, hd, _, hn⟩ := h
  constructor
  · intro hm
    simp only [List.mem_append] at hm
    rcases hm with ((hm | hm) | hm) | hm
    · exact absurd (hb _ hm) (by unfold Blank; decide)
    · rcases hn with ⟨rfl | rfl, _⟩ | ⟨rfl, _⟩ <;> revert hm <;> decide
    · exact absurd (hd _ hm) (by unfold isDigitByte; decide)
    · exact absurd (ha _ hm) (by unfold Blank; decide)
  · simp [h0]

/-! ### the fields -/

theorem compr_iff (t : Bytes) (a : Compr) : compr t = .ok a ↔ ∃ s, (s, a) ∈ names ∧ t = asc s := by
  constructor
  · intro h
    have key : ∀ s c, (s, c) ∈ names → t = asc s → c = a → ∃ s, (s, a) ∈ names ∧ t = asc s := fun s c h1 h2 h3 => ⟨s, h3 ▸ h1, h2⟩
    unfold compr at h
    repeat' split at h
    all_goals first | cases h | skip
    · rename_i e; rcases e with e | e
      · exact key _ _ (by simp [names]) e rfl
      · exact ⟨"gz", by simp [names], e⟩
    · rename_i e; rcases e with e | e | e
      · exact ⟨"bzip2", by simp [names], e⟩
      · exact ⟨"bzip", by simp [names], e⟩
      · exact ⟨"bz", by simp [names], e⟩
    · rename_i e; rcases e with e | e | e
      · exact ⟨"lzo", by simp [names], e⟩
      · exact ⟨"lz", by simp [names], e⟩
      · exact ⟨"l", by simp [names], e⟩
    · rename_i e; rcases e with e | e
      · exact ⟨"lzop-1", by simp [names], e⟩
      · exact ⟨"lzop1", by simp [names], e⟩
    · rename_i e; rcases e with e | e
      · exact ⟨"lzop-3", by simp [names], e⟩
      · exact ⟨"lzop3", by simp [names], e⟩
    · rename_i e; rcases e with e | e
      · exact ⟨"xz", by simp [names], e⟩
      · exact ⟨"lzma", by simp [names], e⟩
    · rename_i e; exact ⟨"zstd", by simp [names], e⟩
    · rename_i e; exact ⟨"lz4", by simp [names], e⟩
    · rename_i e; exact ⟨"none", by simp [names], e⟩
  · rintro ⟨s, hs, rfl⟩
    have : ∀ p ∈ names, compr (asc p.1) = .ok p.2 := by
      intro p hp
      simp only [names, List.mem_cons, List.not_mem_nil, or_false] at hp
      rcases hp with rfl | rfl | rfl | rfl | rfl | rfl | rfl | rfl | rfl | rfl | rfl | rfl | rfl | rfl | rfl | rfl | rfl <;> rfl
    exact this _ hs

theorem name_text : ∀ p ∈ names, asc p.1 ≠ [] ∧ 58 ∉ asc p.1 ∧ str2int (asc p.1) = none := by
  intro p hp
  simp only [names, List.mem_cons, List.not_mem_nil, or_false] at hp
  rcases hp with rfl | rfl | rfl | rfl | rfl | rfl | rfl | rfl | rfl | rfl | rfl | rfl | rfl | rfl | rfl | rfl | rfl <;>
    decide +kernel

theorem algoOf_iff (t : Bytes) (a : Compr) : algoOf t = .ok a ↔ AlgoSays t a := by
  unfold algoOf AlgoSays
  by_cases h : t = []
  · rw [if_pos h]
    simp only [Except.ok.injEq, h, true_and]
    constructor
    · intro e; exact .inl e.symm
    · rintro (e | ⟨s, hs, e⟩)
      · exact e.symm
      · exact absurd e.symm (name_text _ hs).1
  · rw [if_neg h, compr_iff]
    simp [h]

theorem levelOf_iff (a : Compr) (t : Bytes) (n : Nat) : levelOf a t = .ok n ↔ LevelSays a t n := by
  unfold levelOf LevelSays
  by_cases h : t = []
  · rw [if_pos h]; simp [h, eq_comm]
  · rw [if_neg h]
    cases hs : str2int t with
    | none =>
      simp only [reduceCtorEq, h, false_and, not_false_eq_true, true_and, false_or, false_iff]
      rintro ⟨_, h1, _⟩
      rw [← C85_number, hs] at h1; cases h1
    | some v =>
      simp only [h, false_and, not_false_eq_true, true_and, false_or, ne_eq]
      constructor
      · intro e
        split at e
        · cases e
        · rename_i hc
          cases e
          refine ⟨(C85_number _ _).1 hs, by omega, ?_⟩
          by_cases ha : a = .zstd
          · exact .inl ha
          · exact .inr (by simp only [ha, not_false_eq_true, and_true] at hc; omega)
      · rintro ⟨h1, h2, h3⟩
        rw [← C85_number, hs] at h1; cases h1
        rw [if_neg]
        rintro (⟨h4, h5⟩ | h4)
        · rcases h3 with h3 | h3
          · exact h5 h3
          · omega
        · omega

theorem size_iff (base : Nat) (hb : 1 < base) (t : Bytes) (n : Nat) : blockOf base t = .ok n ↔ SizeSays base t n := by
  have hx : ∀ v, extendedSize t base = .ok v ↔ ((t = [] ∧ v = 0) ∨
      ∃ digits, digits ≠ [] ∧ (∀ c ∈ digits, isDigitByte c) ∧ ((t = digits ∧ v = decVal digits) ∨ ∃ u ∈ unitTable, t = digits ++ [chr u.1] ∧ v = base ^ u.2 * decVal digits)) := by
    intro v
    constructor
    · intro h
      by_cases h0 : t = []
      · subst h0; rw [C37_empty_counterexample] at h; cases h; exact .inl ⟨rfl, rfl⟩
      · obtain ⟨d, d0, dd, hd⟩ := C37_refuse t h0 base v h
        obtain ⟨v1, v2⟩ := C37_value d d0 dd base hb
        refine .inr ⟨d, d0, dd, ?_⟩
        rcases hd with rfl | ⟨u, hu, rfl⟩
        · rw [v1] at h; cases h; exact .inl ⟨rfl, rfl⟩
        · rw [v2 u hu] at h; cases h; exact .inr ⟨u, hu, rfl, rfl⟩
    · rintro (⟨rfl, rfl⟩ | ⟨d, d0, dd, ⟨rfl, rfl⟩ | ⟨u, hu, rfl, rfl⟩⟩)
      · exact C37_empty_counterexample base
      · exact (C37_value _ d0 dd base hb).1
      · exact (C37_value _ d0 dd base hb).2 u hu
  unfold blockOf SizeSays
  rw [Ua.ok_bind2]
  constructor
  · rintro ⟨v, h1, h2⟩
    split at h2
    · rename_i hv; cases h2; exact ⟨hv, (hx _).1 h1⟩
    · cases h2
  · rintro ⟨hv, h⟩
    exact ⟨n, (hx _).2 h, by rw [if_pos hv]⟩

/-! ### -z -/

theorem splitLoop_acc (sep : UInt8) : ∀ (l cur : Bytes) (acc : List Bytes), Mp.splitLoop sep cur acc l = acc ++ Mp.splitLoop sep cur [] l
  | [], cur, acc => by simp only [Mp.splitLoop]; split <;> simp
  | c :: l, cur, acc => by
    simp only [Mp.splitLoop]
    split
    · exact splitLoop_acc sep l _ acc
    · rw [splitLoop_acc sep l [] (acc ++ [cur]), splitLoop_acc sep l [] ([] ++ [cur])]; simp

theorem split_cons (x l : Bytes) (h : 58 ∉ x) : Mp.split 58 (x ++ 58 :: l) = x :: Mp.split 58 l := by
  unfold Mp.split
  rw [Ua.splitLoop_app 58 x l [] [] h, splitLoop_acc]
  rfl

theorem split_nil : Mp.split 58 [] = [] := rfl

theorem split_plain (x : Bytes) (h : 58 ∉ x) (h0 : x ≠ []) : Mp.split 58 x = [x] := by
  unfold Mp.split
  rw [Mp.splitLoop_plain 58 x _ _ h]; simp [h0]

theorem split_one (t x : Bytes) : Mp.split 58 t = [x] ↔ Last x t := by
  unfold Last
  constructor
  · intro h
    rcases Ua.cut_cases 58 t with hc | ⟨a, l, rfl, ha⟩
    · by_cases h0 : t = []
      · subst h0; rw [split_nil] at h; cases h
      · rw [split_plain t hc h0] at h; cases h; exact ⟨hc, .inl ⟨rfl, h0⟩⟩
    · rw [split_cons a l ha] at h
      have h' := List.cons.inj h
      have ha' := h'.1; subst ha'
      refine ⟨ha, .inr ?_⟩
      rcases Ua.cut_cases 58 l with hl | ⟨b, m, rfl, hb⟩
      · by_cases h0 : l = []
        · rw [h0]
        · rw [split_plain l hl h0] at h'; cases h'.2
      · rw [split_cons b m hb] at h'; cases h'.2
  · rintro ⟨h, ⟨rfl, h0⟩ | rfl⟩
    · exact split_plain _ h h0
    · rw [split_cons x [] h, split_nil]

theorem split_more (t x y : Bytes) (r : List Bytes) : Mp.split 58 t = x :: y :: r ↔ ∃ e, t = x ++ [58] ++ e ∧ 58 ∉ x ∧ Mp.split 58 e = y :: r := by
  constructor
  · intro h
    rcases Ua.cut_cases 58 t with hc | ⟨a, l, rfl, ha⟩
    · by_cases h0 : t = []
      · subst h0; rw [split_nil] at h; cases h
      · rw [split_plain t hc h0] at h; cases h
    · rw [split_cons a l ha] at h
      have h' := List.cons.inj h
      have ha' := h'.1; subst ha'
      exact ⟨l, by simp, ha, h'.2⟩
  · rintro ⟨e, rfl, h, he⟩
    rw [List.append_assoc, List.singleton_append, split_cons x e h, he]

theorem colon_end {t x : Bytes} (h : t = x ++ [58]) : oneField t = .error .range := by
  have hm : 58 ∈ t := by simp [h]
  have h1 : str2int t = none := by
    cases hs : str2int t with
    | none => rfl
    | some v => exact absurd hm (number_noColon ((C85_number _ _).1 hs)).1
  have h2 : compr t = .error .range := by
    cases hc : compr t with
    | ok a =>
      obtain ⟨s, hs, e⟩ := (compr_iff t a).1 hc
      exact absurd hm (e ▸ (name_text _ hs).2.1)
    | error e =>
      unfold compr at hc
      repeat' split at hc
      all_goals first | (cases hc; done) | (cases hc; rfl)
  unfold oneField
  rw [h1, h2]; rfl

theorem algo_noColon {t : Bytes} {a : Compr} (h : AlgoSays t a) : 58 ∉ t := by
  rcases h with ⟨rfl, _⟩ | ⟨s, hs, rfl⟩
  · simp
  · exact (name_text _ hs).2.1
theorem level_noColon {t : Bytes} {a : Compr} {n : Nat} (h : LevelSays a t n) : 58 ∉ t := by
  rcases h with ⟨rfl, _⟩ | ⟨_, h, _⟩
  · simp
  · exact (number_noColon h).1

/-- **C85**: the argument of -z is accepted exactly when it has one of the forms of the manual, and it sets what it says. -/
theorem C85_compression (base : Nat) (hb : 1 < base) (t : Bytes) (c : Comp) : parseZ base t = .ok c ↔ ZSays base t c := by
  obtain ⟨a, l, b⟩ := c
  constructor
  · intro h
    unfold parseZ at h
    split at h
    · rename_i x hs
      rw [split_one] at hs
      obtain ⟨h58, ⟨rfl, h0⟩ | e⟩ := hs
      · unfold oneField at h
        split at h
        · rename_i v hv
          cases h; exact .inr (.inl ⟨rfl, (C85_number _ _).1 hv, rfl⟩)
        · obtain ⟨a', h1, h2⟩ := Ua.ok_bind2.1 h
          cases h2
          exact .inl ⟨h0, .inr ((compr_iff _ _).1 h1), rfl, rfl⟩
      · rw [colon_end e] at h; cases h
    · rename_i x y hs
      rw [split_more] at hs
      obtain ⟨e, rfl, hx, he⟩ := hs
      rw [split_one] at he
      obtain ⟨a', h1, h2⟩ := Ua.ok_bind2.1 h
      obtain ⟨l', h3, h4⟩ := Ua.ok_bind2.1 h2
      cases h4
      exact .inr (.inr (.inl ⟨x, y, e, rfl, he, (algoOf_iff _ _).1 h1, (levelOf_iff _ _ _).1 h3, rfl⟩))
    · rename_i x y z hs
      rw [split_more] at hs
      obtain ⟨e, rfl, hx, he⟩ := hs
      rw [split_more] at he
      obtain ⟨e', rfl, hy, he⟩ := he
      rw [split_one] at he
      obtain ⟨a', h1, h2⟩ := Ua.ok_bind2.1 h
      obtain ⟨l', h3, h4⟩ := Ua.ok_bind2.1 h2
      obtain ⟨b', h5, h6⟩ := Ua.ok_bind2.1 h4
      cases h6
      exact .inr (.inr (.inr ⟨x, y, z, e', by simp, he, (algoOf_iff _ _).1 h1, (levelOf_iff _ _ _).1 h3, (size_iff base hb _ _).1 h5⟩))
    · cases h
  · intro h
    unfold parseZ
    rcases h with ⟨h0, ha, hl, hb'⟩ | ⟨ha, hn, hb'⟩ | ⟨x, y, e, rfl, he, ha, hl, hb'⟩ | ⟨x, y, z, e, rfl, he, ha, hl, hz⟩
    · simp only at ha hl hb'
      subst hl hb'
      rcases ha with ⟨e, _⟩ | ⟨s, hs, rfl⟩
      · exact absurd e h0
      · have hn := name_text _ hs
        rw [split_plain _ hn.2.1 hn.1]
        simp only [oneField, hn.2.2, (compr_iff _ _).2 ⟨s, hs, rfl⟩]; rfl
    · simp only at ha hn hb'
      subst ha hb'
      have := number_noColon hn
      rw [split_plain _ this.1 this.2]
      simp only [oneField, (C85_number _ _).2 hn]
    · simp only at ha hl hb'
      subst hb'
      rw [(split_more _ _ _ []).2 ⟨e, rfl, algo_noColon ha, (split_one _ _).2 he⟩]
      simp only [(algoOf_iff _ _).2 ha, (levelOf_iff _ _ _).2 hl, bind, Except.bind]
    · simp only at ha hl hz
      rw [(split_more _ _ _ [z]).2 ⟨y ++ [58] ++ e, by simp, algo_noColon ha, (split_more _ _ _ []).2 ⟨e, rfl, level_noColon hl, (split_one _ _).2 he⟩⟩]
      simp only [(algoOf_iff _ _).2 ha, (levelOf_iff _ _ _).2 hl, (size_iff base hb _ _).2 hz, bind, Except.bind]

/-- **C85**: an argument never says two things. -/
theorem C85_one_meaning (base : Nat) (hb : 1 < base) (t : Bytes) (c d : Comp) (h1 : ZSays base t c) (h2 : ZSays base t d) : c = d := by
  rw [← C85_compression base hb] at h1 h2
  rw [h1] at h2; cases h2; rfl

/-- **C85**: the creation of an archive goes on exactly with a level from 1 to 9 (from 1 for zstd). -/
theorem C85_create (base : Nat) (hb : 1 < base) (t : Bytes) (c : Comp) :
    (parseZ base t >>= createCheck) = .ok c ↔ ZSays base t c ∧ 1 ≤ c.level ∧ (c.algo = .zstd ∨ c.level ≤ 9) := by
  rw [Ua.ok_bind2]
  constructor
  · rintro ⟨d, h1, h2⟩
    unfold createCheck at h2
    split at h2
    · cases h2
    · rename_i hc
      cases h2
      refine ⟨(C85_compression base hb _ _).1 h1, by omega, ?_⟩
      by_cases ha : c.algo = .zstd
      · exact .inl ha
      · exact .inr (by simp only [ne_eq, ha, not_false_eq_true, and_true] at hc; omega)
  · rintro ⟨h, h2, h3⟩
    refine ⟨c, (C85_compression base hb _ _).2 h, ?_⟩
    unfold createCheck
    rw [if_neg]
    rintro (⟨h4, h5⟩ | h4)
    · rcases h3 with h3 | h3
      · exact h5 h3
      · omega
    · omega

/-- examples of the manual -/
example : parseZ 1024 (asc "9") = .ok ⟨.gzip, 9, 0⟩ := by decide +kernel
example : parseZ 1024 (asc "lzo:6") = .ok ⟨.lzo, 6, 0⟩ := by decide +kernel
example : ZSays 1024 (asc "bzip2:8:10k") ⟨.bzip2, 8, 10240⟩ := (C85_compression 1024 (by decide) _ _).1 (by decide +kernel)
example : ZSays 1024 (asc "lz4::10k") ⟨.lz4, 9, 10240⟩ := (C85_compression 1024 (by decide) _ _).1 (by decide +kernel)
example : parseZ 1024 (asc "::12000") = .ok ⟨.gzip, 9, 12000⟩ := by decide +kernel
example : parseZ 1024 (asc "gzip:10") = .error .range := by decide +kernel

/-- Finding: the manual says that the level of zstd goes from 1 to 22; nothing is checked, and the level 2^64 - 5 is what `zstd:-5` asks for. -/
theorem C85_zstd_counterexample : (parseZ 1024 (asc "zstd:99") >>= createCheck) = .ok ⟨.zstd, 99, 0⟩ ∧
    (parseZ 1024 (asc "zstd:-5") >>= createCheck) = .ok ⟨.zstd, 2 ^ 64 - 5, 0⟩ := by decide +kernel
/-- Finding: a level given alone is not checked while reading the options, only when the archive is to be created. -/
theorem C85_alone_counterexample : parseZ 1024 (asc "42") = .ok ⟨.gzip, 42, 0⟩ ∧ (parseZ 1024 (asc "42") >>= createCheck) = .error .libcall ∧ parseZ 1024 (asc ":42") = .error .range := by decide +kernel
/-- Finding: `gzip::` is gzip with its defaults, but `gzip:` is refused. -/
theorem C85_colon_counterexample : parseZ 1024 (asc "gzip::") = .ok ⟨.gzip, 9, 0⟩ ∧ parseZ 1024 (asc "gzip:") = .error .range := by decide +kernel

end Dar.Zc
