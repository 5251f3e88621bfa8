import Verif.Model.SliceNames
import Verif.Spec.Decimal
import Verif.Props.Decimal
/- C57: the names of slices. -/
namespace Dar

/-- The usual decimal text of the number, with zeros in front up to `md` digits. -/
def paddedText (md n : Nat) : Bytes := List.replicate (md - (decText n).length) 48 ++ decText n
/-- The name documented for a slice: base, dot, number, dot, extension. -/
def slicePath (base : Bytes) (md : Nat) (ext : Bytes) (n : Nat) : Bytes := base ++ [46] ++ paddedText md n ++ [46] ++ ext
/-- What is taken for the slice of number `n`: the digits between any two characters. -/
def LooksLike (base : Bytes) (md : Nat) (ext : Bytes) (n : Nat) (f : Bytes) : Prop :=
  ∃ c1 digits c2, f = base ++ [c1] ++ digits ++ [c2] ++ ext ∧ digits ≠ [] ∧ (∀ c ∈ digits, isDigitByte c) ∧ md ≤ digits.length ∧ decVal digits = n

theorem padLoop_eq (md : Nat) : ∀ (k : Nat) (s : Bytes), md - s.length ≤ k → padLoop md k s = List.replicate (md - s.length) 48 ++ s := by
  intro k
  induction k with
  | zero => intro s h; rw [show md - s.length = 0 by omega]; rfl
  | succ k ih =>
    intro s h
    unfold padLoop
    split
    · next hl =>
      rw [ih (48 :: s) (by simp; omega), List.length_cons, show md - s.length = (md - (s.length + 1)) + 1 by omega, List.replicate_succ', List.append_assoc]
      rfl
    · next hl => rw [show md - s.length = 0 by omega]; rfl
theorem decVal_zeros (k : Nat) (s : Bytes) : decVal (List.replicate k 48 ++ s) = decVal s := by
  induction k with
  | zero => rfl
  | succ k ih => rw [List.replicate_succ]; exact ih
theorem find_zero (pat s : Bytes) : strFindAt pat s = some 0 ↔ pat <+: s := by
  cases s with
  | nil => unfold strFindAt; by_cases h : pat = [] <;> simp [h]
  | cons c l =>
    unfold strFindAt
    by_cases h : pat.isPrefixOf (c :: l) = true
    · rw [if_pos h]; exact ⟨fun _ => List.isPrefixOf_iff_prefix.1 h, fun _ => rfl⟩
    · rw [if_neg h]
      constructor
      · intro g
        cases hf : strFindAt pat l <;> rw [hf] at g <;> simp at g
      · intro g; exact absurd (List.isPrefixOf_iff_prefix.2 g) h
theorem rfind_le (pat : Bytes) : ∀ (s : Bytes) (k : Nat), strRfindAt pat s = some k → pat <+: s.drop k ∧ k ≤ s.length := by
  intro s
  induction s with
  | nil =>
    intro k h
    unfold strRfindAt at h
    split at h
    · cases h; next hp => rw [hp]; simp
    · cases h
  | cons c l ih =>
    intro k h
    unfold strRfindAt at h
    cases hr : strRfindAt pat l with
    | some j =>
      rw [hr] at h; cases h
      have := ih j hr
      exact ⟨by simpa using this.1, by simp; omega⟩
    | none =>
      rw [hr] at h
      dsimp only at h
      split at h
      · next hp => cases h; exact ⟨List.isPrefixOf_iff_prefix.1 hp, by omega⟩
      · cases h
theorem rfind_suffix (pat : Bytes) : ∀ (s : Bytes), pat <:+ s → strRfindAt pat s = some (s.length - pat.length) := by
  intro s
  induction s with
  | nil => intro h; have := List.suffix_nil.1 h; subst this; rfl
  | cons c l ih =>
    intro h
    unfold strRfindAt
    rcases List.suffix_cons_iff.1 h with h | h
    · have hn : strRfindAt pat l = none := by
        cases hr : strRfindAt pat l with
        | none => rfl
        | some j =>
          have := (rfind_le pat l j hr).1.length_le
          rw [h] at this
          simp at this
          omega
      rw [hn]
      dsimp only
      rw [if_pos (by rw [h]; exact List.isPrefixOf_iff_prefix.2 (List.prefix_refl _)), h]
      simp
    · rw [ih h]
      dsimp only
      have := h.length_le
      rw [List.length_cons]
      congr 1
      omega
theorem rfind_last (pat s : Bytes) (hl : pat.length ≤ s.length) : strRfindAt pat s = some (s.length - pat.length) ↔ pat <:+ s := by
  refine ⟨fun h => ?_, rfind_suffix pat s⟩
  have h1 := (rfind_le pat s _ h).1
  have h2 : pat = s.drop (s.length - pat.length) := h1.eq_of_length (by rw [List.length_drop]; omega)
  rw [h2]
  exact List.drop_suffix _ _

/-- C57, the name given to a slice is the documented one. -/
theorem C57_name (base : Bytes) (n md : Nat) (ext : Bytes) : sliceName base n md ext = .ok (slicePath base md ext n) := by
  unfold sliceName
  rw [C05_print]
  simp only [Bind.bind, Except.bind]
  rw [show paddedNumber (decText n) md = paddedText md n from padLoop_eq md md _ (by omega)]
  rfl

/-- C57, the names taken for slices, and the number found in them: base, any character, at least `md` digits, any character, extension. -/
theorem C57_accepted (f base : Bytes) (md : Nat) (ext : Bytes) (n : Nat) : sliceNum f base md ext = some n ↔ LooksLike base md ext n f := by
  constructor
  · intro h
    unfold sliceNum at h
    dsimp only at h
    split at h
    · cases h
    next h1 =>
    split at h
    · cases h
    next h2 =>
    split at h
    · cases h
    next h3 =>
    split at h
    · cases h
    next h4 =>
    have hb := (find_zero base f).1 (by simpa using h3)
    have he := (rfind_last ext f (by omega)).1 (by simpa using h4)
    obtain ⟨r, hr⟩ := hb
    subst hr
    have hrl : r.length = (base ++ r).length - base.length := by simp
    have he' : ext <:+ r := by
      rcases List.suffix_or_suffix_of_suffix he (List.suffix_append base r) with g | g
      · exact g
      · have g1 := g.length_le
        exact absurd g1 (by rw [List.length_append] at h1; omega)
    obtain ⟨m, hm⟩ := he'
    subst hm
    rw [List.length_append, List.length_append] at h1 h2
    have hml : 3 ≤ m.length := by omega
    match m, hml with
    | c1 :: m', hml =>
      obtain ⟨digits, c2, rfl⟩ : ∃ digits c2, m' = digits ++ [c2] := ⟨m'.dropLast, m'.getLast (by rintro rfl; simp at hml), (List.dropLast_concat_getLast _).symm⟩
      have hsub : ((base ++ (c1 :: (digits ++ [c2]) ++ ext)).take ((base ++ (c1 :: (digits ++ [c2]) ++ ext)).length - ext.length - 1)).drop (base.length + 1) = digits := by
        rw [show base ++ (c1 :: (digits ++ [c2]) ++ ext) = (base ++ [c1] ++ digits) ++ ([c2] ++ ext) by simp]
        rw [show ((base ++ [c1] ++ digits) ++ ([c2] ++ ext)).length - ext.length - 1 = (base ++ [c1] ++ digits).length by simp; omega, List.take_left]
        rw [show base.length + 1 = (base ++ [c1]).length by simp, List.drop_left]
      rw [hsub] at h
      simp only [List.length_cons, List.length_append, List.length_nil] at h2 hml
      have hdn : digits ≠ [] := by rintro rfl; simp at hml
      by_cases hd : ∀ c ∈ digits, isDigitByte c
      · obtain ⟨d, g1, g2, -⟩ := C05_parse digits hdn hd
        rw [g1] at h
        refine ⟨c1, digits, c2, by simp, hdn, hd, by omega, ?_⟩
        rw [← g2]; exact Option.some.inj h
      · push Not at hd
        rw [(C05_refuse digits).2 hd] at h
        cases h
  · rintro ⟨c1, digits, c2, rfl, hdn, hd, hmd, rfl⟩
    have hl : 0 < digits.length := List.length_pos_iff.2 hdn
    obtain ⟨d, g1, g2, -⟩ := C05_parse digits hdn hd
    have hsub : ((base ++ [c1] ++ digits ++ [c2] ++ ext).take ((base ++ [c1] ++ digits ++ [c2] ++ ext).length - ext.length - 1)).drop (base.length + 1) = digits := by
      rw [show base ++ [c1] ++ digits ++ [c2] ++ ext = (base ++ [c1] ++ digits) ++ ([c2] ++ ext) by simp]
      rw [show ((base ++ [c1] ++ digits) ++ ([c2] ++ ext)).length - ext.length - 1 = (base ++ [c1] ++ digits).length by simp; omega, List.take_left]
      rw [show base.length + 1 = (base ++ [c1]).length by simp, List.drop_left]
    unfold sliceNum
    dsimp only
    rw [if_neg (by simp; omega), if_neg (by simp; omega), if_neg (by rw [not_not, find_zero]; exact ⟨[c1] ++ digits ++ [c2] ++ ext, by simp⟩),
      if_neg (by rw [not_not]; exact rfind_suffix _ _ (List.suffix_append _ _)), hsub, g1]
    exact congrArg some g2

theorem slice_looks (base : Bytes) (md : Nat) (ext : Bytes) (n : Nat) : LooksLike base md ext n (slicePath base md ext n) := by
  refine ⟨46, paddedText md n, 46, rfl, by simp [paddedText, decText_ne_nil], fun c hc => ?_, ?_, ?_⟩
  · rcases List.mem_append.1 hc with h | h
    · rw [(List.mem_replicate.1 h).2]; exact ⟨by decide, by decide⟩
    · exact decText_isDigit n c h
  · unfold paddedText; simp; omega
  · unfold paddedText; rw [decVal_zeros, decVal_decText]

/-- C57: the number of a slice is found back in its name, whatever the base, the extension and the least number of digits are; two slices have different names. -/
theorem C57_roundtrip (base : Bytes) (md : Nat) (ext : Bytes) : (∀ n, ∃ f, sliceName base n md ext = .ok f ∧ sliceNum f base md ext = some n) ∧
    ∀ n m, sliceName base n md ext = sliceName base m md ext → n = m := by
  constructor
  · intro n
    exact ⟨_, C57_name base n md ext, (C57_accepted _ base md ext n).2 (slice_looks base md ext n)⟩
  · intro n m h
    rw [C57_name, C57_name] at h
    have h1 := (C57_accepted _ base md ext n).2 (slice_looks base md ext n)
    have h2 := (C57_accepted _ base md ext m).2 (slice_looks base md ext m)
    rw [Except.ok.inj h, h2] at h1
    exact (Option.some.inj h1).symm

theorem higherLoop_spec (base : Bytes) (md : Nat) (ext : Bytes) : ∀ (dir : List Bytes) (ret : Nat) (b : Bool),
    (higherLoop base md ext dir ret b).1 = (b || dir.any fun f => (sliceNum f base md ext).isSome) ∧
    ret ≤ (higherLoop base md ext dir ret b).2 ∧ (∀ f ∈ dir, ∀ n, sliceNum f base md ext = some n → n ≤ (higherLoop base md ext dir ret b).2) ∧
    ((higherLoop base md ext dir ret b).2 = ret ∨ ∃ f ∈ dir, sliceNum f base md ext = some (higherLoop base md ext dir ret b).2) := by
  intro dir
  induction dir with
  | nil => intro ret b; exact ⟨by simp [higherLoop], Nat.le_refl _, fun f hf => absurd hf (by simp), Or.inl rfl⟩
  | cons f l ih =>
    intro ret b
    unfold higherLoop
    cases h : sliceNum f base md ext with
    | none =>
      dsimp only
      obtain ⟨h1, h2, h3, h4⟩ := ih ret b
      refine ⟨by rw [h1]; simp [h], h2, fun g hg n hn => ?_, ?_⟩
      · rcases List.mem_cons.1 hg with e | e
        · subst e; rw [h] at hn; cases hn
        · exact h3 g e n hn
      · rcases h4 with h4 | ⟨g, g1, g2⟩
        · exact Or.inl h4
        · exact Or.inr ⟨g, by simp [g1], g2⟩
    | some cur =>
      dsimp only
      obtain ⟨h1, h2, h3, h4⟩ := ih (if cur > ret then cur else ret) true
      have hc : cur ≤ (if cur > ret then cur else ret) ∧ ret ≤ (if cur > ret then cur else ret) := by split <;> omega
      refine ⟨by rw [h1]; simp [h], by omega, fun g hg n hn => ?_, ?_⟩
      · rcases List.mem_cons.1 hg with e | e
        · subst e; rw [h] at hn; cases hn; omega
        · exact h3 g e n hn
      · rcases h4 with h4 | ⟨g, g1, g2⟩
        · by_cases hr : cur > ret
          · rw [if_pos hr] at h4 ⊢; exact Or.inr ⟨f, by simp, by rw [h, h4]⟩
          · rw [if_neg hr] at h4 ⊢; exact Or.inl h4
        · exact Or.inr ⟨g, by simp [g1], g2⟩

/-- C57: the number found for the last slice of a directory is the greatest number of what looks like a slice there; nothing is found exactly when nothing looks like a slice. -/
theorem C57_higher (dir : List Bytes) (base : Bytes) (md : Nat) (ext : Bytes) :
    ((higherNumber dir base md ext).1 = false ↔ ∀ f ∈ dir, ∀ n, ¬ LooksLike base md ext n f) ∧
    (∀ f ∈ dir, ∀ n, LooksLike base md ext n f → n ≤ (higherNumber dir base md ext).2) ∧
    ((higherNumber dir base md ext).1 = true → (higherNumber dir base md ext).2 ≠ 0 → ∃ f ∈ dir, LooksLike base md ext (higherNumber dir base md ext).2 f) := by
  obtain ⟨h1, -, h3, h4⟩ := higherLoop_spec base md ext dir 0 false
  change (higherNumber dir base md ext).1 = _ at h1
  change ∀ f ∈ dir, ∀ n, sliceNum f base md ext = some n → n ≤ (higherNumber dir base md ext).2 at h3
  change (higherNumber dir base md ext).2 = 0 ∨ ∃ f ∈ dir, sliceNum f base md ext = some (higherNumber dir base md ext).2 at h4
  refine ⟨?_, fun f hf n hn => h3 f hf n ((C57_accepted f base md ext n).2 hn), fun _ h0 => ?_⟩
  · rw [h1, Bool.false_or, List.any_eq_false]
    constructor
    · intro h f hf n hn
      have := h f hf
      rw [(C57_accepted f base md ext n).2 hn] at this
      simp at this
    · intro h f hf
      cases hs : sliceNum f base md ext with
      | none => simp
      | some n => exact absurd ((C57_accepted f base md ext n).1 hs) (h f hf n)
  · rcases h4 with h4 | ⟨f, hf, g⟩
    · exact absurd h4 h0
    · exact ⟨f, hf, (C57_accepted f base md ext _).1 g⟩

/-- C57: in a directory that holds the slices 1 to `last` and other files that do not look like slices, the last slice is found. -/
theorem C57_last (dir : List Bytes) (base : Bytes) (md : Nat) (ext : Bytes) (last : Nat) (h0 : 0 < last) (hl : slicePath base md ext last ∈ dir)
    (ho : ∀ f ∈ dir, (∃ k, 1 ≤ k ∧ k ≤ last ∧ f = slicePath base md ext k) ∨ ∀ n, ¬ LooksLike base md ext n f) : higherNumber dir base md ext = (true, last) := by
  obtain ⟨h1, h2, h3⟩ := C57_higher dir base md ext
  have ht : (higherNumber dir base md ext).1 = true := by
    cases h : (higherNumber dir base md ext).1 with
    | true => rfl
    | false => exact absurd (slice_looks base md ext last) (h1.1 h _ hl last)
  have hge := h2 _ hl last (slice_looks base md ext last)
  obtain ⟨f, hf, hlk⟩ := h3 ht (by omega)
  have hle : (higherNumber dir base md ext).2 ≤ last := by
    rcases ho f hf with ⟨k, -, hk, rfl⟩ | hn
    · have e1 := (C57_accepted _ base md ext _).2 hlk
      have e2 := (C57_accepted _ base md ext _).2 (slice_looks base md ext k)
      rw [e1] at e2
      rw [Option.some.inj e2]; exact hk
    · exact absurd hlk (hn _)
  exact Prod.ext ht (by omega)

/-- C57: removing the slices that follow a given one leaves, in the same order, exactly what does not look like a slice of a greater number. -/
theorem C57_remove (dir : List Bytes) (base : Bytes) (md : Nat) (ext : Bytes) (keep : Nat) : (removeHigher dir base md ext keep).Sublist dir ∧
    ∀ f, f ∈ removeHigher dir base md ext keep ↔ f ∈ dir ∧ ∀ n, LooksLike base md ext n f → n ≤ keep := by
  induction dir with
  | nil => exact ⟨List.Sublist.refl _, fun f => by simp [removeHigher]⟩
  | cons g l ih =>
    obtain ⟨h1, h2⟩ := ih
    unfold removeHigher
    cases h : sliceNum g base md ext with
    | none =>
      refine ⟨h1.cons_cons g, fun f => ?_⟩
      have hg : ∀ n, LooksLike base md ext n g → n ≤ keep := fun n hn => by rw [(C57_accepted g base md ext n).2 hn] at h; cases h
      rw [List.mem_cons, List.mem_cons, h2]
      constructor
      · rintro (rfl | ⟨a, b⟩)
        · exact ⟨Or.inl rfl, hg⟩
        · exact ⟨Or.inr a, b⟩
      · rintro ⟨rfl | a, b⟩
        · exact Or.inl rfl
        · exact Or.inr ⟨a, b⟩
    | some cur =>
      have hc := (C57_accepted g base md ext cur).1 h
      dsimp only
      split
      · next hk =>
        refine ⟨h1.cons g, fun f => ?_⟩
        rw [List.mem_cons, h2]
        constructor
        · rintro ⟨a, b⟩; exact ⟨Or.inr a, b⟩
        · rintro ⟨rfl | a, b⟩
          · exact absurd (b cur hc) (by omega)
          · exact ⟨a, b⟩
      · next hk =>
        refine ⟨h1.cons_cons g, fun f => ?_⟩
        rw [List.mem_cons, List.mem_cons, h2]
        constructor
        · rintro (rfl | ⟨a, b⟩)
          · refine ⟨Or.inl rfl, fun n hn => ?_⟩
            rw [(C57_accepted _ base md ext n).2 hn] at h
            cases h; omega
          · exact ⟨Or.inr a, b⟩
        · rintro ⟨rfl | a, b⟩
          · exact Or.inl rfl
          · exact Or.inr ⟨a, b⟩
/-- C57: it keeps the slices up to the one given and removes the others. -/
theorem C57_remove_slices (dir : List Bytes) (base : Bytes) (md : Nat) (ext : Bytes) (keep n : Nat) :
    slicePath base md ext n ∈ removeHigher dir base md ext keep ↔ slicePath base md ext n ∈ dir ∧ n ≤ keep := by
  rw [(C57_remove dir base md ext keep).2]
  constructor
  · rintro ⟨h1, h2⟩; exact ⟨h1, h2 n (slice_looks base md ext n)⟩
  · rintro ⟨h1, h2⟩
    refine ⟨h1, fun m hm => ?_⟩
    have e1 := (C57_accepted _ base md ext m).2 hm
    rw [(C57_accepted _ base md ext n).2 (slice_looks base md ext n)] at e1
    cases e1; exact h2

/-- "arch.1.dar", "arch.2.dar", "arch.3.dar", "arch" and "other.1.dar": the last slice is 3; what follows the slice 1 is removed -/
theorem C57_example :
    let base := [97, 114, 99, 104]; let ext := [100, 97, 114]
    let dir := [slicePath base 3 ext 2, base, slicePath base 3 ext 1, [111, 116, 104, 101, 114, 46, 48, 48, 49, 46, 100, 97, 114], slicePath base 3 ext 3]
    slicePath base 3 ext 2 = [97, 114, 99, 104, 46, 48, 48, 50, 46, 100, 97, 114] ∧ higherNumber dir base 3 ext = (true, 3) ∧
    removeHigher dir base 3 ext 1 = [base, slicePath base 3 ext 1, [111, 116, 104, 101, 114, 46, 48, 48, 49, 46, 100, 97, 114]] := by
  decide +kernel

/-- Finding: the two characters around the number are not looked at.  The file "arch-2024.dar", which is not a slice of "arch", is taken for its slice 2024: it is searched for under the name "arch.2024.dar" as the last
slice, and removed when the slices that follow the slice 1 have to be. -/
theorem C57_alien_counterexample :
    let base := [97, 114, 99, 104]; let ext := [100, 97, 114]
    let alien := [97, 114, 99, 104, 45, 50, 48, 50, 52, 46, 100, 97, 114]
    (∀ n, alien ≠ slicePath base 0 ext n) ∧ higherNumber [slicePath base 0 ext 1, alien] base 0 ext = (true, 2024) ∧ removeHigher [slicePath base 0 ext 1, alien] base 0 ext 1 = [slicePath base 0 ext 1] := by
  refine ⟨fun n h => ?_, by decide +kernel, by decide +kernel⟩
  have := congrArg (fun l => l[4]?) h
  simp [slicePath] at this

/-- Finding: a number with more zeros than asked for is accepted: with "arch.01.dar" alone the last slice is 1, but its name would be "arch.1.dar". -/
theorem C57_zeros_counterexample :
    let base := [97, 114, 99, 104]; let ext := [100, 97, 114]
    higherNumber [[97, 114, 99, 104, 46, 48, 49, 46, 100, 97, 114]] base 0 ext = (true, 1) ∧ slicePath base 0 ext 1 ≠ [97, 114, 99, 104, 46, 48, 49, 46, 100, 97, 114] := by
  decide +kernel

end Dar
