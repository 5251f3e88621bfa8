import Verif.Lemmas.Deci
/-
Property theorems C05: decimal text.  `decText n` is Lean's own decimal rendering of `n`, `decVal s` the
number written by the digits of `s` (Spec/Decimal.lean).
-/
namespace Dar

/-- Printing an integer gives its usual decimal text. -/
theorem C05_print (n : Nat) : deciHuman (deciOfNat n) = .ok (decText n) := by
  have hd : deciDigits (decicoupe n) = rdig n := by
    have := (decicoupe_digits n).1 0 PAS []
    simpa [decicoupe, deciDigits] using this
  have hne : decicoupe n ≠ [] := by
    intro hc
    by_cases hn : n = 0
    · subst hn
      unfold decicoupe at hc
      rw [decicoupeLoop] at hc
      simp [PAS, List.replicate] at hc
    · obtain ⟨d, t, e, _⟩ := rdig_head n (by omega)
      rw [hc] at hd
      rw [e] at hd
      cases hd
  have key : deciDigits (deciOfNat n) = if n = 0 then [0] else rdig n := by
    unfold deciOfNat
    rw [deciReduce_digits _ hne, hd]
    by_cases hn : n = 0
    · subst hn; simp [rdig_zero]
    · obtain ⟨d, t, e, hd0⟩ := rdig_head n (by omega)
      rw [if_neg hn, e]
      simp [hd0]
  unfold deciHuman
  rw [key, mapM_ctoh, decText_eq]
  intro d hd'
  split at hd'
  · simp at hd'; subst hd'; decide
  · exact rdig_lt n d hd'

/-- Parsing any non-empty text made of digits succeeds; its value is the number written, and printing it
again gives the usual text of that number (no superfluous leading zero). -/
theorem C05_parse (s : Bytes) (hne : s ≠ []) (hs : ∀ c ∈ s, isDigitByte c) :
    ∃ d, deciOfText s = .ok d ∧ deciComputer d = decVal s ∧ deciHuman d = .ok (decText (decVal s)) := by
  obtain ⟨l, e, hl, hdg⟩ := deciTextLoop_ok s.reverse (fun c hc => hs c (by simpa using hc))
  have hl' : l.reverse ≠ [] := by
    have := hl (by simpa using hne)
    simpa using this
  refine ⟨deciReduce l.reverse, ?_, ?_⟩
  · unfold deciOfText
    rw [if_neg (by simpa using hne), e]; rfl
  · have hdg' : deciDigits l.reverse = s.map (· - 48) := by
      rw [hdg]; simp
    have hlt : ∀ d ∈ s.map (· - 48), d.toNat < 10 := by
      intro d hd
      obtain ⟨c, hc, rfl⟩ := List.mem_map.1 hd
      have := hs c hc
      rw [sub48 c this]; have := this.2; omega
    have hval : (s.map (· - 48)).foldl (fun r c => r * 10 + c.toNat) 0 = decVal s := by
      unfold decVal
      rw [List.foldl_map]
      have : ∀ (t : Bytes) (acc : Nat), (∀ c ∈ t, isDigitByte c) →
          t.foldl (fun r c => r * 10 + (c - 48).toNat) acc = t.foldl (fun acc c => acc * 10 + (c.toNat - 48)) acc := by
        intro t
        induction t with
        | nil => intro _ _; rfl
        | cons c t ih =>
          intro acc h
          simp only [List.foldl_cons]
          rw [sub48 c (h c (by simp)), ih _ (fun d hd => h d (by simp [hd]))]
      exact this s 0 hs
    have hdrop : ∀ m : List UInt8, (m.dropWhile (· = 0)).foldl (fun r c => r * 10 + c.toNat) 0
        = m.foldl (fun r c => r * 10 + c.toNat) 0 := by
      intro m
      induction m with
      | nil => rfl
      | cons a m ih =>
        by_cases ha : a = 0
        · subst ha; simpa using ih
        · simp [ha]
    have key := deciReduce_digits l.reverse hl'
    rw [hdg'] at key
    have hu := rdig_unique ((s.map (· - 48)).dropWhile (· = 0))
      (fun d hd => hlt d ((List.dropWhile_suffix _).subset hd))
      (fun d hd => by
        have := List.head?_dropWhile_not (p := fun x : UInt8 => decide (x = 0)) (s.map (· - 48))
        rw [Option.mem_def.1 hd] at this
        simpa using this)
    rw [hdrop, hval] at hu
    rw [hu] at key
    have key2 : deciDigits (deciReduce l.reverse) = if decVal s = 0 then [0] else rdig (decVal s) := by
      rw [key]
      by_cases h0 : decVal s = 0
      · rw [h0, rdig_zero]; simp
      · obtain ⟨d, t, e, _⟩ := rdig_head (decVal s) (by omega)
        rw [if_neg h0, e]; simp
    refine ⟨?_, ?_⟩
    · unfold deciComputer
      rw [key2]
      by_cases h0 : decVal s = 0
      · rw [if_pos h0, h0]; rfl
      · rw [if_neg h0, rdig_val]
    · unfold deciHuman
      rw [key2, mapM_ctoh, decText_eq]
      intro d hd'
      split at hd'
      · simp at hd'; subst hd'; decide
      · exact rdig_lt _ d hd'

/-- An empty text, or a text with a non-digit anywhere, is refused. -/
theorem C05_refuse (s : Bytes) :
    (s = [] → deciOfText s = .error .range) ∧
    ((∃ c ∈ s, ¬ isDigitByte c) → deciOfText s = .error .deci) := by
  refine ⟨fun h => by subst h; rfl, fun h => ?_⟩
  have hne : s ≠ [] := by rintro rfl; simp at h
  unfold deciOfText
  rw [if_neg (by simpa using hne), deciTextLoop_bad s.reverse (by simpa using h)]; rfl

theorem decText_isDigit (n : Nat) : ∀ c ∈ decText n, isDigitByte c := by
  rw [decText_eq]
  intro c hc
  obtain ⟨d, hd, rfl⟩ := List.mem_map.1 hc
  have hlt : d.toNat < 10 := by
    split at hd
    · simp at hd; subst hd; decide
    · exact rdig_lt n d hd
  unfold isDigitByte
  rw [UInt8.toNat_add]
  simp only [UInt8.toNat_ofNat]
  omega

theorem decText_ne_nil (n : Nat) : decText n ≠ [] := by
  unfold decText; simp

/-- the value of the usual text is the number -/
theorem decVal_decText (n : Nat) : decVal (decText n) = n := by
  have : ∀ l : List UInt8, (∀ d ∈ l, d.toNat < 10) → ∀ acc,
      (l.map (48 + ·)).foldl (fun acc c => acc * 10 + (c.toNat - 48)) acc = l.foldl (fun r c => r * 10 + c.toNat) acc := by
    intro l
    induction l with
    | nil => intro _ _; rfl
    | cons d l ih =>
      intro h acc
      have hd := h d (by simp)
      simp only [List.map_cons, List.foldl_cons]
      have : (48 + d).toNat - 48 = d.toNat := by
        rw [UInt8.toNat_add]; simp only [UInt8.toNat_ofNat]; omega
      rw [this, ih (fun e he => h e (by simp [he]))]
  unfold decVal
  rw [decText_eq, this]
  · by_cases h0 : n = 0
    · rw [if_pos h0, h0]; rfl
    · rw [if_neg h0, rdig_val]
  · intro d hd
    split at hd
    · simp at hd; subst hd; decide
    · exact rdig_lt n d hd

/-- Printing then parsing gives back the integer. -/
theorem C05_roundtrip (n : Nat) :
    ∃ t d, deciHuman (deciOfNat n) = .ok t ∧ deciOfText t = .ok d ∧ deciComputer d = n := by
  obtain ⟨d, h1, h2, h3⟩ := C05_parse (decText n) (decText_ne_nil n) (decText_isDigit n)
  exact ⟨_, d, C05_print n, h1, by rw [h2, decVal_decText]⟩

-- "00120" is a non-empty text of digits, of value 120, printed "120"
example : ([48, 48, 49, 50, 48] : Bytes) ≠ [] ∧ decVal [48, 48, 49, 50, 48] = 120 ∧ decText 120 = [49, 50, 48] ∧
    ∃ d, deciOfText [48, 48, 49, 50, 48] = .ok d ∧ deciHuman d = .ok [49, 50, 48] := by
  refine ⟨by decide, by decide, by decide, _, rfl, by decide⟩
-- "1a" contains a non-digit
example : ∃ c ∈ ([49, 97] : Bytes), ¬ isDigitByte c := ⟨97, by simp, by unfold isDigitByte; decide⟩

end Dar
