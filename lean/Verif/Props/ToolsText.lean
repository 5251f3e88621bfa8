import Verif.Model.ToolsText
import Verif.Spec.ToolsText
import Verif.Props.Decimal
import Mathlib.Tactic.Tauto
/- Property theorems C37 (size expressions), C38 (octal text), C39 (command substitution). -/
namespace Dar

/-! ### C37 -/

theorem sizeFactor_units (base : Nat) : ∀ u ∈ unitTable, sizeFactor base (chr u.1) = .ok (base ^ u.2) := by
  intro u hu
  simp only [unitTable, List.mem_cons, List.not_mem_nil, or_false] at hu
  rcases hu with rfl | rfl | rfl | rfl | rfl | rfl | rfl | rfl | rfl | rfl | rfl <;>
    simp [sizeFactor, chr, Char.toNat]

theorem sizeFactor_digit (base : Nat) (c : UInt8) (h : isDigitByte c) : sizeFactor base c = .ok 1 := by
  unfold isDigitByte at h
  have key : ∀ k : UInt8, (k.toNat < 48 ∨ 57 < k.toNat) → c ≠ k := by rintro k hk rfl; omega
  unfold sizeFactor
  rw [if_neg (by push Not; exact ⟨key _ (by decide), key _ (by decide)⟩)]
  iterate 9 rw [if_neg (key _ (by decide))]
  rw [if_pos ⟨UInt8.le_iff_toNat_le.mpr (by simpa using h.1), UInt8.le_iff_toNat_le.mpr (by simpa using h.2)⟩]

/-- Digits alone denote the number written; digits followed by a documented unit letter denote that number times the
power of the base (1024 or 1000 in the program; any base above 1). -/
theorem C37_value (digits : Bytes) (hne : digits ≠ []) (hd : ∀ c ∈ digits, isDigitByte c) (base : Nat) (hb : 1 < base) :
    extendedSize digits base = .ok (decVal digits) ∧
    ∀ u ∈ unitTable, extendedSize (digits ++ [chr u.1]) base = .ok (base ^ u.2 * decVal digits) := by
  obtain ⟨d, h1, h2, _⟩ := C05_parse digits hne hd
  constructor
  · unfold extendedSize
    rw [List.getLast?_eq_some_getLast hne]
    simp only [sizeFactor_digit base _ (hd _ (List.getLast_mem hne))]
    simp [Bind.bind, Except.bind, h1, h2]
  · intro u hu
    unfold extendedSize
    rw [List.getLast?_concat]
    simp only [sizeFactor_units base u hu]
    have hp : base ^ u.2 ≠ 1 := by
      have : u.2 ≠ 0 := by
        simp only [unitTable, List.mem_cons, List.not_mem_nil, or_false] at hu
        rcases hu with rfl | rfl | rfl | rfl | rfl | rfl | rfl | rfl | rfl | rfl | rfl <;> decide
      have := Nat.one_lt_pow this hb
      omega
    simp only [Bind.bind, Except.bind, if_pos hp, List.dropLast_concat, h1, h2]

theorem sizeFactor_inv {base : Nat} {c : UInt8} {f : Nat} (hf : sizeFactor base c = .ok f) (h1 : f ≠ 1) :
    ∃ u ∈ unitTable, c = chr u.1 := by
  by_contra hn
  push Not at hn
  have k : ∀ ch n, (ch, n) ∈ unitTable → c ≠ chr ch := fun ch n h => hn (ch, n) h
  have k1 : c ≠ 75 := k 'K' 1 (by decide)
  have k2 : c ≠ 107 := k 'k' 1 (by decide)
  have k3 : c ≠ 77 := k 'M' 2 (by decide)
  have k4 : c ≠ 71 := k 'G' 3 (by decide)
  have k5 : c ≠ 84 := k 'T' 4 (by decide)
  have k6 : c ≠ 80 := k 'P' 5 (by decide)
  have k7 : c ≠ 69 := k 'E' 6 (by decide)
  have k8 : c ≠ 90 := k 'Z' 7 (by decide)
  have k9 : c ≠ 89 := k 'Y' 8 (by decide)
  have k10 : c ≠ 82 := k 'R' 9 (by decide)
  have k11 : c ≠ 81 := k 'Q' 10 (by decide)
  rw [sizeFactor, if_neg (by tauto), if_neg k3, if_neg k4, if_neg k5, if_neg k6, if_neg k7, if_neg k8, if_neg k9,
    if_neg k10, if_neg k11] at hf
  split at hf
  · injection hf with hf; exact h1 hf.symm
  · cases hf

/-- Any other non-empty text is refused: whatever is accepted is digits, possibly followed by a unit letter. -/
theorem C37_refuse (s : Bytes) (hs : s ≠ []) (base : Nat) (v : Nat) (h : extendedSize s base = .ok v) :
    ∃ digits, digits ≠ [] ∧ (∀ c ∈ digits, isDigitByte c) ∧
      (s = digits ∨ ∃ u ∈ unitTable, s = digits ++ [chr u.1]) := by
  have parse : ∀ t d, deciOfText t = .ok d → t ≠ [] ∧ ∀ c ∈ t, isDigitByte c := by
    intro t d e
    refine ⟨?_, ?_⟩
    · rintro rfl; rw [(C05_refuse []).1 rfl] at e; cases e
    · intro c hc
      by_contra hn
      rw [(C05_refuse t).2 ⟨c, hc, hn⟩] at e; cases e
  have hsplit := List.dropLast_concat_getLast hs
  unfold extendedSize at h
  rw [List.getLast?_eq_some_getLast hs] at h
  generalize s.getLast hs = c at *
  simp only [Bind.bind, Except.bind] at h
  split at h
  · cases h
  · rename_i f hf
    split at h
    · cases h
    · rename_i d hd
      obtain ⟨p1, p2⟩ := parse _ _ hd
      by_cases h1 : f = 1
      · simp only [h1, ne_eq, not_true_eq_false, if_false] at p1 p2
        exact ⟨s, p1, p2, Or.inl rfl⟩
      · simp only [h1, ne_eq, not_false_eq_true, if_true] at p1 p2
        refine ⟨_, p1, p2, Or.inr ?_⟩
        obtain ⟨u, hu, e⟩ := sizeFactor_inv hf h1
        exact ⟨u, hu, by rw [← e]; exact hsplit.symm⟩

/-- Finding: the empty text is not refused, it means zero. -/
theorem C37_empty_counterexample (base : Nat) : extendedSize [] base = .ok 0 := rfl

example : extendedSize (txt "12k") 1024 = .ok 12288 :=
  ((C37_value (txt "12") (by decide) (by unfold isDigitByte; decide) 1024 (by decide)).2 ('k', 1) (by decide)).trans (by decide)

/-- The checksum stored for a file is four bytes wide per started gibibyte of data, and never empty. -/
theorem C37_crc_width (size : Nat) :
    crcSizeFor size = .ok (if size = 0 then 1 else 4 * ((size + 2 ^ 30 - 1) / 2 ^ 30)) := by
  have h1 : extendedSize [49, 71] 1024 = .ok (1024 ^ 3) := by
    have := (C37_value (txt "1") (by decide) (by unfold isDigitByte; decide) 1024 (by decide)).2 ('G', 3) (by decide)
    rw [show (txt "1" ++ [chr 'G'] : Bytes) = [49, 71] from rfl, show decVal (txt "1") = 1 from rfl, Nat.mul_one] at this
    exact this
  unfold crcSizeFor
  rw [h1]
  simp only [Bind.bind, Except.bind]
  by_cases hs : size = 0
  · simp [hs]
  · rw [if_pos hs, if_neg (by norm_num), if_neg hs]
    congr 1
    have : (1024 : Nat) ^ 3 = 2 ^ 30 := by norm_num
    rw [this]
    split <;> omega

/-! ### C38 -/

theorem octStep_digits (ds : Bytes) (h : ∀ c ∈ ds, isOctByte c) (v : Nat) :
    ds.foldlM octStep (.octal, v % 2 ^ 64) = .ok (.octal, ds.foldl (fun acc c => acc * 8 + (c.toNat - 48)) v % 2 ^ 64) := by
  induction ds generalizing v with
  | nil => rfl
  | cons c l ih =>
    have hc := h c (by simp)
    unfold isOctByte at hc
    have hs : octStep (.octal, v % 2 ^ 64) c = .ok (.octal, (v * 8 + (c.toNat - 48)) % 2 ^ 64) := by
      simp only [octStep]
      rw [if_neg (by rintro rfl; simp at hc), if_pos ⟨UInt8.le_iff_toNat_le.mpr (by simpa using hc.1), UInt8.le_iff_toNat_le.mpr (by simpa using hc.2)⟩]
      have : (v % 2 ^ 64 * 8 + (c.toNat - 48)) % 2 ^ 64 = (v * 8 + (c.toNat - 48)) % 2 ^ 64 := by omega
      rw [this]
    rw [List.foldlM_cons, hs]
    simp only [Bind.bind, Except.bind, List.foldl_cons]
    exact ih (fun c hc => h c (by simp [hc])) _

/-- Octal text of a permission (any 64-bit value) and back. -/
theorem C38_roundtrip (p : Nat) (hp : p < 2 ^ 64) : octal2int (int2octal p) = .ok p := by
  have hrev : ∀ (l : List Nat) acc, l.foldl (fun ret d => UInt8.ofNat (48 + d) :: ret) acc
      = (l.map fun d => UInt8.ofNat (48 + d)).reverse ++ acc := by
    intro l
    induction l with
    | nil => intro acc; rfl
    | cons a l ih => intro acc; simp [ih]
  have hdig : ∀ n, ∀ d ∈ baseDigits 8 n, d < 8 := by
    intro n
    induction n using Nat.strongRecOn with
    | _ n ih =>
      intro d hd
      rw [baseDigits] at hd
      split at hd
      · rename_i hn
        rcases List.mem_cons.mp hd with rfl | hd
        · omega
        · exact ih (n / 8) (by omega) d hd
      · simp at hd
  have hval : ∀ n, ((baseDigits 8 n).map fun d => UInt8.ofNat (48 + d)).reverse.foldl
      (fun acc c => acc * 8 + (c.toNat - 48)) 0 = n := by
    intro n
    induction n using Nat.strongRecOn with
    | _ n ih =>
      rw [baseDigits]
      split
      · rename_i hn
        rw [List.map_cons, List.reverse_cons, List.foldl_append, ih (n / 8) (by omega)]
        simp only [List.foldl_cons, List.foldl_nil]
        have : (UInt8.ofNat (48 + n % 8)).toNat = 48 + n % 8 := by
          simp only [UInt8.toNat_ofNat']; omega
        rw [this]; omega
      · rename_i hn
        simp; omega
  unfold octal2int int2octal
  rw [if_neg (by simp), hrev, List.append_nil, List.foldlM_cons]
  have h0 : octStep (.init, 0) 48 = .ok (.octal, 0) := rfl
  rw [h0]
  simp only [Bind.bind, Except.bind]
  have hm := Nat.mod_eq_of_lt hp
  have := octStep_digits ((baseDigits 8 p).map fun d => UInt8.ofNat (48 + d)).reverse (by
    intro c hc
    simp only [List.mem_reverse, List.mem_map] at hc
    obtain ⟨d, hd, rfl⟩ := hc
    have := hdig p d hd
    unfold isOctByte
    simp only [UInt8.toNat_ofNat']
    omega) 0
  rw [show (0 : Nat) % 2 ^ 64 = 0 from rfl, hval p] at this
  rw [hm] at this
  rw [this]
  simp

/-- Exactly the texts "blanks, 0, octal digits, spaces" are accepted, with the value written (modulo the machine
word); the empty text stands for 0666. -/
theorem C38_accept (s : Bytes) (v : Nat) :
    octal2int s = .ok v ↔
      (s = [] ∧ v = 0o666) ∨
      ∃ ws ds sp, s = ws ++ chr '0' :: ds ++ sp ∧ (∀ c ∈ ws, c = chr ' ' ∨ c = chr '\t' ∨ c = chr '\n' ∨ c = chr '\r') ∧
        (∀ c ∈ ds, isOctByte c) ∧ (∀ c ∈ sp, c = chr ' ') ∧ v = octVal ds % 2 ^ 64 := by
  have trail : ∀ (sp : Bytes) (n : Nat) r, sp.foldlM octStep (.trail, n) = .ok r → (∀ c ∈ sp, c = chr ' ') ∧ r = (.trail, n) := by
    intro sp
    induction sp with
    | nil => intro n r h; injection h with h; exact ⟨by simp, h.symm⟩
    | cons c l ih =>
      intro n r h
      rw [List.foldlM_cons] at h
      by_cases hc : c = 32
      · have : octStep (.trail, n) c = .ok (.trail, n) := by simp [octStep, hc]
        rw [this] at h
        obtain ⟨h1, h2⟩ := ih n r h
        exact ⟨by intro x hx; rcases List.mem_cons.mp hx with rfl | hx; exacts [hc, h1 x hx], h2⟩
      · have : octStep (.trail, n) c = .error .range := by simp [octStep, hc]
        rw [this] at h; cases h
  have trail' : ∀ (sp : Bytes) (n : Nat), (∀ c ∈ sp, c = chr ' ') → sp.foldlM octStep (.trail, n) = .ok (.trail, n) := by
    intro sp
    induction sp with
    | nil => intro n _; rfl
    | cons c l ih =>
      intro n h
      have hc : c = 32 := h c (by simp)
      rw [List.foldlM_cons]
      have : octStep (.trail, n) c = .ok (.trail, n) := by simp [octStep, hc]
      rw [this]
      exact ih n (fun c hc => h c (by simp [hc]))
  have octal : ∀ (l : Bytes) (n : Nat) r, l.foldlM octStep (.octal, n % 2 ^ 64) = .ok r →
      ∃ ds sp, l = ds ++ sp ∧ (∀ c ∈ ds, isOctByte c) ∧ (∀ c ∈ sp, c = chr ' ') ∧ r.1 ≠ .init ∧
        r.2 = ds.foldl (fun acc c => acc * 8 + (c.toNat - 48)) n % 2 ^ 64 := by
    intro l
    induction l with
    | nil => intro n r h; injection h with h; subst h; exact ⟨[], [], rfl, by simp, by simp, by simp, rfl⟩
    | cons c l ih =>
      intro n r h
      rw [List.foldlM_cons] at h
      by_cases hc : c = 32
      · have : octStep (.octal, n % 2 ^ 64) c = .ok (.trail, n % 2 ^ 64) := by simp [octStep, hc]
        rw [this] at h
        obtain ⟨h1, h2⟩ := trail l _ r h
        subst h2
        exact ⟨[], c :: l, rfl, by simp, by intro x hx; rcases List.mem_cons.mp hx with rfl | hx; exacts [hc, h1 x hx], by simp, rfl⟩
      · by_cases hd : 48 ≤ c ∧ c ≤ 55
        · have hd' : isOctByte c := ⟨by simpa using UInt8.le_iff_toNat_le.mp hd.1, by simpa using UInt8.le_iff_toNat_le.mp hd.2⟩
          have : octStep (.octal, n % 2 ^ 64) c = .ok (.octal, (n * 8 + (c.toNat - 48)) % 2 ^ 64) := by
            simp only [octStep]
            rw [if_neg hc, if_pos hd]
            have : (n % 2 ^ 64 * 8 + (c.toNat - 48)) % 2 ^ 64 = (n * 8 + (c.toNat - 48)) % 2 ^ 64 := by omega
            rw [this]
          rw [this] at h
          obtain ⟨ds, sp, e1, e2, e3, e4, e5⟩ := ih _ r h
          exact ⟨c :: ds, sp, by simp [e1], by intro x hx; rcases List.mem_cons.mp hx with rfl | hx; exacts [hd', e2 x hx], e3, e4, e5⟩
        · have : octStep (.octal, n % 2 ^ 64) c = .error .range := by unfold octStep; rw [if_neg hc, if_neg hd]
          rw [this] at h; cases h
  have init : ∀ (l : Bytes) r, l.foldlM octStep (.init, 0) = .ok r → r.1 ≠ .init →
      ∃ ws ds sp, l = ws ++ chr '0' :: ds ++ sp ∧ (∀ c ∈ ws, c = chr ' ' ∨ c = chr '\t' ∨ c = chr '\n' ∨ c = chr '\r') ∧
        (∀ c ∈ ds, isOctByte c) ∧ (∀ c ∈ sp, c = chr ' ') ∧ r.2 = octVal ds % 2 ^ 64 := by
    intro l
    induction l with
    | nil => intro r h hr; injection h with h; subst h; exact absurd rfl hr
    | cons c l ih =>
      intro r h hr
      rw [List.foldlM_cons] at h
      by_cases hc : c = 32 ∨ c = 9 ∨ c = 10 ∨ c = 13
      · have : octStep (.init, 0) c = .ok (.init, 0) := by unfold octStep; rw [if_pos hc]
        rw [this] at h
        obtain ⟨ws, ds, sp, e1, e2, e3, e4, e5⟩ := ih r h hr
        exact ⟨c :: ws, ds, sp, by simp [e1], by intro x hx; rcases List.mem_cons.mp hx with rfl | hx; exacts [hc, e2 x hx], e3, e4, e5⟩
      · by_cases h0 : c = 48
        · have : octStep (.init, 0) c = .ok (.octal, 0) := by unfold octStep; rw [if_neg hc, if_pos h0]
          rw [this] at h
          obtain ⟨ds, sp, e1, e2, e3, e4, e5⟩ := octal l 0 r h
          exact ⟨[], ds, sp, by simp [e1, h0]; rfl, by simp, e2, e3, e5⟩
        · have : octStep (.init, 0) c = .error .range := by unfold octStep; rw [if_neg hc, if_neg h0]
          rw [this] at h; cases h
  constructor
  · intro h
    unfold octal2int at h
    split at h
    · rename_i hs; injection h with h; exact Or.inl ⟨hs, h.symm⟩
    · right
      simp only [Bind.bind, Except.bind] at h
      split at h
      · cases h
      · rename_i r hr
        split at h
        · cases h
        · rename_i hi
          injection h with h
          subst h
          exact init s r hr hi
  · rintro (⟨rfl, rfl⟩ | ⟨ws, ds, sp, rfl, h1, h2, h3, rfl⟩)
    · rfl
    · unfold octal2int
      rw [if_neg (by simp), List.append_assoc, List.foldlM_append]
      have hws : ∀ (ws : Bytes), (∀ c ∈ ws, c = chr ' ' ∨ c = chr '\t' ∨ c = chr '\n' ∨ c = chr '\r') →
          ws.foldlM octStep (.init, 0) = .ok (.init, 0) := by
        intro ws
        induction ws with
        | nil => intro _; rfl
        | cons c l ih =>
          intro h
          rw [List.foldlM_cons]
          have : octStep (.init, 0) c = .ok (.init, 0) := by
            have hc : c = 32 ∨ c = 9 ∨ c = 10 ∨ c = 13 := h c (by simp)
            simp only [octStep, if_pos hc]
          rw [this]; exact ih (fun c hc => h c (by simp [hc]))
      rw [hws ws h1]
      simp only [Bind.bind, Except.bind, List.cons_append, List.foldlM_cons]
      have h0 : octStep (.init, 0) (chr '0') = .ok (.octal, 0) := rfl
      rw [h0]
      simp only [List.foldlM_append]
      have := octStep_digits ds h2 0
      rw [show (0 : Nat) % 2 ^ 64 = 0 from rfl] at this
      rw [this]
      simp only [Bind.bind, Except.bind]
      cases sp with
      | nil => rfl
      | cons c l =>
        rw [List.foldlM_cons]
        have hc : octStep (.octal, (ds.foldl (fun acc c => acc * 8 + (c.toNat - 48)) 0) % 2 ^ 64) c
            = .ok (.trail, (ds.foldl (fun acc c => acc * 8 + (c.toNat - 48)) 0) % 2 ^ 64) := by
          rw [h3 c (by simp)]; rfl
        rw [hc]
        simp only [Bind.bind, Except.bind]
        rw [trail' l _ (fun c hc => h3 c (by simp [hc]))]
        rfl

example : octal2int (txt " 0644 ") = .ok 0o644 := by decide
example : octal2int (txt "0648") = .error .range := by decide
example : int2octal 0o644 = txt "0644" := by decide +kernel

/-! ### C39 -/

theorem substitute_nil (m : UInt8 → Option Bytes) : substitute m [] = .ok [] := by unfold substitute; rfl

theorem substitute_lit (m : UInt8 → Option Bytes) (c : UInt8) (rest : Bytes) (h : c ≠ 37) :
    substitute m (c :: rest) = (substitute m rest).map (c :: ·) := by
  cases rest with
  | nil => simp [substitute, h, Except.map]
  | cons x r =>
    rw [substitute, if_neg h]
    cases substitute m (x :: r) <;> rfl

theorem substitute_macro (m : UInt8 → Option Bytes) (x : UInt8) (rest v : Bytes) (h : m x = some v) :
    substitute m (37 :: x :: rest) = (substitute m rest).map (v ++ ·) := by
  rw [substitute, if_pos rfl, h]
  dsimp only
  cases substitute m rest <;> rfl

/-- A command made of ordinary characters and known macros becomes the concatenation of the values: replaced
values are not expanded again, other text is unchanged. -/
theorem C39_expand (corres : UInt8 → Option Bytes) (ps : List Piece) (vals : List Bytes) (hok : ∀ p ∈ ps, p.ok)
    (hv : ps.map (Piece.value corres) = vals.map some) :
    substitute corres (ps.map Piece.text).flatten = .ok vals.flatten := by
  induction ps generalizing vals with
  | nil =>
    cases vals with
    | nil => exact substitute_nil _
    | cons _ _ => simp at hv
  | cons p ps ih =>
    cases vals with
    | nil => simp at hv
    | cons v vals =>
      simp only [List.map_cons, List.cons.injEq] at hv
      have ih' := ih vals (fun p hp => hok p (by simp [hp])) hv.2
      cases p with
      | lit c =>
        have hc := hok _ (List.mem_cons_self ..)
        have e := hv.1
        simp only [Piece.value, Option.some.injEq] at e
        subst e
        simp only [List.map_cons, List.flatten_cons, Piece.text, List.singleton_append]
        rw [substitute_lit _ _ _ hc, ih']; rfl
      | mac x =>
        simp only [List.map_cons, List.flatten_cons, Piece.text, List.cons_append, List.nil_append]
        rw [show chr '%' = 37 from rfl, substitute_macro _ _ _ v hv.1, ih']; rfl

/-- A command using an unknown macro, or ending in a lone `%`, is an error. -/
theorem C39_refuse (corres : UInt8 → Option Bytes) (ps : List Piece) (hok : ∀ p ∈ ps, p.ok) (tail : Bytes) :
    (∀ x, corres x = none → substitute corres ((ps.map Piece.text).flatten ++ ((Piece.mac x).text ++ tail)) = .error .script) ∧
    substitute corres ((ps.map Piece.text).flatten ++ [chr '%']) = .error .script := by
  induction ps with
  | nil =>
    refine ⟨?_, by rfl⟩
    intro x hx
    simp only [List.map_nil, List.flatten_nil, List.nil_append, Piece.text, List.cons_append]
    rw [show chr '%' = 37 from rfl, substitute, if_pos rfl, hx]
  | cons p ps ih =>
    obtain ⟨i1, i2⟩ := ih (fun p hp => hok p (by simp [hp]))
    cases p with
    | lit c =>
      have hc := hok _ (List.mem_cons_self ..)
      simp only [List.map_cons, List.flatten_cons, List.cons_append, List.nil_append,
        show (Piece.lit c).text = [c] from rfl]
      refine ⟨?_, ?_⟩
      · intro x hx; rw [substitute_lit _ _ _ hc, i1 x hx]; rfl
      · rw [substitute_lit _ _ _ hc, i2]; rfl
    | mac y =>
      simp only [List.map_cons, List.flatten_cons, List.cons_append, List.nil_append,
        show (Piece.mac y).text = [37, y] from rfl]
      cases hy : corres y with
      | none => exact ⟨fun x _ => by rw [substitute, if_pos rfl, hy], by rw [substitute, if_pos rfl, hy]⟩
      | some v =>
        refine ⟨?_, ?_⟩
        · intro x hx
          rw [substitute_macro _ _ _ v hy]
          rw [i1 x hx]; rfl
        · rw [substitute_macro _ _ _ v hy, i2]; rfl

/-- Every command is of one of the shapes above. -/
theorem C39_complete (s : Bytes) :
    ∃ ps : List Piece, (∀ p ∈ ps, p.ok) ∧ (s = (ps.map Piece.text).flatten ∨ s = (ps.map Piece.text).flatten ++ [chr '%']) := by
  induction hn : s.length using Nat.strongRecOn generalizing s with
  | _ n ih =>
    cases s with
    | nil => exact ⟨[], by simp, Or.inl rfl⟩
    | cons c s =>
      by_cases hc : c = chr '%'
      · subst hc
        cases s with
        | nil => exact ⟨[], by simp, Or.inr rfl⟩
        | cons x s =>
          obtain ⟨ps, h1, h2⟩ := ih s.length (by simp at hn; omega) s rfl
          refine ⟨.mac x :: ps, ?_, ?_⟩
          · intro p hp; rcases List.mem_cons.mp hp with rfl | hp
            · trivial
            · exact h1 p hp
          · rcases h2 with h2 | h2
            · left; simp [Piece.text, ← h2]
            · right; rw [h2]; simp [Piece.text]
      · obtain ⟨ps, h1, h2⟩ := ih s.length (by simp at hn; omega) s rfl
        refine ⟨.lit c :: ps, ?_, ?_⟩
        · intro p hp; rcases List.mem_cons.mp hp with rfl | hp
          · exact hc
          · exact h1 p hp
        · rcases h2 with h2 | h2
          · left; simp [Piece.text, ← h2]
          · right; rw [h2]; simp [Piece.text]

/-- The documented macros of slice hooks: `%p %b %n %N %e %c %u %%`. -/
theorem C39_hook (path base num pad ext ctx url : Bytes) :
    hookSubstitute (txt "%p/%b.%n.%e %N %c %u 100%%") path base num pad ext ctx url =
      .ok (path ++ txt "/" ++ base ++ txt "." ++ num ++ txt "." ++ ext ++ txt " " ++ pad ++ txt " " ++ ctx ++ txt " "
        ++ url ++ txt " 100%") := by
  have := C39_expand (fun c =>
    if c = 37 then some [37] else if c = 112 then some path else if c = 98 then some base
    else if c = 110 then some num else if c = 78 then some pad else if c = 101 then some ext
    else if c = 99 then some ctx else if c = 117 then some url else none)
    [.mac 112, .lit 47, .mac 98, .lit 46, .mac 110, .lit 46, .mac 101, .lit 32, .mac 78, .lit 32, .mac 99,
     .lit 32, .mac 117, .lit 32, .lit 49, .lit 48, .lit 48, .mac 37]
    [path, [47], base, [46], num, [46], ext, [32], pad, [32], ctx, [32], url, [32], [49], [48], [48], [37]]
    (by simp [Piece.ok, chr, Char.toNat])
    (by simp [Piece.value])
  simpa [Piece.text, hookSubstitute, txt, chr, Char.toNat] using this

end Dar
