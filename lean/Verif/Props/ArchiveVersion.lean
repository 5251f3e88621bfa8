import Verif.Model.ArchiveVersion
import Mathlib.Tactic.Tauto
import Mathlib.Tactic.Ring
/- Property theorems C21: archive format version. -/
namespace Dar

theorem verToDigit_toChar (b : UInt8) : verToDigit (verToChar b) = b := by
  have : ∀ n, n < 256 → verToDigit (verToChar (UInt8.ofNat n)) = UInt8.ofNat n := by decide +kernel
  simpa using this b.toNat (UInt8.toNat_lt b)

theorem verToChar_toDigit (b : UInt8) : verToChar (verToDigit b) = b := by
  have : ∀ n, n < 256 → verToChar (verToDigit (UInt8.ofNat n)) = UInt8.ofNat n := by decide +kernel
  simpa using this b.toNat (UInt8.toNat_lt b)

theorem u16_split (v : UInt16) :
    verOf (UInt8.ofNat (v.toNat / 256)) (UInt8.ofNat (v.toNat % 256)) = v := by
  unfold verOf
  have h := UInt16.toNat_lt v
  apply UInt16.toNat_inj.mp
  simp only [UInt8.toNat_ofNat', UInt16.toNat_ofNat']
  omega

/-- Reading what `dump` wrote consumes exactly the written bytes and gives the version back; the fix number
too when the version is at least 8 (older formats have no room for it and the reader keeps its own). -/
theorem C21_roundtrip (a old : ArchVer) :
    ReadsAs old.read a.dump ⟨a.version, if a.version ≥ 8 then a.fix else old.fix⟩ := by
  intro rest
  unfold ArchVer.dump ArchVer.read
  by_cases h : a.version ≥ 8
  · have h' : ¬ a.version < 8 := by simpa using h
    rw [if_pos h, if_pos h]
    simp [bind_run, pure_run, readExact, readByte, List.cons_append, verToDigit_toChar, u16_split, h']
  · have h' : a.version < 8 := by simpa using h
    rw [if_neg h, if_neg h]
    simp [bind_run, pure_run, readExact, List.cons_append, verToDigit_toChar, u16_split, h']

/-- Reading into a fresh object (default constructor: version 0, fix 0) anything that the format can carry gives
the very same object. -/
theorem C21_roundtrip_fresh (a : ArchVer) (h : a.version ≥ 8 ∨ a.fix = 0) :
    ReadsAs (ArchVer.read ⟨0, 0⟩) a.dump a := by
  have := C21_roundtrip a ⟨0, 0⟩
  by_cases h8 : a.version ≥ 8
  · simpa [h8] using this
  · have hf : a.fix = 0 := by tauto
    rw [if_neg h8] at this
    cases a; simp_all

example : ReadsAs (ArchVer.read ⟨0, 0⟩) (ArchVer.dump ⟨11, 3⟩) ⟨11, 3⟩ := C21_roundtrip_fresh _ (Or.inl (by decide))

/-- The loss for old formats is real: version 7 fix 1 comes back as version 7 fix 0. -/
theorem C21_old_fix_lost :
    ReadsAs (ArchVer.read ⟨0, 0⟩) (ArchVer.dump ⟨7, 1⟩) ⟨7, 0⟩ := C21_roundtrip ⟨7, 1⟩ ⟨0, 0⟩

/-- No collision: two versions the format can carry, and whose encodings start the same byte sequence, are
the same version. -/
theorem C21_no_collision (a b : ArchVer) (ha : a.version ≥ 8 ∨ a.fix = 0) (hb : b.version ≥ 8 ∨ b.fix = 0)
    (ra rb : Bytes) (h : a.dump ++ ra = b.dump ++ rb) : a = b := by
  have h1 := C21_roundtrip_fresh a ha ra
  have h2 := C21_roundtrip_fresh b hb rb
  rw [h, h2] at h1
  injection h1 with h1; injection h1 with h1 _
  exact h1.symm

/-- Canonical: whatever the reader accepts is what `dump` writes for the value it returned. -/
theorem C21_canonical (old a : ArchVer) (s rest : Bytes) (h : old.read s = .ok (a, rest)) :
    s = a.dump ++ rest := by
  unfold ArchVer.read at h
  rw [bind_run] at h
  unfold readExact at h
  by_cases hl : 3 ≤ s.length
  · rw [if_pos hl] at h
    obtain ⟨x, y, z, t, rfl⟩ : ∃ x y z t, s = x :: y :: z :: t := by
      rcases s with _ | ⟨x, _ | ⟨y, _ | ⟨z, t⟩⟩⟩ <;> simp at hl
      exact ⟨x, y, z, t, rfl⟩
    have hx := UInt8.toNat_lt (verToDigit x)
    have hy := UInt8.toNat_lt (verToDigit y)
    have hn : (verOf (verToDigit x) (verToDigit y)).toNat
        = (verToDigit x).toNat * 256 + (verToDigit y).toNat := by
      rw [verOf, UInt16.toNat_ofNat']; omega
    have e0 : verToChar (UInt8.ofNat ((verOf (verToDigit x) (verToDigit y)).toNat / 256)) = x := by
      rw [hn, show ((verToDigit x).toNat * 256 + (verToDigit y).toNat) / 256 = (verToDigit x).toNat by omega]
      simp [verToChar_toDigit]
    have e1 : verToChar (UInt8.ofNat ((verOf (verToDigit x) (verToDigit y)).toNat % 256)) = y := by
      rw [hn, show ((verToDigit x).toNat * 256 + (verToDigit y).toNat) % 256 = (verToDigit y).toNat by omega]
      simp [verToChar_toDigit]
    simp at h
    generalize hw : verOf (verToDigit x) (verToDigit y) = w at *
    by_cases h8 : w < 8
    · rw [if_pos h8] at h
      by_cases hz : z = 0
      · rw [if_pos hz, pure_run] at h
        injection h with h; injection h with ha hr
        subst ha; subst hr
        have : ¬ (8 ≤ w) := by simpa using h8
        simp [ArchVer.dump, this, e0, e1, hz]
      · rw [if_neg hz] at h; cases h
    · rw [if_neg h8, bind_run] at h
      cases t with
      | nil => simp [readByte] at h
      | cons c t =>
        simp only [readByte] at h
        by_cases hc : c = 0
        · rw [if_pos hc, pure_run] at h
          injection h with h; injection h with ha hr
          subst ha; subst hr
          have : 8 ≤ w := by simpa using h8
          simp [ArchVer.dump, this, e0, e1, hc, verToChar_toDigit]
        · rw [if_neg hc] at h; cases h
  · rw [if_neg hl] at h; cases h

/-- Versions are ordered by number, then fix. -/
theorem C21_order (a b : ArchVer) :
    (a.lt b = true ↔ a.version < b.version ∨ (a.version = b.version ∧ a.fix < b.fix)) ∧
    (a.gt b = true ↔ b.lt a = true) ∧ (a.le b = true ↔ ¬ b.lt a = true) ∧ (a.ge b = true ↔ ¬ a.lt b = true) ∧
    (a.eq b = true ↔ a = b) ∧ (a.ne b = true ↔ a ≠ b) := by
  have h1 := UInt8.toNat_lt a.fix
  have h2 := UInt8.toNat_lt b.fix
  have he : a = b ↔ a.value = b.value := by
    constructor
    · intro h; rw [h]
    · intro h
      unfold ArchVer.value at h
      have e1 : a.version = b.version := by apply UInt16.toNat_inj.mp; omega
      have e2 : a.fix = b.fix := by apply UInt8.toNat_inj.mp; omega
      cases a; cases b
      simp only at e1 e2
      rw [e1, e2]
  refine ⟨?_, ?_, ?_, ?_, ?_, ?_⟩
  · unfold ArchVer.lt ArchVer.value
    simp only [decide_eq_true_eq, UInt16.lt_iff_toNat_lt, UInt8.lt_iff_toNat_lt, ← UInt16.toNat_inj]
    omega
  · simp [ArchVer.gt, ArchVer.lt]
  · simp [ArchVer.le, ArchVer.lt]
  · simp [ArchVer.ge, ArchVer.lt]
  · simp [ArchVer.eq, he]
  · simp [ArchVer.ne, he]

/-- Truncated version fields are refused. -/
theorem C21_truncated (old a : ArchVer) (p q : Bytes) (h : a.dump = p ++ q) (hq : q ≠ []) :
    ∃ e, old.read p = .error e := by
  refine strict_prefix_error _ ?_ a.dump _ (C21_roundtrip a old) p q h hq
  unfold ArchVer.read
  refine (StreamSafe.readExact 3).bind fun t => ?_
  refine StreamSafe.ite (StreamSafe.ite (StreamSafe.fail _) (StreamSafe.pure _)) ?_
  exact StreamSafe.readByte.bind fun c => StreamSafe.ite (StreamSafe.fail _) (StreamSafe.pure _)

/-- The value reserved by `empty_archive_version` is constructible, with its own encoding, and the constructor
accepts no version above it. -/
theorem C21_empty_reserved :
    (∃ e, emptyArchVer = .ok e ∧ ArchVer.dump e = [96, 96, 48, 0]) ∧
    (∀ x f, x.toNat > emptyVersionValue → ArchVer.make x f = .error .unsupported) := by
  constructor
  · exact ⟨_, rfl, by decide⟩
  · intro x f h; simp [ArchVer.make, h]

/-- Reading zeros does not give that reserved value (as the comment in archive_version.cpp:30 suggests) but
version 53456: it is not refused by the reader although the constructor would refuse it. -/
theorem C21_zero_file (rest : Bytes) (old : ArchVer) :
    old.read (0 :: 0 :: 0 :: 0 :: rest) = .ok (⟨53456, 208⟩, rest) ∧ ArchVer.make 53456 208 = .error .unsupported := by
  constructor
  · have : (0 :: 0 :: 0 :: 0 :: rest : Bytes) = ArchVer.dump ⟨53456, 208⟩ ++ rest := by
      have : ArchVer.dump ⟨53456, 208⟩ = [0, 0, 0, 0] := by decide
      rw [this]; rfl
    rw [this]
    simpa using C21_roundtrip ⟨53456, 208⟩ old rest
  · rfl

end Dar
