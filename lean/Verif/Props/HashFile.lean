import Verif.Model.HashFile
import Mathlib.Tactic.Ring
import Mathlib.Tactic.IntervalCases
/- C49: the hash file of a slice. -/
namespace Dar

/-- the sixteen digits -/
def hexChars : Bytes := [48, 49, 50, 51, 52, 53, 54, 55, 56, 57, 97, 98, 99, 100, 101, 102]

theorem hexDigit_eq (t : Nat) (h : t < 16) : hexDigit t = hexChars.getD t 0 := by
  interval_cases t <;> rfl

/-- C49: the digest is written with two hexadecimal digits per byte, most significant first. -/
theorem C49_hex (d : Bytes) : toHex d = d.flatMap (fun b => [hexChars.getD (b.toNat / 16) 0, hexChars.getD (b.toNat % 16) 0]) := by
  unfold toHex
  congr 1
  funext b
  unfold byteToHex
  have hb : b.toNat < 256 := b.toNat_lt
  generalize b.toNat = n at hb
  dsimp only
  by_cases h0 : n = 0
  · subst h0
    have : baseDigits 16 0 = [] := by unfold baseDigits; simp
    rw [this]; rfl
  · by_cases h1 : n < 16
    · have hd : baseDigits 16 n = [n] := by
        unfold baseDigits
        rw [dif_pos ⟨h0, by omega⟩, Nat.mod_eq_of_lt h1, Nat.div_eq_of_lt h1]
        unfold baseDigits
        simp
      rw [hd]
      show [48] ++ [hexDigit n] = _
      rw [hexDigit_eq n h1, Nat.mod_eq_of_lt h1, Nat.div_eq_of_lt h1]
      rfl
    · have hd : baseDigits 16 n = [n % 16, n / 16] := by
        unfold baseDigits
        rw [dif_pos ⟨h0, by omega⟩]
        unfold baseDigits
        rw [dif_pos ⟨by omega, by omega⟩, Nat.div_div_eq_div_mul, Nat.div_eq_of_lt (show n < 16 * 16 by omega), Nat.mod_eq_of_lt (show n / 16 < 16 by omega)]
        unfold baseDigits
        simp
      rw [hd]
      show [] ++ [hexDigit (n / 16), hexDigit (n % 16)] = _
      rw [hexDigit_eq _ (by omega), hexDigit_eq _ (by omega)]
      rfl

/-- the text expected by sha1sum -c and the like: the digest in hexadecimal, two spaces, the name of the slice, an end of line -/
def checksumText (digest name : Bytes) : Bytes :=
  digest.flatMap (fun b => [hexChars.getD (b.toNat / 16) 0, hexChars.getD (b.toNat % 16) 0]) ++ [0x20, 0x20] ++ name ++ [0x0A]

theorem hashLine_eq (digest name : Bytes) : hashLine digest name = checksumText digest name := by
  unfold hashLine checksumText
  rw [C49_hex]

theorem rawWrite_spec (a : Bytes) (env : List WrEv) : ∃ r, a = (rawWrite a env).1 ++ r ∧ ((rawWrite a env).2.1 = none → r = []) := by
  induction env generalizing a with
  | nil => exact ⟨[], by simp [rawWrite], fun _ => rfl⟩
  | cons ev l ih =>
    unfold rawWrite
    by_cases ha : a = []
    · rw [if_pos ha]; exact ⟨[], by simp [ha], fun _ => rfl⟩
    · rw [if_neg ha]
      cases ev with
      | wrote n =>
        obtain ⟨r, h1, h2⟩ := ih (a.drop n)
        refine ⟨r, ?_, h2⟩
        show a = a.take n ++ (rawWrite (a.drop n) l).1 ++ r
        rw [List.append_assoc, ← h1, List.take_append_drop]
      | eintr => exact ih a
      | nospc c =>
        cases c with
        | true => exact ih a
        | false => exact ⟨a, rfl, by intro h; cases h⟩
      | eio => exact ⟨a, rfl, by intro h; cases h⟩
      | other => exact ⟨a, rfl, by intro h; cases h⟩
      | cancel => exact ⟨a, rfl, by intro h; cases h⟩

/-- the invariant of the writes, as long as nothing failed -/
def HashFile.Good (h : HashFile) (d : Bytes) : Prop := h.ref.data = d ∧ h.hashed = d ∧ h.aborting = false ∧ h.ref.diskFull = false ∧ h.hashFile = none ∧ h.terminated = false

theorem write_good (h : HashFile) (d a : Bytes) (env : List WrEv) (hg : h.Good d) :
    ((h.write a env).2.1 = none → (h.write a env).1.Good (d ++ a)) ∧
    ((h.write a env).2.1 = some .userAbort → (h.write a env).1.aborting = true ∧ (h.write a env).1.ref.diskFull = true ∧ ∃ r, d ++ a = (h.write a env).1.ref.data ++ r) ∧ (h.write a env).1.terminated = false ∧ (h.write a env).1.hashFile = none := by
  obtain ⟨g1, g2, g3, g4, g5, g6⟩ := hg
  unfold HashFile.write
  rw [g6, if_neg (by intro h; cases h)]
  by_cases ha : a = []
  · subst ha
    rw [if_pos rfl, List.append_nil]
    exact ⟨fun _ => ⟨g1, g2, g3, g4, g5, g6⟩, (by intro h; cases h), g6, g5⟩
  · rw [if_neg ha]
    unfold RawFile.write
    rw [g4, if_neg (by intro h; cases h)]
    obtain ⟨r, h1, h2⟩ := rawWrite_spec a env
    dsimp only
    refine ⟨fun hn => ?_, fun hn => ?_, rfl, g5⟩
    · have : (rawWrite a env).1 = a := by have := h2 hn; subst this; rw [List.append_nil] at h1; exact h1.symm
      refine ⟨by simp only [this, g1], by simp only [g2], by simp [g3, hn], by simp [hn], g5, rfl⟩
    · refine ⟨by simp [hn], by simp [hn], r, ?_⟩
      conv_lhs => rw [h1]
      simp only [g1, List.append_assoc]

theorem write_aborting (h : HashFile) (a : Bytes) (env : List WrEv) (ha : h.aborting = true) (hd : h.ref.diskFull = true) (ht : h.terminated = false) (hf : h.hashFile = none) :
    (h.write a env).1.aborting = true ∧ (h.write a env).1.ref = h.ref ∧ (h.write a env).1.terminated = false ∧ (h.write a env).1.hashFile = none := by
  unfold HashFile.write
  rw [ht, if_neg (by intro h; cases h)]
  by_cases h0 : a = []
  · rw [if_pos h0]; exact ⟨ha, rfl, ht, hf⟩
  · rw [if_neg h0]; dsimp only; exact ⟨by simp [ha], by simp [RawFile.write, hd], rfl, hf⟩

theorem writes_aborting (ws : List Bytes) : ∀ (h : HashFile) (env : List WrEv), h.aborting = true → h.ref.diskFull = true → h.terminated = false → h.hashFile = none →
    (h.writes env ws).1.aborting = true ∧ (h.writes env ws).1.ref = h.ref ∧ (h.writes env ws).1.terminated = false ∧ (h.writes env ws).1.hashFile = none := by
  induction ws with
  | nil => exact fun h env a _ b c => ⟨a, rfl, b, c⟩
  | cons a ws ih =>
    intro h env h1 hd h2 h3
    obtain ⟨k1, k0, k2, k3⟩ := write_aborting h a env h1 hd h2 h3
    obtain ⟨j1, j0, j2, j3⟩ := ih (h.write a env).1 (h.write a env).2.2 k1 (by rw [k0]; exact hd) k2 k3
    exact ⟨j1, j0.trans k0, j2, j3⟩

theorem writes_good (ws : List Bytes) : ∀ (h : HashFile) (env : List WrEv) (d : Bytes), h.Good d →
    ((h.writes env ws).2 = [] → (h.writes env ws).1.Good (d ++ ws.flatten)) ∧
    ((∀ e ∈ (h.writes env ws).2, e = .userAbort) → (h.writes env ws).2 ≠ [] → (h.writes env ws).1.aborting = true ∧ (∃ r, d ++ ws.flatten = (h.writes env ws).1.ref.data ++ r) ∧ (h.writes env ws).1.terminated = false ∧ (h.writes env ws).1.hashFile = none) := by
  induction ws with
  | nil => exact fun h env d hg => ⟨fun _ => by simpa [HashFile.writes] using hg, fun _ h => absurd rfl h⟩
  | cons a ws ih =>
    intro h env d hg
    obtain ⟨w1, w2, w3, w4⟩ := write_good h d a env hg
    unfold HashFile.writes
    dsimp only
    cases he : (h.write a env).2.1 with
    | none =>
      obtain ⟨i1, i2⟩ := ih (h.write a env).1 (h.write a env).2.2 (d ++ a) (w1 he)
      refine ⟨fun h1 => ?_, fun h1 h2 => ?_⟩
      · have := i1 (by simpa using h1)
        rw [List.flatten_cons, ← List.append_assoc]
        exact this
      · have := i2 (by simpa using h1) (by simpa using h2)
        rw [List.flatten_cons, ← List.append_assoc]
        exact this
    | some e =>
      refine ⟨fun h1 => ?_, fun h1 h2 => ?_⟩
      · simp at h1
      · have : e = .userAbort := h1 e (by simp)
        subst this
        obtain ⟨u1, u2, r, u3⟩ := w2 he
        obtain ⟨j1, j0, j2, j3⟩ := writes_aborting ws (h.write a env).1 (h.write a env).2.2 u1 u2 w3 w4
        refine ⟨j1, ⟨r ++ ws.flatten, ?_⟩, j2, j3⟩
        rw [j0, List.flatten_cons, ← List.append_assoc, u3, List.append_assoc]

/-- C49: any writes (and any short writes, interruptions, lacks of space the user solved): when none failed, the slice has all the bytes in order and the hash file has the hash of exactly
these, followed by the name of the slice.  When the user gave up because of the lack of space, what follows
is not written either: the slice has the start of what was to be written, and there is no hash file. -/
theorem C49_hash (H : Bytes → Bytes) (name : Bytes) (ws : List Bytes) (env : List WrEv) (h : HashFile) (errs : List Err) (hw : HashFile.new.writes env ws = (h, errs)) :
    (errs = [] → (h.terminate H name).ref.data = ws.flatten ∧ (h.terminate H name).hashFile = some (checksumText (H ws.flatten) name)) ∧
    ((∀ e ∈ errs, e = .userAbort) → errs ≠ [] → (h.terminate H name).ref.data <+: ws.flatten ∧ (h.terminate H name).hashFile = none) := by
  have hg : HashFile.new.Good [] := ⟨rfl, rfl, rfl, rfl, rfl, rfl⟩
  obtain ⟨g1, g2⟩ := writes_good ws HashFile.new env [] hg
  rw [hw] at g1 g2
  refine ⟨fun he => ?_, fun h1 h2 => ?_⟩
  · obtain ⟨k1, k2, k3, k4, k5, k6⟩ := g1 he
    simp only at k1 k2 k3 k4 k5 k6
    unfold HashFile.terminate
    rw [k6, if_neg (by intro h; cases h)]
    exact ⟨by simpa using k1, by simp [k3, k2, hashLine_eq]⟩
  · obtain ⟨k1, ⟨r, k0⟩, k2, k3⟩ := g2 h1 h2
    simp only at k0 k1 k2 k3
    unfold HashFile.terminate
    rw [k2, if_neg (by intro h; cases h)]
    exact ⟨⟨r, by simpa using k0.symm⟩, by simp [k1, k3]⟩

/-- C49: terminating twice (explicitly, then by the destructor) does not change what has been written. -/
theorem C49_terminate_once (H : Bytes → Bytes) (name : Bytes) (h : HashFile) : (h.terminate H name).terminate H name = h.terminate H name := by
  unfold HashFile.terminate
  by_cases ht : h.terminated = true
  · simp [ht]
  · simp [ht]

/-- C49: reading a slice through the same class: the hash is that of the bytes read, in order; of the whole slice when it has been read up to its end. -/
theorem C49_read (data : Bytes) (ns : List Nat) : (hashReads data 0 [] ns).2 = (hashReads data 0 [] ns).1.flatten ∧ (data.length ≤ ns.sum → (hashReads data 0 [] ns).2 = data) := by
  have key : ∀ (ns : List Nat) (pos : Nat) (hd : Bytes), hd = data.take pos → pos ≤ data.length →
      (hashReads data pos hd ns).2 = hd ++ (hashReads data pos hd ns).1.flatten ∧ (data.length ≤ pos + ns.sum → (hashReads data pos hd ns).2 = data) := by
    intro ns
    induction ns with
    | nil =>
      intro pos hd h1 h2
      refine ⟨by simp [hashReads], fun h => ?_⟩
      simp only [hashReads]
      rw [h1, List.take_of_length_le (by simpa using h)]
    | cons n ns ih =>
      intro pos hd h1 h2
      unfold hashReads
      dsimp only
      have e1 : (if ((data.drop pos).take n).length > 0 then hd ++ (data.drop pos).take n else hd) = hd ++ (data.drop pos).take n := by
        split
        · rfl
        · next h =>
          rw [List.length_eq_zero_iff.1 (by omega : ((data.drop pos).take n).length = 0), List.append_nil]
      rw [e1]
      have hlen : ((data.drop pos).take n).length = min n (data.length - pos) := by simp
      have e2 : hd ++ (data.drop pos).take n = data.take (pos + ((data.drop pos).take n).length) := by
        rw [h1, hlen]
        rw [List.take_add]
        congr 1
        by_cases hn : n ≤ data.length - pos
        · rw [min_eq_left hn]
        · rw [min_eq_right (by omega), List.take_of_length_le (by simp; omega), List.take_of_length_le (by simp)]
      obtain ⟨i1, i2⟩ := ih (pos + ((data.drop pos).take n).length) _ e2 (by omega)
      refine ⟨?_, fun h => ?_⟩
      · rw [i1, List.flatten_cons, ← List.append_assoc]
      · by_cases hn : n ≤ data.length - pos
        · exact i2 (by rw [List.sum_cons] at h; omega)
        · exact i2 (by omega)
  obtain ⟨h1, h2⟩ := key ns 0 [] (by simp) (Nat.zero_le _)
  exact ⟨by simpa using h1, fun h => h2 (by simpa using h)⟩

/-- a case: three writes with a short write, an interruption and a lack of space that the user solved -/
theorem C49_example : ∃ h, HashFile.new.writes [.wrote 1, .eintr, .nospc true] [[1, 2, 3], [], [4]] = (h, []) ∧ h.ref.data = [1, 2, 3, 4] := ⟨_, rfl, rfl⟩

/-- C49, counterexample: when a write fails for another reason (input-output error, thread cancelled…), the bytes that could not be written have already been given to the hash, and the
hash file is nevertheless written when the object is destroyed: it does not describe the slice, hash_fichier.cpp:134-173 and 213-304. -/
theorem C49_error_counterexample : ∃ h, HashFile.new.writes [.wrote 1, .eio] [[1, 2]] = (h, [.hardware]) ∧
    ∀ (H : Bytes → Bytes) (name : Bytes), (h.terminate H name).ref.data = [1] ∧ (h.terminate H name).hashFile = some (checksumText (H [1, 2]) name) :=
  ⟨_, rfl, fun _ _ => ⟨rfl, by rw [← hashLine_eq]; rfl⟩⟩

end Dar
