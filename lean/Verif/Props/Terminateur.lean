import Verif.Model.Terminateur
import Verif.Lemmas.Infinint4
import Verif.Props.Elastic
/- Property theorems C41: the end-of-archive locator. -/
namespace Dar

theorem termCount_spec (n : Nat) (a : UInt8) (h : a ≠ 0xFF) (l : Bytes) (k : Nat) :
    termCount (List.replicate n 0xFF ++ a :: l) k = some (k + n, a) := by
  induction n generalizing k with
  | zero => simp [termCount, h]
  | succ n ih =>
    simp only [List.replicate_succ, List.cons_append, termCount, if_true]
    rw [ih]; congr 2; omega

theorem termLast_spec : ∀ b, b < 8 → (if b ≠ 0 then termLastByte b else 0) ≠ (0xFF : UInt8) ∧
    ∀ off, termBits 9 (if b ≠ 0 then termLastByte b else 0) off = .ok (off + b) := by
  intro b hb
  have hcase : b = 0 ∨ b = 1 ∨ b = 2 ∨ b = 3 ∨ b = 4 ∨ b = 5 ∨ b = 6 ∨ b = 7 := by omega
  rcases hcase with rfl | rfl | rfl | rfl | rfl | rfl | rfl | rfl <;>
    exact ⟨by decide, fun off => rfl⟩

/-- length of the position field rounded up, and the structure of the terminator -/
theorem termDump_shape (p : Nat) : ∃ q : Nat, ∃ body : Bytes,
    termDump p = body ++ [if q % 8 ≠ 0 then termLastByte (q % 8) else 0] ++ List.replicate (q / 8) 0xFF ∧
    body.length = q * 4 ∧ (putInt p) <+: body := by
  unfold termDump termBlock
  simp only
  by_cases h : (putInt p).length % 4 = 0
  · refine ⟨(putInt p).length / 4, putInt p, ?_, ?_, List.prefix_refl _⟩
    · simp [h]
    · omega
  · refine ⟨(putInt p).length / 4 + 1, putInt p ++ List.replicate (4 - (putInt p).length % 4 % 4) 0, ?_, ?_, List.prefix_append _ _⟩
    · simp [h]
    · simp; omega

/-- Reading a terminator backward from just after it gives the recorded position and where the terminator starts,
whatever bytes precede it and whatever bytes follow the starting point. -/
theorem C41_locate_from (p : Nat) (pre post : Bytes) (hsz : (termDump p).length < 2 ^ 31)
    (w : Nat) (hw : w = (pre ++ termDump p).length) (f0 : Nat) (old : Bool) :
    termRead ⟨pre ++ termDump p ++ post, f0⟩ false old w = .ok (p, pre.length) := by
  obtain ⟨q, body, hd, hb, t, ht⟩ := termDump_shape p
  have hlen : (termDump p).length = q * 4 + 1 + q / 8 := by rw [hd]; simp; omega
  obtain ⟨hff, hbits⟩ := termLast_spec (q % 8) (Nat.mod_lt _ (by omega))
  have hw0 : w ≠ 0 := by rw [hw, List.length_append]; omega
  unfold termRead
  simp only [if_neg hw0, Bool.false_eq_true, if_false]
  have htk : ((pre ++ termDump p ++ post).take w).reverse =
      List.replicate (q / 8) 0xFF ++ (if q % 8 ≠ 0 then termLastByte (q % 8) else 0) :: (pre ++ body).reverse := by
    rw [hw, List.take_left, hd]; simp
  rw [htk, termCount_spec _ _ hff]
  simp only [Nat.zero_add]
  rw [hbits]
  have hq : q / 8 * 8 + q % 8 = q := Nat.div_add_mod' q 8
  simp only [hq, termBlock]
  rw [if_neg (by omega)]
  have hpos : w - (q / 8 + 1) = pre.length + q * 4 := by rw [hw]; simp; omega
  rw [hpos]
  unfold Cur.skipRel
  have hdrop : (pre ++ termDump p ++ post).drop pre.length = putInt p ++ (t ++ ([if q % 8 ≠ 0 then termLastByte (q % 8) else 0] ++ List.replicate (q / 8) 0xFF ++ post)) := by
    rw [List.append_assoc, List.drop_left, hd, ← ht]; simp
  have hget := getInt_putInt p (t ++ ([if q % 8 ≠ 0 then termLastByte (q % 8) else 0] ++ List.replicate (q / 8) 0xFF ++ post))
  have hq0 : q ≠ 0 := by
    intro h0; subst h0
    have : body = [] := List.length_eq_zero_iff.mp (by simpa using hb)
    rw [this] at ht
    exact putInt_ne_nil p (by simp at ht; exact ht.1)
  rw [if_neg (by omega)]
  rw [if_neg (by simp only; omega)]
  simp only
  rw [show pre.length + q * 4 - (-(-((q * 4 : Nat) : Int))).toNat = pre.length by omega, hdrop, hget]

/-- Reading an archive from its end: the position recorded is recovered exactly. -/
theorem C41_locate (p : Nat) (pre : Bytes) (hsz : (termDump p).length < 2 ^ 31) (f0 : Nat) (old : Bool) :
    termRead ⟨pre ++ termDump p, f0⟩ false old 0 = .ok (p, pre.length) := by
  have h1 := C41_locate_from p pre [] hsz _ rfl f0 old
  rw [List.append_nil] at h1
  rw [← h1]
  unfold termRead
  have hne : (pre ++ termDump p).length ≠ 0 := by
    unfold termDump; simp
  simp only [if_true, if_neg hne]

/-- The same when a padding buffer has been added after the terminator (encrypted archives). -/
theorem C41_locate_elastic (p : Nat) (pre post : Bytes) (hsz : (termDump p).length < 2 ^ 31)
    (n room r : Nat) (rnd : Nat → UInt8) (hr : RndOk rnd) (h0 : n ≠ 0) (hmax : n ≤ 2 ^ 31) (hroom : n ≤ room)
    (f0 : Nat) :
    ∃ b, elDump n room r rnd = .ok b ∧
      termRead ⟨pre ++ termDump p ++ b ++ post, f0⟩ true false ((pre ++ termDump p).length + n) = .ok (p, pre.length) ∧
      termRead ⟨pre ++ termDump p ++ b, f0⟩ true false 0 = .ok (p, pre.length) := by
  have gen : ∀ post, ∃ b, elDump n room r rnd = .ok b ∧
      termRead ⟨pre ++ termDump p ++ b ++ post, f0⟩ true false ((pre ++ termDump p).length + n) = .ok (p, pre.length) := by
    intro post
    obtain ⟨b, hb, _, hk⟩ := C19_file_partial n room r rnd hr h0 hmax hroom (pre ++ termDump p) post
    refine ⟨b, hb, ?_⟩
    rw [← C41_locate_from p pre (b ++ post) hsz _ rfl f0 false]
    rw [← List.append_assoc]
    unfold termRead
    have hne : (pre ++ termDump p).length ≠ 0 := by unfold termDump; simp
    simp only [if_neg (show (pre ++ termDump p).length + n ≠ 0 by omega), if_neg hne, if_true, hk, Except.map,
      Bool.false_eq_true, if_false]
  obtain ⟨b, hb, h1⟩ := gen post
  obtain ⟨b', hb', h2⟩ := gen []
  rw [hb] at hb'; injection hb' with hb'; subst hb'
  refine ⟨b, hb, h1, ?_⟩
  rw [List.append_nil] at h2
  rw [← h2]
  have hlen : b.length = n := by
    obtain ⟨b', hb', hl, _⟩ := elDump_spec n room r rnd hr h0 (le_trans hmax (by decide)) hroom
    rw [hb] at hb'; injection hb' with hb'; subst hb'; exact hl
  unfold termRead
  have e : (pre ++ termDump p ++ b).length = (pre ++ termDump p).length + n := by simp; omega
  simp only [if_true, if_neg (show (pre ++ termDump p).length + n ≠ 0 by omega), e]

/-- A concrete archive: nine bytes then the terminator of position 1000. -/
example : termRead ⟨[1,2,3,255,255,255,0,0,0] ++ termDump 1000, 0⟩ false false 0 = .ok (1000, 9) :=
  C41_locate 1000 _ (by decide +kernel) 0 false

/-- Anything read backward either gives an answer or an error; on a file that is empty or only made of 0xFF bytes
it is refused. -/
theorem C41_refuse_blank (n f0 : Nat) (old : Bool) :
    termRead ⟨List.replicate n 0xFF, f0⟩ false old 0 = .error .range := by
  have : ∀ n k, termCount (List.replicate n 0xFF) k = none := by
    intro n
    induction n with
    | zero => intro k; rfl
    | succ n ih => intro k; simp [List.replicate_succ, termCount, ih]
  unfold termRead
  simp [this]

end Dar
