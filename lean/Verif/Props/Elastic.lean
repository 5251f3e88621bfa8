import Verif.Lemmas.Elastic
/- Property theorems C19: padding (elastic) buffers.  `RndOk` is the guarantee of the do-while loop that draws
padding bytes; it holds of any source from which the three mark values are removed. -/
namespace Dar

/-- A padding buffer can be built for exactly the sizes 1 .. 254^4-1, and it then takes exactly that many bytes
whatever random values are drawn. -/
theorem C19_size (n r : Nat) (rnd : Nat → UInt8) (hr : RndOk rnd) :
    (∃ b, (elMake n >>= fun t => elDump t n r rnd) = .ok b ∧ b.length = n) ↔ 1 ≤ n ∧ n ≤ 254 ^ 4 - 1 := by
  have hm : elMax = 254 ^ 4 - 1 := by rfl
  constructor
  · rintro ⟨b, h, _⟩
    unfold elMake at h
    split at h
    · cases h
    · split at h
      · cases h
      · omega
  · rintro ⟨h1, h2⟩
    obtain ⟨b, hb, hl, _⟩ := elDump_spec n n r rnd hr (by omega) (by omega) (le_refl n)
    refine ⟨b, ?_, hl⟩
    unfold elMake
    rw [if_neg (by omega), if_neg (by omega)]
    exact hb

/-- In memory: the size of a padding buffer is recovered forward whatever follows it, and backward whatever
precedes it. -/
theorem C19_buffer (n room r : Nat) (rnd : Nat → UInt8) (hr : RndOk rnd) (h0 : n ≠ 0) (hmax : n ≤ 254 ^ 4 - 1)
    (hroom : n ≤ room) (other : Bytes) (hl : n + other.length < 2 ^ 32 - 1) :
    ∃ b, elDump n room r rnd = .ok b ∧ b.length = n ∧
      elFromBuffer (b ++ other) false false = .ok n ∧ elFromBuffer (other ++ b) true false = .ok n := by
  obtain ⟨b, hb, hlen, hf, hk⟩ := elDump_spec n room r rnd hr h0 hmax hroom
  refine ⟨b, hb, hlen, ?_, ?_⟩
  · obtain ⟨c, _, _, hc⟩ := hf other
    unfold elFromBuffer
    rw [if_neg (by simp; omega)]
    simp only [Bool.false_eq_true, if_false, hc]
  · obtain ⟨c, _, _, hc⟩ := hk other.reverse
    unfold elFromBuffer
    rw [if_neg (by simp; omega)]
    simp only [if_true, List.reverse_append, hc]

/-- In a file: reading a padding buffer forward leaves the position just after it, reading it backward from
its end leaves the position just before it; for any size up to 2^31 and any content around. -/
theorem C19_file_partial (n room r : Nat) (rnd : Nat → UInt8) (hr : RndOk rnd) (h0 : n ≠ 0) (hmax : n ≤ 2 ^ 31)
    (hroom : n ≤ room) (pre post : Bytes) :
    ∃ b, elDump n room r rnd = .ok b ∧
      elFromFile ⟨pre ++ b ++ post, pre.length⟩ false false = .ok (n, ⟨pre ++ b ++ post, pre.length + n⟩) ∧
      elFromFile ⟨pre ++ b ++ post, pre.length + n⟩ true false = .ok (n, ⟨pre ++ b ++ post, pre.length⟩) := by
  obtain ⟨b, hb, hlen, hf, hk⟩ := elDump_spec n room r rnd hr h0
    (le_trans hmax (by decide)) hroom
  refine ⟨b, hb, ?_, ?_⟩
  · obtain ⟨c, hc1, hcn, hc⟩ := hf post
    unfold elFromFile
    have : (pre ++ b ++ post).drop pre.length = b ++ post := by
      rw [List.append_assoc, List.drop_left]
    simp only [Bool.false_eq_true, if_false, this, hc]
    have hu : u32 c = c := by unfold u32; omega
    rw [hu]
    by_cases h1 : n = 1
    · rw [if_pos h1]; congr 3; omega
    · rw [if_neg h1]
      by_cases hlt : c < n
      · rw [if_pos hlt]
        have hs : s32 (n - c) = ((n - c : Nat) : Int) := by
          unfold s32 u32; rw [if_pos (by omega)]; norm_cast; omega
        rw [hs]
        simp only [Cur.skipRel]
        rw [if_pos (by omega)]
        simp only
        congr 3; omega
      · rw [if_neg hlt, if_neg (by omega)]; congr 3; omega
  · obtain ⟨c, hc1, hcn, hc⟩ := hk pre.reverse
    unfold elFromFile
    have : ((pre ++ b ++ post).take (pre.length + n)).reverse = b.reverse ++ pre.reverse := by
      rw [List.take_append_of_le_length (by simp; omega), ← List.reverse_append]
      congr 1
      apply List.take_of_length_le; simp; omega
    simp only [if_true, this, hc]
    have hu : u32 c = c := by unfold u32; omega
    rw [hu]
    by_cases h1 : n = 1
    · rw [if_pos h1]; congr 3; omega
    · rw [if_neg h1]
      by_cases hlt : c < n
      · rw [if_pos hlt]
        have hs : s32 (c + 2 ^ 32 - n) = -((n - c : Nat) : Int) := by
          unfold s32 u32
          rw [Nat.mod_eq_of_lt (by omega), if_neg (by omega)]; omega
        rw [hs]
        simp only [Cur.skipRel]
        rw [if_neg (by omega), if_neg (by omega)]
        simp only
        congr 3; omega
      · rw [if_neg hlt, if_neg (by omega)]; congr 3; omega

/-- A bound is needed: `skip_relative` takes a 32-bit signed argument, so that a larger padding buffer (up to
254^4-1 bytes are accepted) whose mark stands at its start makes the position go back instead of forward. -/
theorem C19_large_counterexample (n : Nat) (hn : 2 ^ 31 + 6 ≤ n) (hmax : n ≤ 254 ^ 4 - 1)
    (rnd : Nat → UInt8) (hr : RndOk rnd) (post : Bytes) :
    ∃ b, elDump n n 0 rnd = .ok b ∧ b.length = n ∧
      elFromFile ⟨b ++ post, 0⟩ false false = .ok (n, ⟨b ++ post, 0⟩) := by
  have hn32 : n < 2 ^ 32 := lt_of_le_of_lt hmax (by decide)
  obtain ⟨b, hb, hlen, hf, hk⟩ := elDump_spec n n 0 rnd hr (by omega) hmax (le_refl n)
  refine ⟨b, hb, hlen, ?_⟩
  have hl4 := baseDigits_len 4 n (by omega)
  -- the mark is at the start, so at most six bytes are read
  have hbs : b = elLow false :: ((baseDigits 254 n).map UInt8.ofNat ++ (elHigh false ::
      (List.range (n - ((baseDigits 254 n).length + 2))).map (fun i => rnd ((baseDigits 254 n).length + 2 + i)))) := by
    unfold elDump at hb
    rw [if_neg (by omega), if_pos (by omega)] at hb
    simp only at hb
    rw [if_neg (by omega), if_pos (by omega)] at hb
    simp only [Nat.zero_mod, Nat.zero_add, List.range_zero, List.map_nil, List.nil_append, Except.ok.injEq] at hb
    rw [← hb]; simp only [List.append_assoc, List.cons_append, List.nil_append]
  have hsc : elScan false false (b ++ post) = .ok (n, (baseDigits 254 n).length + 2) := by
    rw [hbs]
    unfold elScan
    simp only [Bool.false_eq_true, if_false, List.cons_append, elFind, or_true, if_true, List.append_assoc]
    rw [if_neg (by decide), show elBase false = 254 from rfl,
      elSize_fwd n 0 1 0 _ (by omega) (by omega)]
    simp only
    rw [if_neg (by omega), if_neg (by omega)]
    congr 2 <;> omega
  unfold elFromFile
  simp only [Bool.false_eq_true, if_false, List.drop_zero, hsc]
  rw [if_neg (by omega)]
  have hu : u32 ((baseDigits 254 n).length + 2) = (baseDigits 254 n).length + 2 := by
    unfold u32; omega
  rw [hu, if_pos (by omega)]
  have hs : s32 (n - ((baseDigits 254 n).length + 2)) < 0 - ((baseDigits 254 n).length + 2 : Nat) := by
    unfold s32 u32
    rw [Nat.mod_eq_of_lt (by omega), if_neg (by omega)]; omega
  simp only [Cur.skipRel]
  rw [if_neg (by omega), if_pos (by omega)]

example : (2:Nat) ^ 31 + 6 ≤ 4000000000 ∧ 4000000000 ≤ 254 ^ 4 - 1 := by decide

/-- The padding dropped at the end of the data ends on a block boundary (so that the encryption layer has only
full blocks), whatever random size was drawn. -/
theorem C19_aligned (rand modulo offset : Nat) (hm : 0 < modulo) (hr : rand + 1 + modulo < 2 ^ 32) :
    (offset + elPadSize rand modulo offset) % modulo = 0 ∧ 1 ≤ elPadSize rand modulo offset := by
  unfold elPadSize
  have hlt := Nat.mod_lt offset hm
  have hle : (rand + 1) / modulo * modulo ≤ rand + 1 := Nat.div_mul_le_self _ _
  have e1 : u32 (rand + 1) = rand + 1 := by unfold u32; omega
  have e2 : u32 ((rand + 1) / modulo * modulo) = (rand + 1) / modulo * modulo := by unfold u32; omega
  simp only [if_pos hm, e1, e2]
  have e3 : u32 ((rand + 1) / modulo * modulo + (modulo - offset % modulo)) =
      (rand + 1) / modulo * modulo + (modulo - offset % modulo) := by unfold u32; omega
  rw [e3]
  refine ⟨?_, by omega⟩
  have := Nat.div_add_mod offset modulo
  have key : offset + ((rand + 1) / modulo * modulo + (modulo - offset % modulo)) =
      modulo * (offset / modulo + (rand + 1) / modulo + 1) := by
    rw [Nat.mul_add, Nat.mul_add, Nat.mul_comm modulo ((rand + 1) / modulo)]
    omega
  rw [key, Nat.mul_mod_right]

/-- An encrypted block gives back exactly the clear bytes: the padding added before the cipher is removed after
it, for any clear block, any cipher with its inverse, any cipher block size. -/
theorem C19_crypt_block (enc dec : Bytes → Bytes) (hdec : ∀ x, dec (enc x) = x) (hlen : ∀ x, (enc x).length = x.length)
    (algo : Nat) (ha : 1 ≤ algo) (ha' : algo ≤ 254 ^ 4 - 1) (clear : Bytes) (hc : clear.length + algo < 2 ^ 32 - 1) (room r : Nat)
    (rnd : Nat → UInt8) (hr : RndOk rnd) (hroom : cryptBlockFor algo clear.length ≤ room) :
    ∃ c, cryptEncrypt enc algo clear room r rnd = .ok c ∧ c.length = cryptBlockFor algo clear.length ∧
      c.length % algo = 0 ∧ cryptDecrypt dec false c = .ok clear := by
  have hfill : cryptBlockFor algo clear.length = (clear.length / algo + 1) * algo := by
    unfold cryptBlockFor u32
    apply Nat.mod_eq_of_lt
    have := Nat.div_mul_le_self clear.length algo
    rw [Nat.add_mul]; omega
  have hgt : clear.length < (clear.length / algo + 1) * algo := by
    have h1 := Nat.div_add_mod clear.length algo
    have h2 := Nat.mod_lt clear.length ha
    rw [Nat.add_mul, Nat.mul_comm]; omega
  have hle : (clear.length / algo + 1) * algo ≤ clear.length + algo := by
    have := Nat.div_mul_le_self clear.length algo
    rw [Nat.add_mul]; omega
  set fill := cryptBlockFor algo clear.length with hf
  have hn0 : fill - clear.length ≠ 0 := by omega
  have hnm : fill - clear.length ≤ 254 ^ 4 - 1 := by omega
  obtain ⟨pad, hpad, hplen, _, hback⟩ := C19_buffer (fill - clear.length) (room - clear.length) r rnd hr hn0 hnm (by omega)
    clear (by omega)
  have hml : elMake (fill - clear.length) = .ok (fill - clear.length) := by
    unfold elMake
    rw [if_neg hn0, if_neg (by have : elMax = 254 ^ 4 - 1 := by rfl
                               omega)]
  have htk : (clear ++ pad).take fill = clear ++ pad := by
    apply List.take_of_length_le; simp; omega
  have htot : (clear ++ pad).length = fill := by simp; omega
  refine ⟨enc (clear ++ pad), ?_, ?_, ?_, ?_⟩
  · unfold cryptEncrypt
    rw [← hf]
    simp only
    rw [if_neg (by omega), if_pos (by omega), hml]
    simp only [hpad, htk]
  · rw [hlen, htot]
  · rw [hlen, htot, hfill]; exact Nat.mul_mod_left _ _
  · unfold cryptDecrypt
    simp only [hlen, htot, hdec]
    rw [List.take_of_length_le (by omega), hback, if_neg (by omega)]
    simp only
    rw [if_neg (by omega), show fill - (fill - clear.length) = clear.length by omega, List.take_left]

/-- the hypotheses are met: constant random byte 0 -/
example : RndOk (fun _ => 0) := fun _ => by simp only; decide
example : ∃ b, elDump 10 10 7 (fun _ => 0) = .ok b ∧ elFromBuffer (b ++ [1, 2, 3]) false false = .ok 10 := by
  obtain ⟨b, h1, _, h2, _⟩ := C19_buffer 10 10 7 (fun _ => 0) (fun _ => by simp only; decide) (by decide) (by decide) (by decide) [1, 2, 3] (by decide)
  exact ⟨b, h1, h2⟩

/-- Whatever the bytes (damaged or hostile) and the format version, an accepted padding never claims less than the
bytes its own marks and size field take, and the cursor stays where the padding claims to end. -/
theorem C19_refuse_short (f : Cur) (back old : Bool) (t : Nat) (g : Cur)
    (hf : f.data.length < 2 ^ 32) (hp : f.pos ≤ f.data.length)
    (h : elFromFile f back old = .ok (t, g)) : 1 ≤ t ∧ (t ≤ 2 ^ 31 →
      g.pos = if back then f.pos - t else f.pos + t) := by
  have find : ∀ (first : UInt8) (l : Bytes) (k : Nat) m c rest, elFind first l k = some (m, c, rest) →
      c + rest.length = k + l.length ∧ k < c := by
    intro first l
    induction l with
    | nil => intro k m c rest h; simp [elFind] at h
    | cons a l ih =>
      intro k m c rest h
      unfold elFind at h
      split at h
      · simp at h; obtain ⟨_, rfl, rfl⟩ := h; simp; omega
      · have := ih _ _ _ _ h; simp; omega
  have size : ∀ (base : Nat) (last : UInt8) (l : Bytes) (t pb n t' n' : Nat),
      elSize back base last l t pb n = .ok (t', n') → n' + 1 ≤ n + l.length ∧ n ≤ n' := by
    intro base last l
    induction l with
    | nil => intro t pb n t' n' h; simp [elSize] at h
    | cons a l ih =>
      intro t pb n t' n' h
      unfold elSize at h
      split at h
      · simp at h; obtain ⟨rfl, rfl⟩ := h; simp
      · simp only at h
        split at h
        · cases h
        · have := ih _ _ _ _ _ h; simp; omega
  have scan : ∀ l t n, elScan back old l = .ok (t, n) → 1 ≤ n ∧ n ≤ l.length ∧ 1 ≤ t ∧ (t = 1 → n = 1) := by
    intro l t n h
    unfold elScan at h
    simp only at h
    split at h
    · cases h
    · rename_i m count rest hfd
      have h1 := find _ _ _ _ _ _ hfd
      split at h
      · split at h
        · simp at h; omega
        · cases h
      · split at h
        · cases h
        · rename_i t' n' hs
          have h2 := size _ _ _ _ _ _ _ _ hs
          split at h
          · simp at h; omega
          · split at h
            · cases h
            · simp at h; omega
  unfold elFromFile at h
  split at h
  · cases h
  · rename_i t' n hs
    obtain ⟨h1, h2, h3, h4⟩ := scan _ _ _ hs
    have hn : n ≤ f.data.length := by
      refine le_trans h2 ?_
      cases back <;> simp
    have hnp : back = true → n ≤ f.pos := by
      intro hb; subst hb; simp at h2; omega
    have hu : u32 n = n := by unfold u32; omega
    simp only [hu] at h
    split at h
    · rename_i ht1
      simp at h
      obtain ⟨rfl, rfl⟩ := h
      have := h4 ht1
      refine ⟨h3, fun _ => ?_⟩
      cases back <;> simp <;> omega
    · split at h
      · rename_i hlt
        simp at h
        obtain ⟨rfl, rfl⟩ := h
        refine ⟨h3, fun ht => ?_⟩
        cases back
        · have hs : s32 (t' - n) = ((t' - n : Nat) : Int) := by
            unfold s32 u32; rw [if_pos (by omega)]; norm_cast; omega
          simp [hs, Cur.skipRel]; omega
        · have hs : s32 (n + 2 ^ 32 - t') = -((t' - n : Nat) : Int) := by
            unfold s32 u32
            rw [Nat.mod_eq_of_lt (by omega), if_neg (by omega)]; omega
          rw [if_pos rfl, if_pos rfl, if_pos rfl]
          norm_num at hs
          rw [hs]
          unfold Cur.skipRel
          rw [if_neg (by omega)]
          simp only
          split
          · simp only; omega
          · simp only; omega
      · split at h
        · cases h
        · simp at h
          obtain ⟨rfl, rfl⟩ := h
          refine ⟨h3, fun _ => ?_⟩
          cases back <;> simp <;> omega

end Dar
