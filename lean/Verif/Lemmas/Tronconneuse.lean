import Verif.Model.Tronconneuse
import Verif.Lemmas.Flat
/- Lemmas on the block-encryption layer. -/
namespace Dar

theorem encBlocks_nil (c : Cipher) (B n : Nat) : encBlocks c B n [] = [] := by rw [encBlocks]; simp

theorem encBlocks_cons (c : Cipher) (B n : Nat) (d : Bytes) (hB : 0 < B) (h : d ≠ []) :
    encBlocks c B n d = c.enc n (d.take B) ++ encBlocks c B (n + 1) (d.drop B) := by
  conv => lhs; rw [encBlocks]
  rw [dif_neg (by rintro (h1 | h1); exacts [h h1, by omega])]

theorem encBlocks_short (c : Cipher) (B n : Nat) (d : Bytes) (hB : 0 < B) (h : d ≠ []) (hl : d.length ≤ B) :
    encBlocks c B n d = c.enc n d := by
  rw [encBlocks_cons c B n d hB h, List.drop_eq_nil_of_le hl, encBlocks_nil, List.append_nil, List.take_of_length_le hl]

/-- Appending after whole blocks. -/
theorem encBlocks_append (c : Cipher) (B : Nat) (hB : 0 < B) (k : Nat) : ∀ (n : Nat) (a b : Bytes), a.length = k * B →
    encBlocks c B n (a ++ b) = encBlocks c B n a ++ encBlocks c B (n + k) b := by
  induction k with
  | zero => intro n a b h; have : a = [] := List.length_eq_zero_iff.mp (by omega); subst this; simp [encBlocks_nil]
  | succ k ih =>
    intro n a b h
    have hle : B ≤ a.length := by rw [h, Nat.add_mul]; omega
    have ha : a ≠ [] := by rintro rfl; simp at hle; omega
    rw [encBlocks_cons c B n (a ++ b) hB (by simp [ha]), encBlocks_cons c B n a hB ha,
      List.take_append_of_le_length hle, List.drop_append_of_le_length hle,
      ih (n + 1) (a.drop B) b (by simp [h, Nat.add_mul]), List.append_assoc]
    congr 3; omega

/-- Block `k` of the clear data. -/
def blk (B : Nat) (d : Bytes) (k : Nat) : Bytes := (d.drop (k * B)).take B

theorem blk_length (B : Nat) (d : Bytes) (k : Nat) : (blk B d k).length = min B (d.length - k * B) := by simp [blk]

/-- What is found at the place of block `k` and after it. -/
theorem encBlocks_drop (c : Cipher) (B : Nat) (hB : 0 < B) (hc : c.Lawful B) (k : Nat) : ∀ (n : Nat) (d : Bytes), k * B ≤ d.length →
    (encBlocks c B n d).drop (k * c.encSize B) = encBlocks c B (n + k) (d.drop (k * B)) ∧
    k * c.encSize B ≤ (encBlocks c B n d).length := by
  induction k with
  | zero => intro n d _; simp
  | succ k ih =>
    intro n d h
    have hle : B ≤ d.length := by rw [Nat.add_mul] at h; omega
    have hd : d ≠ [] := by rintro rfl; simp at hle; omega
    have htl : (d.take B).length = B := by simp; omega
    have hel : (c.enc n (d.take B)).length = c.encSize B := by
      rw [hc.size n _ (by intro e; rw [e] at htl; simp at htl; omega) (by omega), htl]
    obtain ⟨h1, h2⟩ := ih (n + 1) (d.drop B) (by simp; rw [Nat.add_mul] at h; omega)
    rw [encBlocks_cons c B n d hB hd]
    constructor
    · rw [show (k + 1) * c.encSize B = (c.enc n (d.take B)).length + k * c.encSize B by rw [hel]; ring, ← List.drop_drop, List.drop_left, h1,
        List.drop_drop]
      congr 1
      · omega
      · congr 1; ring
    · rw [List.length_append, hel, Nat.add_mul]; omega

/-- The encrypted stream of what remains starts with the current block. -/
theorem encBlocks_split (c : Cipher) (B : Nat) (hB : 0 < B) (n : Nat) (d : Bytes) :
    encBlocks c B n d = encBlocks c B n (d.take B) ++ encBlocks c B (n + 1) (d.drop B) := by
  by_cases hd : d = []
  · subst hd; simp [encBlocks_nil]
  · rw [encBlocks_cons c B n d hB hd, encBlocks_short c B n (d.take B) hB (by
      intro e; have := congrArg List.length e; have h2 := List.length_pos_iff.mpr hd; rw [List.length_take, List.length_nil] at this; omega) (by rw [List.length_take]; omega)]

theorem encBlocks_blk_len (c : Cipher) (B : Nat) (hB : 0 < B) (hc : c.Lawful B) (n : Nat) (x : Bytes) (h : x.length ≤ B) :
    (encBlocks c B n x).length ≤ c.encSize B ∧ (x.length = B → (encBlocks c B n x).length = c.encSize B) := by
  by_cases hx : x = []
  · subst hx; rw [encBlocks_nil]; simp; omega
  · rw [encBlocks_short c B n x hB hx h, hc.size n x hx h]
    exact ⟨hc.mono _ h, fun e => by rw [e]⟩

theorem dec_blk (c : Cipher) (B : Nat) (hB : 0 < B) (hc : c.Lawful B) (n : Nat) (x : Bytes) (h : x.length ≤ B) :
    c.dec n (encBlocks c B n x) = .ok x := by
  by_cases hx : x = []
  · subst hx; rw [encBlocks_nil]; exact hc.none n
  · rw [encBlocks_short c B n x hB hx h]; exact hc.inv n x hx h

theorem encBlocks_nonempty (c : Cipher) (B : Nat) (hB : 0 < B) (hc : c.Lawful B) (n : Nat) (x : Bytes) (h : x.length ≤ B) (hx : x ≠ []) :
    encBlocks c B n x ≠ [] := by
  intro e
  have h1 := dec_blk c B hB hc n x h
  rw [e, hc.none n] at h1
  exact hx (by cases h1; rfl)

/-- Trailing clear data: none at all, or a callback which finds it at the end of whatever it is given, the trailing data being
shorter than an encrypted block and the cipher refusing a block mixing encrypted and trailing data. -/
inductive TrailOk (c : Cipher) (B shift : Nat) (X T : Bytes) : Option (Bytes → Res Nat) → Prop
  | none (h : T = []) : TrailOk c B shift X T none
  | some (f : Bytes → Res Nat) (find : ∀ s, f (s ++ T) = .ok (shift + X.length)) (short : T.length ≤ c.encSize B) (small : c.encSize B < 2 ^ 32)
      (reject : ∀ k x t, x.length ≤ B → t ≠ [] → t <+: T → (encBlocks c B k x ++ t).length = c.encSize B →
        c.dec k (encBlocks c B k x ++ t) = .error .range) : TrailOk c B shift X T (some f)

theorem list_take_prefix (l : Bytes) (n : Nat) : l.take n <+: l := List.take_prefix n l

/-- Loading block `k`. -/
theorem load_spec (c : Cipher) (B : Nat) (hB : 0 < B) (hc : c.Lawful B) (pre D T : Bytes) (trail : Option (Bytes → Res Nat))
    (ht : TrailOk c B pre.length (encBlocks c B 0 D) T trail) (p k : Nat) (hk : k * B ≤ D.length) :
    ∃ r f', troLoad c (c.encSize B) pre.length trail ⟨pre ++ encBlocks c B 0 D ++ T, p⟩ k = .ok (blk B D k, r, f') ∧
      f'.data = pre ++ encBlocks c B 0 D ++ T ∧ (r = true → D.length ≤ k * B + B) := by
  have hE := hc.pos
  obtain ⟨hdrop, hlen⟩ := encBlocks_drop c B hB hc k 0 D hk
  have hdd : (pre ++ encBlocks c B 0 D ++ T).drop (k * c.encSize B + pre.length) = encBlocks c B k (D.drop (k * B)) ++ T := by
    rw [Nat.add_comm, ← List.drop_drop, List.append_assoc, List.drop_left, List.drop_append_of_le_length hlen, hdrop, Nat.zero_add]
  have hbl : (blk B D k).length ≤ B := by rw [blk_length]; omega
  have hX : (encBlocks c B 0 D).length = k * c.encSize B + (encBlocks c B k (D.drop (k * B))).length := by
    have := congrArg List.length hdrop
    rw [List.length_drop, Nat.zero_add] at this
    omega
  obtain ⟨hbE, hbE'⟩ := encBlocks_blk_len c B hB hc k (blk B D k) hbl
  have hdec := dec_blk c B hB hc k (blk B D k) hbl
  have hsplit := encBlocks_split c B hB k (D.drop (k * B))
  rw [show (D.drop (k * B)).take B = blk B D k from rfl] at hsplit
  unfold troLoad
  simp only [Flat.read, Flat.skip, hdd]
  by_cases hfull : B ≤ D.length - k * B
  · -- a full block
    have hbB : (blk B D k).length = B := by rw [blk_length]; omega
    have htake : (encBlocks c B k (D.drop (k * B)) ++ T).take (c.encSize B) = encBlocks c B k (blk B D k) := by
      rw [hsplit, List.append_assoc, List.take_append_of_le_length (by omega), List.take_of_length_le (by omega)]
    rw [htake, if_neg (by rw [hbE' hbB]; omega), hdec]
    exact ⟨false, _, rfl, rfl, by simp⟩
  · -- the last block or nothing
    have hrest : encBlocks c B (k + 1) ((D.drop (k * B)).drop B) = [] := by
      rw [List.drop_eq_nil_of_le (by simp; omega), encBlocks_nil]
    rw [hrest, List.append_nil] at hsplit
    rw [hsplit] at hX hdd ⊢
    have hend : true = true → D.length ≤ k * B + B := by intro _; omega
    have hend' : ∀ r : Bool, r = true → D.length ≤ k * B + B := by intro r _; omega
    cases ht with
    | none hT =>
      subst hT
      rw [List.append_nil, List.take_of_length_le hbE]
      by_cases hs : (encBlocks c B k (blk B D k)).length < c.encSize B
      · rw [if_pos hs]
        simp only [troTrail, hdec]
        exact ⟨true, _, rfl, rfl, hend⟩
      · rw [if_neg hs, hdec]
        exact ⟨false, _, rfl, rfl, by simp⟩
    | some f find short small reject =>
      have hcut : ∀ b : Bytes, (encBlocks c B k (blk B D k)) <+: b →
          troCut (k * c.encSize B) (pre.length + (encBlocks c B 0 D).length - pre.length) b = .ok (encBlocks c B k (blk B D k), true) := by
        intro b hb
        obtain ⟨b', rfl⟩ := hb
        unfold troCut
        rw [Nat.add_sub_cancel_left, hX]
        by_cases h0 : (encBlocks c B k (blk B D k)).length = 0
        · rw [if_pos (by omega), List.length_eq_zero_iff.mp h0]
        · rw [if_neg (by omega), if_neg (by omega), Nat.add_sub_cancel_left, if_pos (by simp), List.take_left]
      by_cases hs : (encBlocks c B k (blk B D k) ++ T).length ≤ c.encSize B - 1
      · rw [List.take_of_length_le (by omega), if_pos (by omega)]
        simp only [troTrail, List.append_nil, find]
        rw [if_neg (by omega), hcut _ (List.prefix_append _ _)]
        simp only [hdec]
        exact ⟨true, _, rfl, rfl, hend⟩
      · have htl : ((encBlocks c B k (blk B D k) ++ T).take (c.encSize B)).length = c.encSize B := by
          rw [List.length_take]; omega
        rw [if_neg (by omega)]
        by_cases he : (encBlocks c B k (blk B D k)).length = c.encSize B
        · rw [List.take_append_of_le_length (by omega), List.take_of_length_le (by omega), hdec]
          exact ⟨false, _, rfl, rfl, by simp⟩
        · have htk : (encBlocks c B k (blk B D k) ++ T).take (c.encSize B) =
              encBlocks c B k (blk B D k) ++ T.take (c.encSize B - (encBlocks c B k (blk B D k)).length) := by
            rw [List.take_append, List.take_of_length_le (by omega)]
          have hne : T.take (c.encSize B - (encBlocks c B k (blk B D k)).length) ≠ [] := by
            intro e
            rw [htk, e, List.append_nil] at htl
            exact he htl
          rw [htk] at htl ⊢
          rw [reject k _ _ hbl hne (List.take_prefix _ _) htl]
          simp only [troTrail]
          have hpos : k * c.encSize B + pre.length + (encBlocks c B k (blk B D k) ++ T.take (c.encSize B - (encBlocks c B k (blk B D k)).length)).length
              = pre.length + ((encBlocks c B 0 D).length + (c.encSize B - (encBlocks c B k (blk B D k)).length)) := by
            rw [hX]; rw [List.length_append] at htl ⊢; omega
          have hex : ((pre ++ encBlocks c B 0 D ++ T).drop (k * c.encSize B + pre.length +
              (encBlocks c B k (blk B D k) ++ T.take (c.encSize B - (encBlocks c B k (blk B D k)).length)).length)).take (c.encSize B)
              = T.drop (c.encSize B - (encBlocks c B k (blk B D k)).length) := by
            rw [hpos, ← List.drop_drop, List.append_assoc, List.drop_left, ← List.drop_drop, List.drop_left, List.take_of_length_le (by simp; omega)]
          rw [hex, List.append_assoc, List.take_append_drop, find]
          simp only
          rw [if_neg (by omega), hcut _ (List.prefix_append _ _)]
          simp only [hdec]
          exact ⟨true, _, rfl, rfl, hend⟩

/-- Loading a block beyond the end of a file without trailing data. -/
theorem load_beyond (c : Cipher) (B : Nat) (hB : 0 < B) (hc : c.Lawful B) (pre D : Bytes) (p k : Nat) (hk : D.length < k * B) :
    ∃ f', troLoad c (c.encSize B) pre.length none ⟨pre ++ encBlocks c B 0 D ++ [], p⟩ k = .ok (blk B D k, true, f') ∧
      f'.data = pre ++ encBlocks c B 0 D ++ [] := by
  have hE := hc.pos
  have hX : (encBlocks c B 0 D).length ≤ k * c.encSize B := by
    have hj : D.length / B * B ≤ D.length := Nat.div_mul_le_self _ _
    obtain ⟨hdrop, hlen⟩ := encBlocks_drop c B hB hc (D.length / B) 0 D hj
    have h2 := congrArg List.length hdrop
    rw [List.length_drop] at h2
    have hm : D.length < D.length / B * B + B := by
      have h1 := Nat.div_add_mod D.length B
      have h2 := Nat.mod_lt D.length hB
      rw [Nat.mul_comm]; omega
    have h3 := (encBlocks_blk_len c B hB hc (0 + D.length / B) (D.drop (D.length / B * B)) (by simp; omega)).1
    have h4 : D.length / B + 1 ≤ k := by
      have : D.length / B * B < k * B := by omega
      exact Nat.lt_of_mul_lt_mul_right this
    have h5 : (D.length / B + 1) * c.encSize B ≤ k * c.encSize B := Nat.mul_le_mul_right _ h4
    rw [Nat.add_mul] at h5
    omega
  have hb : blk B D k = [] := by
    unfold blk; rw [List.drop_eq_nil_of_le (by omega), List.take_nil]
  have hd : (pre ++ encBlocks c B 0 D ++ []).drop (k * c.encSize B + pre.length) = [] := by
    apply List.drop_eq_nil_of_le; simp; omega
  unfold troLoad
  simp only [Flat.read, Flat.skip, hd, List.take_nil, List.length_nil]
  rw [if_pos hE]
  simp only [troTrail, hc.none, hb]
  exact ⟨_, rfl, rfl⟩

end Dar
