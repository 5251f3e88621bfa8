import Verif.Lemmas.Tronconneuse
import Verif.Props.Elastic
/- Property theorems C18: block encryption is transparent with random access. -/
namespace Dar

/-! Writing -/

/-- State of the writer after `d` has been written. -/
private structure WInv (t : Tro) (c : Cipher) (B : Nat) (pre : Bytes) (d : Bytes) : Prop where
  cipher : t.cipher = c
  bsize : t.B = B
  weof : t.weof = false
  split : ∃ w, d = w ++ t.buf ∧ w.length = t.blockNum * B ∧ t.buf.length < B ∧
    t.file = ⟨pre ++ encBlocks c B 0 w, (pre ++ encBlocks c B 0 w).length⟩

theorem flat_write_end (d b : Bytes) : Flat.write ⟨d, d.length⟩ b = ⟨d ++ b, (d ++ b).length⟩ := by
  unfold Flat.write patch
  by_cases h : b = []
  · subst h; simp
  · rw [if_neg h]
    simp

private theorem WInv.turn {t : Tro} {c : Cipher} {B : Nat} {pre d : Bytes} (hB : 0 < B) (h : WInv t c B pre d) (a : Bytes) :
    WInv (t.writeTurn a) c B pre (d ++ a.take (t.B - t.buf.length)) ∧ (t.writeTurn a).pos = t.pos := by
  obtain ⟨h1, h2, h3, w, hd, hw, hb, hf⟩ := h
  unfold Tro.writeTurn
  simp only
  by_cases hl : (t.buf ++ a.take (t.B - t.buf.length)).length ≥ t.B
  · rw [if_pos hl]
    have hlen : (t.buf ++ a.take (t.B - t.buf.length)).length = B := by
      rw [List.length_append, List.length_take] at hl ⊢; omega
    unfold Tro.flush
    simp only [h3, Bool.false_eq_true, if_false]
    rw [if_pos (by omega)]
    refine ⟨⟨h1, h2, rfl, w ++ (t.buf ++ a.take (t.B - t.buf.length)), ?_, ?_, ?_, ?_⟩, rfl⟩
    · simp [hd]
    · rw [List.length_append, hlen, hw]; ring
    · exact hB
    · show Flat.write t.file (t.cipher.enc t.blockNum (t.buf ++ a.take (t.B - t.buf.length))) = _
      generalize t.buf ++ a.take (t.B - t.buf.length) = x at hlen
      rw [hf, flat_write_end, encBlocks_append c B hB t.blockNum 0 w x hw, Nat.zero_add, encBlocks_short c B t.blockNum x hB (by
        intro e; rw [e] at hlen; simp at hlen; omega) (by omega), h1, List.append_assoc]
  · rw [if_neg hl]
    exact ⟨⟨h1, h2, h3, w, by simp [hd], hw, by show (t.buf ++ a.take (t.B - t.buf.length)).length < B; omega, hf⟩, rfl⟩

private theorem WInv.loop {c : Cipher} {B : Nat} {pre : Bytes} (hB : 0 < B) : ∀ (fuel : Nat) (t : Tro) (d a : Bytes), WInv t c B pre d →
    a.length < fuel → ∃ t', Tro.writeLoop fuel t a = .ok t' ∧ WInv t' c B pre (d ++ a) ∧ t'.pos = t.pos := by
  intro fuel
  induction fuel with
  | zero => intro t d a _ h; omega
  | succ fuel ih =>
    intro t d a h hl
    unfold Tro.writeLoop
    by_cases ha : a = []
    · rw [if_pos ha]; subst ha; exact ⟨t, rfl, by simpa using h, rfl⟩
    · rw [if_neg ha]
      obtain ⟨hi, hp⟩ := h.turn hB a
      have hroom : 0 < t.B - t.buf.length := by
        obtain ⟨_, h2, _, w, _, _, hb, _⟩ := h; omega
      have hapos := List.length_pos_iff.mpr ha
      obtain ⟨t', e, hi', hp'⟩ := ih _ _ (a.drop (t.B - t.buf.length)) hi (by simp; omega)
      exact ⟨t', e, by simpa [List.append_assoc, List.take_append_drop] using hi', by rw [hp', hp]⟩

private theorem WInv.writes {c : Cipher} {B : Nat} {pre : Bytes} (hB : 0 < B) (l : List Bytes) : ∀ (t : Tro) (d : Bytes), WInv t c B pre d →
    ∃ t', t.writes l = .ok t' ∧ WInv t' c B pre (d ++ l.flatten) ∧ t'.pos = t.pos + l.flatten.length := by
  induction l with
  | nil => intro t d h; exact ⟨t, rfl, by simpa using h, by simp⟩
  | cons a l ih =>
    intro t d h
    obtain ⟨t1, e, hi, hp⟩ := WInv.loop hB (a.length + 1) t d a h (by omega)
    have hw : t.write a = .ok { t1 with pos := t1.pos + a.length } := by
      unfold Tro.write
      rw [h.weof]
      simp [e]
    obtain ⟨t2, e2, hi2, hp2⟩ := ih { t1 with pos := t1.pos + a.length } (d ++ a) ⟨hi.cipher, hi.bsize, hi.weof, hi.split⟩
    refine ⟨t2, ?_, by simpa using hi2, ?_⟩
    · unfold Tro.writes; simp only [hw, e2]
    · rw [hp2]; simp [hp]; omega

/-- Whatever the chunking of the writes, the encrypted file contains the encryption of the blocks of the whole data, after what
it contained before, and the reported position is the amount of clear data. -/
theorem C18_write (c : Cipher) (B shift : Nat) (hB : 0 < B) (trail : Option (Bytes → Res Nat)) (pre : Bytes) (l : List Bytes) :
    ∃ t t', troNew c B shift trail ⟨pre, pre.length⟩ = .ok t ∧ t.writes l = .ok t' ∧
      t'.writeEof.file = ⟨pre ++ encBlocks c B 0 l.flatten, (pre ++ encBlocks c B 0 l.flatten).length⟩ ∧ t'.pos = l.flatten.length ∧
      t'.B = B := by
  refine ⟨⟨c, B, shift, trail, 0, [], 0, 0, false, false, ⟨pre, pre.length⟩⟩, ?_⟩
  obtain ⟨t', e, hi, hp⟩ := WInv.writes (c := c) (pre := pre) hB l ⟨c, B, shift, trail, 0, [], 0, 0, false, false, ⟨pre, pre.length⟩⟩ []
    ⟨rfl, rfl, rfl, [], rfl, by simp, hB, by simp [encBlocks_nil]⟩
  refine ⟨t', by unfold troNew; rw [if_neg (by omega)], e, ?_, by simpa using hp, hi.bsize⟩
  obtain ⟨h1, h2, h3, w, hd, hw, hb, hf⟩ := hi
  rw [List.nil_append] at hd
  unfold Tro.writeEof Tro.flush
  simp only [h3, Bool.false_eq_true, if_false]
  by_cases hl : t'.buf.length > 0
  · rw [if_pos hl]
    simp only [hf, flat_write_end]
    rw [hd, encBlocks_append c B hB t'.blockNum 0 w _ hw, Nat.zero_add, encBlocks_short c B _ _ hB (List.length_pos_iff.mp hl) (by omega), h1,
      List.append_assoc]
  · rw [if_neg hl, hf, hd, List.length_eq_zero_iff.mp (show t'.buf.length = 0 by omega), List.append_nil]

/-! Reading -/

/-- The data of a reading: cipher, blocks, file content. -/
private structure Fixed (t : Tro) (c : Cipher) (B : Nat) (pre D T : Bytes) (trail : Option (Bytes → Res Nat)) : Prop where
  cipher : t.cipher = c
  bsize : t.B = B
  shift : t.shift = pre.length
  trail : t.trail = trail
  data : t.file.data = pre ++ encBlocks c B 0 D ++ T

/-- The state of the buffer. -/
private structure BufOk (t : Tro) (B : Nat) (D : Bytes) : Prop where
  aligned : ∃ k, t.bufOff = k * B ∧ (t.buf = blk B D k ∨ (t.buf = [] ∧ t.reof = false))
  reof : t.reof = true → t.bufOff ≤ t.pos ∧ D.length ≤ t.bufOff + B

/-- The state of the buffer after fill_buf. -/
private structure Filled (t t1 : Tro) (p : Nat) (B : Nat) (D : Bytes) : Prop where
  pos : t1.pos = t.pos
  aligned : ∃ k, t1.bufOff = k * B ∧ t1.buf = blk B D k
  off : t1.pos = t1.bufOff + p
  reof : t1.reof = true → D.length ≤ t1.bufOff + B
  inside : p < t1.buf.length ↔ t1.pos < D.length
  small : t.reof = false → p < B

private theorem fill_spec {t : Tro} {c : Cipher} {B : Nat} {pre D T : Bytes} {trail : Option (Bytes → Res Nat)} (hB : 0 < B) (hB' : B < 2 ^ 32)
    (hc : c.Lawful B) (ht : TrailOk c B pre.length (encBlocks c B 0 D) T trail) (hf : Fixed t c B pre D T trail) (hb : BufOk t B D)
    (hpos : t.pos ≤ D.length ∨ trail = none) (hnear : t.reof = true → t.pos - t.bufOff < 2 ^ 32) :
    ∃ t1 p, t.fillBuf = .ok (t1, p) ∧ Fixed t1 c B pre D T trail ∧ Filled t t1 p B D := by
  obtain ⟨f1, f2, f3, f4, f5⟩ := hf
  obtain ⟨⟨k, hk, hbk⟩, hreof⟩ := hb
  have hmod := Nat.mod_lt t.pos hB
  have hdm : t.pos / B * B + t.pos % B = t.pos := by rw [Nat.mul_comm]; exact Nat.div_add_mod _ _
  have hE : t.E = c.encSize B := by unfold Tro.E; rw [f1, f2]
  unfold Tro.fillBuf
  by_cases hcond : t.pos < t.bufOff ∨ (t.bufOff + t.buf.length ≤ t.pos ∧ t.reof = false)
  · rw [if_pos hcond]
    have hr : t.reof = false := by
      by_contra hr
      have := (hreof (by simpa using hr)).1
      rcases hcond with h | h
      · omega
      · exact hr h.2
    rw [if_pos hr]
    have key : ∃ r f', troLoad t.cipher t.E t.shift t.trail t.file (t.pos / t.B) = .ok (blk B D (t.pos / B), r, f') ∧
        f'.data = pre ++ encBlocks c B 0 D ++ T ∧ (r = true → D.length ≤ t.pos / B * B + B) := by
      rw [hE, f1, f2, f3, f4]
      have hfile : t.file = ⟨pre ++ encBlocks c B 0 D ++ T, t.file.pos⟩ := by
        rw [← f5]
      rw [hfile]
      by_cases hin : t.pos / B * B ≤ D.length
      · exact load_spec c B hB hc pre D T trail ht t.file.pos (t.pos / B) hin
      · have hn : trail = none := by
          rcases hpos with h | h
          · omega
          · exact h
        subst hn
        cases ht with
        | none hT =>
          subst hT
          obtain ⟨f', e1, e2⟩ := load_beyond c B hB hc pre D t.file.pos (t.pos / B) (by omega)
          exact ⟨true, f', e1, e2, fun _ => by omega⟩
    obtain ⟨r, f', e1, e2, e3⟩ := key
    rw [e1]
    refine ⟨_, _, rfl, ⟨f1, f2, f3, f4, e2⟩, rfl, ⟨t.pos / B, by simp only [f2], rfl⟩, by simp only [f2]; omega, by simpa only [f2] using e3, ?_, ?_⟩
    · simp only [f2, blk_length]
      omega
    · intro _; simp only [f2]; exact hmod
  · rw [if_neg hcond]
    have hle : t.bufOff ≤ t.pos := by by_contra hh; exact hcond (Or.inl (by omega))
    have hbl : (blk B D k).length ≤ B := by rw [blk_length]; omega
    have hsm : t.pos - t.bufOff < 2 ^ 32 := by
      by_cases hr : t.reof = true
      · exact hnear hr
      · have hr : t.reof = false := by simpa using hr
        have : t.pos < t.bufOff + t.buf.length := by
          by_contra hh; exact hcond (Or.inr ⟨by omega, hr⟩)
        rcases hbk with h | ⟨h, _⟩ <;> rw [h] at this
        · omega
        · simp at this; omega
    rw [if_neg (by omega)]
    have hbuf : t.buf = blk B D k := by
      rcases hbk with h | ⟨h, hr⟩
      · exact h
      · exfalso
        apply hcond
        right
        rw [h]; exact ⟨by simpa using hle, hr⟩
    refine ⟨t, _, rfl, ⟨f1, f2, f3, f4, f5⟩, rfl, ⟨k, hk, hbuf⟩, by omega, fun h => (hreof h).2, ?_, ?_⟩
    · by_cases hr : t.reof = true
      · have h1 := (hreof hr).2
        rw [hbuf, blk_length]
        rw [hk] at *
        omega
      · have : t.pos < t.bufOff + t.buf.length := by
          by_contra hh; exact hcond (Or.inr ⟨by omega, by simpa using hr⟩)
        rw [hbuf, blk_length] at this ⊢
        rw [hk] at *
        omega
    · intro hr
      have : t.pos < t.bufOff + t.buf.length := by
        by_contra hh; exact hcond (Or.inr ⟨by omega, hr⟩)
      rw [hbuf] at this
      omega

/-- The state of a reader between operations. -/
private structure RInv (t : Tro) (c : Cipher) (B : Nat) (pre D T : Bytes) (trail : Option (Bytes → Res Nat)) : Prop where
  fixed : Fixed t c B pre D T trail
  buf : BufOk t B D
  pos : t.pos ≤ D.length

private theorem RInv.near {t : Tro} {c : Cipher} {B : Nat} {pre D T : Bytes} {trail : Option (Bytes → Res Nat)} (hB' : B < 2 ^ 32)
    (h : RInv t c B pre D T trail) : t.reof = true → t.pos - t.bufOff < 2 ^ 32 := by
  intro hr
  have := (h.buf.reof hr).2
  have := h.pos
  omega

private theorem Filled.bufOk {t t1 : Tro} {p B : Nat} {D : Bytes} (h : Filled t t1 p B D) (pos' : Nat) (hp : t1.bufOff ≤ pos') :
    BufOk { t1 with pos := pos' } B D := by
  obtain ⟨k, h1, h2⟩ := h.aligned
  exact ⟨⟨k, h1, Or.inl h2⟩, fun hr => ⟨hp, h.reof hr⟩⟩

private theorem blk_piece (B : Nat) (D : Bytes) (k p n : Nat) (hp : p < B) :
    ∃ m, ((blk B D k).drop p).take n = (D.drop (k * B + p)).take m ∧ m = min n (B - p) := by
  refine ⟨min n (B - p), ?_, rfl⟩
  unfold blk
  rw [List.drop_take, List.take_take, List.drop_drop]

private theorem read_spec {c : Cipher} {B : Nat} {pre D T : Bytes} {trail : Option (Bytes → Res Nat)} (hB : 0 < B) (hB' : B < 2 ^ 32)
    (hc : c.Lawful B) (ht : TrailOk c B pre.length (encBlocks c B 0 D) T trail) : ∀ (fuel : Nat) (t : Tro) (n : Nat), n < fuel →
    RInv t c B pre D T trail → ∃ t', Tro.readLoop fuel t n = .ok (t', (D.drop t.pos).take n) ∧ RInv t' c B pre D T trail ∧
      t'.pos = t.pos + ((D.drop t.pos).take n).length := by
  intro fuel
  induction fuel with
  | zero => intro t n h; omega
  | succ fuel ih =>
    intro t n hn h
    unfold Tro.readLoop
    by_cases h0 : n = 0
    · rw [if_pos h0]; subst h0; exact ⟨t, by simp, h, by simp⟩
    · rw [if_neg h0]
      obtain ⟨t1, p, e, hf1, hfill⟩ := fill_spec hB hB' hc ht h.fixed h.buf (Or.inl h.pos) (h.near hB')
      rw [e]
      simp only
      by_cases hp : p ≥ t1.buf.length
      · rw [if_pos hp]
        have : ¬ t1.pos < D.length := fun hh => absurd (hfill.inside.mpr hh) (by omega)
        rw [hfill.pos] at this
        have hd : D.drop t.pos = [] := List.drop_eq_nil_of_le (by omega)
        have hpos := hfill.pos
        refine ⟨t1, by rw [hd, List.take_nil], ⟨hf1, ?_, by rw [hfill.pos]; exact h.pos⟩, by rw [hd]; simp [hfill.pos]⟩
        have := hfill.bufOk t1.pos (by have := hfill.off; omega)
        exact this
      · rw [if_neg hp]
        obtain ⟨k, hk, hbk⟩ := hfill.aligned
        have hpB : p < B := by
          have : (blk B D k).length ≤ B := by rw [blk_length]; omega
          rw [← hbk] at this; omega
        obtain ⟨m, hm, hmv⟩ := blk_piece B D k p n hpB
        rw [← hbk] at hm
        have hoff := hfill.off
        have hkp : k * B + p = t.pos := by rw [← hk, ← hoff, hfill.pos]
        rw [hkp] at hm
        have hin := hfill.inside.mp (by omega)
        rw [hfill.pos] at hin
        have hpl : ((t1.buf.drop p).take n).length = min n (t1.buf.length - p) := by simp
        have hml : ((D.drop t.pos).take m).length = min m (D.length - t.pos) := by simp
        have hdl : min n (t1.buf.length - p) = min m (D.length - t.pos) := by rw [← hpl, hm, hml]
        obtain ⟨t2, e2, hi2, hp2⟩ := ih { t1 with pos := t1.bufOff + (p + ((t1.buf.drop p).take n).length) } (n - ((t1.buf.drop p).take n).length)
          (by rw [hpl]; omega)
          ⟨⟨hf1.cipher, hf1.bsize, hf1.shift, hf1.trail, hf1.data⟩, hfill.bufOk _ (by omega), by
            simp only [hpl, hdl, hk]
            omega⟩
        rw [e2]
        refine ⟨t2, ?_, hi2, ?_⟩
        · simp only
          congr 2
          rw [hk, show k * B + (p + ((t1.buf.drop p).take n).length) = t.pos + ((t1.buf.drop p).take n).length by omega]
          rw [hm]
          have hsplit : (D.drop t.pos).take n = (D.drop t.pos).take (((D.drop t.pos).take m).length + (n - ((D.drop t.pos).take m).length)) := by
            congr 1; rw [hml]; omega
          conv => rhs; rw [hsplit, List.take_add]
          congr 1
          · rw [List.take_eq_take_iff, hml, List.length_drop]; omega
          · rw [List.drop_drop]
        · rw [hp2]
          simp only [hk, List.length_take, List.length_drop] at hpl hml ⊢
          omega


private theorem skip_inside {t : Tro} {c : Cipher} {B : Nat} {pre D T : Bytes} {trail : Option (Bytes → Res Nat)} (hB : 0 < B) (hB' : B < 2 ^ 32)
    (hc : c.Lawful B) (ht : TrailOk c B pre.length (encBlocks c B 0 D) T trail) (h : RInv t c B pre D T trail) (p : Nat)
    (hp : p < D.length ∨ p = t.pos) : ∃ t', t.skip p = .ok (t', true) ∧ RInv t' c B pre D T trail ∧ t'.pos = p := by
  unfold Tro.skip
  by_cases he : t.pos = p
  · rw [if_pos he]; exact ⟨t, rfl, h, he⟩
  · rw [if_neg he]
    have hpd : p < D.length := by
      rcases hp with hp | hp
      · exact hp
      · exact absurd hp.symm he
    obtain ⟨⟨k, hk, hbk⟩, hreof⟩ := h.buf
    have hb : BufOk { t with pos := p, reof := if p < t.bufOff then false else t.reof } B D := by
      refine ⟨⟨k, hk, ?_⟩, ?_⟩
      · rcases hbk with hh | ⟨h1, h2⟩
        · exact Or.inl hh
        · right; refine ⟨h1, ?_⟩; simp only [h2]; split <;> rfl
      · simp only
        intro hr
        split at hr
        · cases hr
        · exact ⟨by omega, (hreof hr).2⟩
    obtain ⟨t1, q, e, hf1, hfill⟩ := fill_spec hB hB' hc ht (t := { t with pos := p, reof := if p < t.bufOff then false else t.reof })
      ⟨h.fixed.cipher, h.fixed.bsize, h.fixed.shift, h.fixed.trail, h.fixed.data⟩ hb (Or.inl (by simp only; omega)) (by
        intro hr
        have := (hb.reof hr).2
        simp only at this ⊢
        omega)
    rw [e]
    simp only
    have hpos : t1.pos = p := hfill.pos
    rw [if_pos (hfill.inside.mpr (by omega))]
    exact ⟨t1, rfl, ⟨hf1, hfill.bufOk t1.pos (by have := hfill.off; omega), by omega⟩, hpos⟩

/-- Blocks shorter than the others have a shorter encryption (true when the block size is a multiple of the cipher's). -/
def Cipher.Strict (c : Cipher) (B : Nat) : Prop := ∀ k, k < B → 0 < k → c.encSize k < c.encSize B

private theorem blocks_count (c : Cipher) (B : Nat) (hB : 0 < B) (hc : c.Lawful B) (D : Bytes) (hs : c.Strict B ∨ D.length % B = 0) :
    (encBlocks c B 0 D).length / c.encSize B = D.length / B := by
  have hE := hc.pos
  have hj : D.length / B * B ≤ D.length := Nat.div_mul_le_self _ _
  obtain ⟨hdrop, hlen⟩ := encBlocks_drop c B hB hc (D.length / B) 0 D hj
  have h2 := congrArg List.length hdrop
  rw [List.length_drop] at h2
  have hm : D.length < D.length / B * B + B := by
    have h1 := Nat.div_add_mod D.length B
    have h2 := Nat.mod_lt D.length hB
    rw [Nat.mul_comm]; omega
  have hlast : (encBlocks c B (0 + D.length / B) (D.drop (D.length / B * B))).length < c.encSize B := by
    by_cases hx : D.drop (D.length / B * B) = []
    · rw [hx, encBlocks_nil]; exact hE
    · have hxl := List.length_pos_iff.mpr hx
      rw [encBlocks_short c B _ _ hB hx (by simp; omega), hc.size _ _ hx (by simp; omega)]
      rcases hs with hs | hs
      · exact hs _ (by simp; omega) hxl
      · exfalso
        have := Nat.div_add_mod D.length B
        rw [Nat.mul_comm] at this
        rw [List.length_drop] at hxl
        omega
  rw [show (encBlocks c B 0 D).length = (encBlocks c B (0 + D.length / B) (D.drop (D.length / B * B))).length + c.encSize B * (D.length / B) by
    rw [Nat.mul_comm (c.encSize B)]; omega, Nat.add_mul_div_left _ _ hE, Nat.div_eq_of_lt hlast, Nat.zero_add]

private theorem eof_spec {t : Tro} {c : Cipher} {B : Nat} {pre D : Bytes} (hB : 0 < B) (hB' : B < 2 ^ 32)
    (hc : c.Lawful B) (hs : c.Strict B ∨ D.length % B = 0) (hf : Fixed t c B pre D [] none) (hb : ∃ k, t.bufOff = k * B ∧ (t.buf = blk B D k ∨ t.buf = [])) :
    ∃ t', t.skipEof = .ok t' ∧ RInv t' c B pre D [] none ∧ t'.pos = D.length := by
  unfold Tro.skipEof
  have hlen : t.file.data.length = pre.length + (encBlocks c B 0 D).length := by rw [hf.data]; simp
  simp only [Flat.skipEof, hf.shift, hlen]
  rw [if_neg (by omega), Nat.add_sub_cancel_left]
  have hE : t.E = c.encSize B := by unfold Tro.E; rw [hf.cipher, hf.bsize]
  rw [hE, hf.bsize, blocks_count c B hB hc D hs]
  obtain ⟨k, hk, hbk⟩ := hb
  obtain ⟨t1, p, e, hf1, hfill⟩ := fill_spec hB hB' hc (TrailOk.none rfl)
    (t := { t with B := B, shift := pre.length, file := ⟨t.file.data, pre.length + (encBlocks c B 0 D).length⟩, blockNum := D.length / B, pos := D.length / B * B, reof := false })
    ⟨hf.cipher, rfl, rfl, hf.trail, hf.data⟩
    ⟨⟨k, hk, by rcases hbk with h | h; exacts [Or.inl h, Or.inr ⟨h, rfl⟩]⟩, by simp⟩ (Or.inr rfl) (by simp)
  rw [e]
  have hpos : t1.pos = D.length / B * B := hfill.pos
  have hsm := hfill.small rfl
  obtain ⟨k1, hk1, hb1⟩ := hfill.aligned
  have hoff := hfill.off
  have hkk : k1 = D.length / B := by
    have h1 : D.length / B * B = k1 * B + p := by omega
    have h2 : (D.length / B * B) / B = (k1 * B + p) / B := by rw [h1]
    rw [Nat.mul_div_cancel _ hB, Nat.add_comm, Nat.add_mul_div_right _ _ hB, Nat.div_eq_of_lt hsm] at h2
    omega
  have hdm := Nat.div_mul_le_self D.length B
  have hdl : D.length < D.length / B * B + B := by
    have h1 := Nat.div_add_mod D.length B
    have h2 := Nat.mod_lt D.length hB
    rw [Nat.mul_comm]; omega
  have hend : t1.bufOff + t1.buf.length = D.length := by
    rw [hb1, blk_length, hk1, hkk]; omega
  refine ⟨_, rfl, ⟨⟨hf1.cipher, hf1.bsize, hf1.shift, hf1.trail, hf1.data⟩, ⟨⟨k1, hk1, Or.inl hb1⟩, ?_⟩, ?_⟩, ?_⟩
  · intro _
    refine ⟨by simp only; omega, ?_⟩
    have : (blk B D k1).length ≤ B := by rw [blk_length]; omega
    rw [← hb1] at this
    simp only; omega
  · simp only; omega
  · simp only; exact hend

private theorem skip_any {t : Tro} {c : Cipher} {B : Nat} {pre D : Bytes} (hB : 0 < B) (hB' : B < 2 ^ 32)
    (hc : c.Lawful B) (hs : c.Strict B) (h : RInv t c B pre D [] none) (p : Nat) (hp : p + B < D.length + 2 ^ 32) :
    ∃ t', t.skip p = .ok (t', (raSkip D t.pos p).2) ∧ RInv t' c B pre D [] none ∧ t'.pos = (raSkip D t.pos p).1 := by
  by_cases hin : p < D.length ∨ p = t.pos
  · obtain ⟨t', e, hi, hpos⟩ := skip_inside hB hB' hc (TrailOk.none rfl) h p hin
    have hr : raSkip D t.pos p = (p, true) := by
      unfold raSkip
      by_cases h1 : p = t.pos
      · rw [if_pos h1, h1]
      · rw [if_neg h1, if_pos (by tauto)]
    rw [hr]; exact ⟨t', e, hi, hpos⟩
  · have h1 : ¬ p < D.length := fun hh => hin (Or.inl hh)
    have h2 : ¬ p = t.pos := fun hh => hin (Or.inr hh)
    have hr : raSkip D t.pos p = (D.length, false) := by unfold raSkip; rw [if_neg h2, if_neg h1]
    rw [hr]
    unfold Tro.skip
    rw [if_neg (fun hh => h2 hh.symm)]
    obtain ⟨⟨k, hk, hbk⟩, hreof⟩ := h.buf
    have hb : BufOk { t with pos := p, reof := if p < t.bufOff then false else t.reof } B D := by
      refine ⟨⟨k, hk, ?_⟩, ?_⟩
      · rcases hbk with hh | ⟨h1, h2⟩
        · exact Or.inl hh
        · right; refine ⟨h1, ?_⟩; simp only [h2]; split <;> rfl
      · simp only
        intro hr
        split at hr
        · cases hr
        · exact ⟨by omega, (hreof hr).2⟩
    obtain ⟨t1, q, e, hf1, hfill⟩ := fill_spec hB hB' hc (TrailOk.none rfl) (t := { t with pos := p, reof := if p < t.bufOff then false else t.reof })
      ⟨h.fixed.cipher, h.fixed.bsize, h.fixed.shift, h.fixed.trail, h.fixed.data⟩ hb (Or.inr rfl) (by
        intro hr
        have := (hb.reof hr).2
        simp only at this ⊢
        omega)
    rw [e]
    simp only
    have hpos : t1.pos = p := hfill.pos
    rw [if_neg (fun hh => h1 (by have := hfill.inside.mp hh; omega))]
    obtain ⟨k1, hk1, hb1⟩ := hfill.aligned
    obtain ⟨t2, e2, hi, hp2⟩ := eof_spec hB hB' hc (Or.inl hs) hf1 ⟨k1, hk1, Or.inl hb1⟩
    rw [e2]
    exact ⟨t2, rfl, hi, hp2⟩

/-- Targets which are not farther than about 2^32 after the end of the data. -/
def raNear (D : Bytes) (B : Nat) : RaOp → Prop
  | .read _ => True
  | .skip p => p + B < D.length + 2 ^ 32
  | .toEof => True
  | .rel x => x + B < 2 ^ 32

private theorem step_inside {t : Tro} {c : Cipher} {B : Nat} {pre D T : Bytes} {trail : Option (Bytes → Res Nat)} (hB : 0 < B) (hB' : B < 2 ^ 32)
    (hc : c.Lawful B) (ht : TrailOk c B pre.length (encBlocks c B 0 D) T trail) (h : RInv t c B pre D T trail) (o : RaOp)
    (ho : raInside D t.pos o) :
    ∃ t', t.step o = .ok (t', (raStep D t.pos o).2) ∧ RInv t' c B pre D T trail ∧ t'.pos = (raStep D t.pos o).1 := by
  have hsk : ∀ p, p < D.length ∨ p = t.pos → ∃ t', t.skip p = .ok (t', (raSkip D t.pos p).2) ∧ RInv t' c B pre D T trail ∧
      t'.pos = (raSkip D t.pos p).1 := by
    intro p hp
    obtain ⟨t', e, hi, hpos⟩ := skip_inside hB hB' hc ht h p hp
    have hr : raSkip D t.pos p = (p, true) := by
      unfold raSkip
      by_cases h1 : p = t.pos
      · rw [if_pos h1, h1]
      · rw [if_neg h1, if_pos (by tauto)]
    rw [hr]; exact ⟨t', e, hi, hpos⟩
  cases o with
  | read n =>
    obtain ⟨t', e, hi, hp⟩ := read_spec hB hB' hc ht (n + 1) t n (by omega) h
    exact ⟨t', by simp only [Tro.step, Tro.read, e, Except.map, raStep], hi, hp⟩
  | skip p =>
    obtain ⟨t', e, hi, hp⟩ := hsk p ho
    exact ⟨t', by simp only [Tro.step, e, Except.map, raStep], hi, hp⟩
  | toEof => exact absurd ho (by simp [raInside])
  | rel x =>
    obtain ⟨h1, h2⟩ := ho
    by_cases hx : 0 ≤ x
    · obtain ⟨t', e, hi, hp⟩ := hsk (t.pos + x.toNat) (by omega)
      refine ⟨t', ?_, hi, ?_⟩
      · simp only [Tro.step, Tro.skipRel, raStep]; rw [if_pos hx, if_pos hx, e]; rfl
      · simp only [raStep]; rw [if_pos hx]; exact hp
    · obtain ⟨t', e, hi, hp⟩ := hsk (t.pos - (-x).toNat) (by omega)
      refine ⟨t', ?_, hi, ?_⟩
      · simp only [Tro.step, Tro.skipRel, raStep]; rw [if_neg hx, if_pos (by omega), if_neg hx, if_pos (by omega), e]; rfl
      · simp only [raStep]; rw [if_neg hx, if_pos (by omega)]; exact hp

private theorem step_any {t : Tro} {c : Cipher} {B : Nat} {pre D : Bytes} (hB : 0 < B) (hB' : B < 2 ^ 32)
    (hc : c.Lawful B) (hs : c.Strict B) (h : RInv t c B pre D [] none) (o : RaOp) (ho : raNear D B o) :
    ∃ t', t.step o = .ok (t', (raStep D t.pos o).2) ∧ RInv t' c B pre D [] none ∧ t'.pos = (raStep D t.pos o).1 := by
  have hpos := h.pos
  cases o with
  | read n => exact step_inside hB hB' hc (TrailOk.none rfl) h (.read n) trivial
  | skip p =>
    obtain ⟨t', e, hi, hp⟩ := skip_any hB hB' hc hs h p ho
    exact ⟨t', by simp only [Tro.step, e, Except.map, raStep], hi, hp⟩
  | toEof =>
    obtain ⟨k, hk, hbk⟩ := h.buf.aligned
    obtain ⟨t', e, hi, hp⟩ := eof_spec hB hB' hc (Or.inl hs) h.fixed ⟨k, hk, by tauto⟩
    exact ⟨t', by simp only [Tro.step, e, Except.map, raStep], hi, hp⟩
  | rel x =>
    simp only [raNear] at ho
    by_cases hx : 0 ≤ x
    · obtain ⟨t', e, hi, hp⟩ := skip_any hB hB' hc hs h (t.pos + x.toNat) (by omega)
      refine ⟨t', ?_, hi, ?_⟩
      · simp only [Tro.step, Tro.skipRel, raStep]; rw [if_pos hx, if_pos hx, e]; rfl
      · simp only [raStep]; rw [if_pos hx]; exact hp
    · by_cases hy : (-x).toNat ≤ t.pos
      · obtain ⟨t', e, hi, hp⟩ := skip_any hB hB' hc hs h (t.pos - (-x).toNat) (by omega)
        refine ⟨t', ?_, hi, ?_⟩
        · simp only [Tro.step, Tro.skipRel, raStep]; rw [if_neg hx, if_pos hy, if_neg hx, if_pos hy, e]; rfl
        · simp only [raStep]; rw [if_neg hx, if_pos hy]; exact hp
      · obtain ⟨t', e, hi, hp⟩ := skip_any hB hB' hc hs h 0 (by omega)
        refine ⟨t', ?_, hi, ?_⟩
        · simp only [Tro.step, Tro.skipRel, raStep]; rw [if_neg hx, if_neg hy, if_neg hx, if_neg hy, e]; rfl
        · simp only [raStep]; rw [if_neg hx, if_neg hy]; exact hp

private theorem fresh_inv (c : Cipher) (B : Nat) (pre D T : Bytes) (trail : Option (Bytes → Res Nat)) (p : Nat) :
    RInv ⟨c, B, pre.length, trail, 0, [], 0, 0, false, false, ⟨pre ++ encBlocks c B 0 D ++ T, p⟩⟩ c B pre D T trail :=
  ⟨⟨rfl, rfl, rfl, rfl, rfl⟩, ⟨⟨0, by simp, Or.inr ⟨rfl, rfl⟩⟩, by simp⟩, by simp⟩

/-- Reading with random access.  On a file made of an unencrypted head, of the encryption of `D` and of unencrypted trailing
data located by the callback, any session of reads and of seeks inside the data gets exactly what it would get from the clear
data. -/
theorem C18_read_inside (c : Cipher) (B : Nat) (hB : 0 < B) (hB' : B < 2 ^ 32) (hc : c.Lawful B) (pre D T : Bytes)
    (trail : Option (Bytes → Res Nat)) (ht : TrailOk c B pre.length (encBlocks c B 0 D) T trail) (p : Nat) (ops : List RaOp)
    (hops : raAllInside D 0 ops) :
    ∃ t t', troNew c B pre.length trail ⟨pre ++ encBlocks c B 0 D ++ T, p⟩ = .ok t ∧
      t.run ops = .ok (t', (raRun D 0 ops).2) ∧ t'.pos = (raRun D 0 ops).1 := by
  suffices hh : ∀ (ops : List RaOp) (t : Tro), RInv t c B pre D T trail → raAllInside D t.pos ops →
      ∃ t', t.run ops = .ok (t', (raRun D t.pos ops).2) ∧ t'.pos = (raRun D t.pos ops).1 by
    obtain ⟨t', e1, e2⟩ := hh ops _ (fresh_inv c B pre D T trail p) hops
    exact ⟨_, t', by unfold troNew; rw [if_neg (by omega)], e1, e2⟩
  intro ops
  induction ops with
  | nil => intro t _ _; exact ⟨t, rfl, rfl⟩
  | cons o l ih =>
    intro t hi hin
    obtain ⟨t1, e1, hi1, hp1⟩ := step_inside hB hB' hc ht hi o hin.1
    obtain ⟨t2, e2, hp2⟩ := ih t1 hi1 (by rw [hp1]; exact hin.2)
    refine ⟨t2, ?_, ?_⟩
    · simp only [Tro.run, e1, e2, raRun, hp1]
    · simp only [raRun, ← hp1, hp2]

/-- When the clear data is a whole number of blocks, going to the end tells its size, and it can then be read as a whole. -/
theorem C18_whole (c : Cipher) (B : Nat) (hB : 0 < B) (hB' : B < 2 ^ 32) (hc : c.Lawful B) (pre D : Bytes) (hD : D.length % B = 0) (p : Nat) :
    ∃ t t1 t2 t3 a, troNew c B pre.length none ⟨pre ++ encBlocks c B 0 D, p⟩ = .ok t ∧ t.skipEof = .ok t1 ∧ t1.pos = D.length ∧
      t1.skip 0 = .ok (t2, a) ∧ t2.read D.length = .ok (t3, D) := by
  have hi := fresh_inv c B pre D [] none p
  rw [List.append_nil] at hi
  obtain ⟨t1, e1, hi1, hp1⟩ := eof_spec hB hB' hc (Or.inr hD) hi.fixed ⟨0, by simp, Or.inr rfl⟩
  obtain ⟨t2, e2, hi2, hp2⟩ : ∃ t', t1.skip 0 = .ok (t', true) ∧ RInv t' c B pre D [] none ∧ t'.pos = 0 := by
    refine skip_inside hB hB' hc (TrailOk.none rfl) hi1 0 ?_
    rw [hp1]; omega
  obtain ⟨t3, e3, _, _⟩ := read_spec hB hB' hc (TrailOk.none rfl) (D.length + 1) t2 D.length (by omega) hi2
  rw [hp2] at e3
  refine ⟨_, t1, t2, t3, true, by unfold troNew; rw [if_neg (by omega)], e1, hp1, e2, ?_⟩
  simpa [Tro.read] using e3

/-- Without trailing data and when shorter blocks have a shorter encryption, any session at all, seeks beyond the end and to the
end included, answers like the clear data. -/
theorem C18_read_any (c : Cipher) (B : Nat) (hB : 0 < B) (hB' : B < 2 ^ 32) (hc : c.Lawful B) (hs : c.Strict B) (pre D : Bytes)
    (p : Nat) (ops : List RaOp) (hops : ∀ o ∈ ops, raNear D B o) :
    ∃ t t', troNew c B pre.length none ⟨pre ++ encBlocks c B 0 D, p⟩ = .ok t ∧
      t.run ops = .ok (t', (raRun D 0 ops).2) ∧ t'.pos = (raRun D 0 ops).1 := by
  suffices hh : ∀ (ops : List RaOp) (t : Tro), RInv t c B pre D [] none → (∀ o ∈ ops, raNear D B o) →
      ∃ t', t.run ops = .ok (t', (raRun D t.pos ops).2) ∧ t'.pos = (raRun D t.pos ops).1 by
    obtain ⟨t', e1, e2⟩ := hh ops _ (fresh_inv c B pre D [] none p) hops
    rw [List.append_nil] at e1
    exact ⟨_, t', by unfold troNew; rw [if_neg (by omega)], e1, e2⟩
  intro ops
  induction ops with
  | nil => intro t _ _; exact ⟨t, rfl, rfl⟩
  | cons o l ih =>
    intro t hi hin
    obtain ⟨t1, e1, hi1, hp1⟩ := step_any hB hB' hc hs hi o (hin o (by simp))
    obtain ⟨t2, e2, hp2⟩ := ih t1 hi1 (fun o' h => hin o' (by simp [h]))
    refine ⟨t2, ?_, ?_⟩
    · simp only [Tro.run, e1, e2, raRun, hp1]
    · simp only [raRun, ← hp1, hp2]

/-- Round trip: written in any pieces by one object, then read in any session by another one. -/
theorem C18_roundtrip (c : Cipher) (B : Nat) (hB : 0 < B) (hB' : B < 2 ^ 32) (hc : c.Lawful B) (pre : Bytes) (l : List Bytes)
    (ops : List RaOp) (hops : raAllInside l.flatten 0 ops) :
    ∃ w w' r r', troNew c B pre.length none ⟨pre, pre.length⟩ = .ok w ∧ w.writes l = .ok w' ∧
      troNew c B pre.length none w'.writeEof.file = .ok r ∧ r.run ops = .ok (r', (raRun l.flatten 0 ops).2) := by
  obtain ⟨w, w', e1, e2, e3, _⟩ := C18_write c B pre.length hB none pre l
  obtain ⟨r, r', e4, e5, _⟩ := C18_read_inside c B hB hB' hc pre l.flatten [] none (TrailOk.none rfl) w'.writeEof.file.pos ops hops
  refine ⟨w, w', r, r', e1, e2, ?_, e5⟩
  rw [List.append_nil] at e4
  have hd : w'.writeEof.file.data = pre ++ encBlocks c B 0 l.flatten := by rw [e3]
  rw [← hd] at e4
  exact e4

/-! The cipher of the program -/

private theorem blockFor_eq (algo k : Nat) (h : k + algo < 2 ^ 32) : cryptBlockFor algo k = (k / algo + 1) * algo := by
  unfold cryptBlockFor u32
  apply Nat.mod_eq_of_lt
  have := Nat.div_mul_le_self k algo
  rw [Nat.add_mul]; omega

/-- The construction of the program (elastic padding then a cipher) satisfies the laws the layer relies on, whatever the block
sizes and the random padding, and never raises an error on a block. -/
theorem C18_cipher (E D : Nat → Bytes → Bytes) (hinv : ∀ n x, D n (E n x) = x) (hlen : ∀ n x, (E n x).length = x.length) (algo B : Nat)
    (ha : 1 ≤ algo) (ha' : algo ≤ 254 ^ 4 - 1) (hB : B + algo < 2 ^ 32 - 1) (r : Nat → Nat) (rnd : Nat → Nat → UInt8) (hr : ∀ n, RndOk (rnd n)) :
    (symCipher E D algo B r rnd).Lawful B ∧
    (∀ n x, x.length ≤ B → ∃ c, cryptEncrypt (E n) algo x (cryptBlockFor algo B) (r n) (rnd n) = .ok c) ∧
    (B % algo = 0 → (symCipher E D algo B r rnd).Strict B) := by
  have hmono : ∀ k, k ≤ B → cryptBlockFor algo k ≤ cryptBlockFor algo B := by
    intro k hk
    rw [blockFor_eq algo k (by omega), blockFor_eq algo B (by omega)]
    exact Nat.mul_le_mul_right _ (Nat.add_le_add_right (Nat.div_le_div_right hk) 1)
  have key : ∀ n x, x.length ≤ B → ∃ c, cryptEncrypt (E n) algo x (cryptBlockFor algo B) (r n) (rnd n) = .ok c ∧
      c.length = cryptBlockFor algo x.length ∧ cryptDecrypt (D n) false c = .ok x := by
    intro n x hx
    obtain ⟨c, h1, h2, _, h3⟩ := C19_crypt_block (E n) (D n) (hinv n) (hlen n) algo ha ha' x (by omega) (cryptBlockFor algo B) (r n) (rnd n) (hr n)
      (hmono _ hx)
    exact ⟨c, h1, h2, h3⟩
  refine ⟨⟨?_, ?_, hmono, ?_, ?_⟩, ?_, ?_⟩
  · intro n x _ hx
    obtain ⟨c, h1, h2, h3⟩ := key n x hx
    simp only [symCipher, h1, h3]
  · intro n x _ hx
    obtain ⟨c, h1, h2, h3⟩ := key n x hx
    simp only [symCipher, h1, h2]
  · show 0 < cryptBlockFor algo B
    rw [blockFor_eq algo B (by omega), Nat.add_mul]; omega
  · intro n; simp [symCipher, cryptDecrypt]
  · intro n x hx
    obtain ⟨c, h1, _⟩ := key n x hx
    exact ⟨c, h1⟩
  · intro hmod k hk _
    show cryptBlockFor algo k < cryptBlockFor algo B
    rw [blockFor_eq algo k (by omega), blockFor_eq algo B (by omega)]
    apply Nat.mul_lt_mul_of_pos_right _ (by omega)
    have : k / algo < B / algo := by
      rw [Nat.div_lt_iff_lt_mul (by omega), Nat.div_mul_cancel (Nat.dvd_of_mod_eq_zero hmod)]; exact hk
    omega

/-! Examples and failing cases.  A small cipher: the block number modulo 256 in front, and a byte which makes the encrypted
size even. -/
private def toy : Cipher where
  enc n x := UInt8.ofNat n :: UInt8.ofNat x.length :: (x ++ List.replicate (x.length % 2) 0)
  dec n b := match b with
    | [] => .ok []
    | k :: l :: x => if k = UInt8.ofNat n ∧ l.toNat ≤ x.length ∧ x.length = l.toNat + l.toNat % 2 then .ok (x.take l.toNat) else .error .range
    | _ => .error .range
  encSize k := k + k % 2 + 2

private theorem toy_lawful (B : Nat) (hB : 0 < B) (hB' : B < 256) : toy.Lawful B := by
  refine ⟨?_, ?_, ?_, ?_, fun _ => rfl⟩
  · intro n x _ hx
    have : (UInt8.ofNat x.length).toNat = x.length := by
      rw [UInt8.toNat_ofNat']; exact Nat.mod_eq_of_lt (by omega)
    simp [toy, this]
  · intro n x _ hx
    simp [toy]
  · intro k hk; simp only [toy]; omega
  · simp only [toy]; omega

example : ∃ t t', troNew toy 4 2 none ⟨[7, 7] ++ encBlocks toy 4 0 [1, 2, 3, 4, 5, 6, 7, 8, 9], 0⟩ = .ok t ∧
    t.run [.skip 6, .read 2, .rel (-7), .read 5] = .ok (t', [.flag true, .data [7, 8], .flag true, .data [2, 3, 4, 5, 6]]) := by
  obtain ⟨t, t', h1, h2, _⟩ := C18_read_inside toy 4 (by decide) (by decide) (toy_lawful 4 (by decide) (by decide)) [7, 7] [1, 2, 3, 4, 5, 6, 7, 8, 9] []
    none (TrailOk.none rfl) 0 [.skip 6, .read 2, .rel (-7), .read 5] (by simp [raAllInside, raInside, raStep, raSkip])
  rw [List.append_nil] at h1
  exact ⟨t, t', h1, h2⟩

/-- the hypotheses on trailing data can be met: one block of nine trailing bytes refused by the cipher -/
example : TrailOk toy 8 0 (encBlocks toy 8 0 [1, 2]) [9] (some fun _ => .ok 4) := by
  refine .some _ ?_ (by decide) (by decide) ?_
  · intro s
    rw [encBlocks_short toy 8 0 [1, 2] (by decide) (by decide) (by decide)]
    rfl
  · intro k x t hx ht hp hl
    have h1 : t.length ≤ 1 := hp.length_le
    have h2 : t.length ≠ 0 := fun e => ht (List.length_eq_zero_iff.mp e)
    by_cases hx0 : x = []
    · subst hx0; rw [encBlocks_nil] at hl; simp [toy] at hl; omega
    · rw [encBlocks_short toy 8 k x (by decide) hx0 hx] at hl
      simp [toy] at hl
      omega

/-- Not an ordinary file (1): when a shorter last block has an encryption as long as a full block, seeking to the end reports a
position after the end: 3 bytes written with blocks of 4, position 4. -/
theorem C18_eof_counterexample :
    toy.Lawful 4 ∧ ∃ t t', troNew toy 4 0 none ⟨encBlocks toy 4 0 [1, 2, 3], 0⟩ = .ok t ∧ t.skipEof = .ok t' ∧ t'.pos = 4 := by
  refine ⟨toy_lawful 4 (by decide) (by decide), ?_⟩
  rw [encBlocks_short toy 4 0 [1, 2, 3] (by decide) (by decide) (by decide)]
  exact ⟨_, _, rfl, rfl, rfl⟩

/-- Not an ordinary file (2): flushing the pending data in the middle of a block makes what follows unreadable: the block number
is not increased and blocks are no more aligned. -/
theorem C18_sync_counterexample :
    toy.Lawful 4 ∧ ∃ t t1 t2 r, troNew toy 4 0 none ⟨[], 0⟩ = .ok t ∧ t.write [1, 2] = .ok t1 ∧ t1.syncWrite.write [3, 4, 5] = .ok t2 ∧
      troNew toy 4 0 none t2.writeEof.file = .ok r ∧ r.read 5 = .error .range :=
  ⟨toy_lawful 4 (by decide) (by decide), _, _, _, _, rfl, rfl, rfl, rfl, rfl⟩

/-- Not an ordinary file (3): once the last block has been loaded, flushing the read cache makes the data of this block
disappear. -/
theorem C18_flush_read_counterexample :
    toy.Lawful 4 ∧ ∃ t t1, troNew toy 4 0 none ⟨encBlocks toy 4 0 [1, 2], 0⟩ = .ok t ∧ t.read 1 = .ok (t1, [1]) ∧
      ∃ t2, t1.flushRead.read 1 = .ok (t2, []) := by
  refine ⟨toy_lawful 4 (by decide) (by decide), ?_⟩
  rw [encBlocks_short toy 4 0 [1, 2] (by decide) (by decide) (by decide)]
  exact ⟨_, _, rfl, rfl, _, rfl⟩

/-- Not an ordinary file (4): once the end has been met, a seek more than 2^32 bytes after the end is an internal error instead
of a failure. -/
theorem C18_far_counterexample :
    toy.Lawful 4 ∧ ∃ t t1, troNew toy 4 0 none ⟨encBlocks toy 4 0 [1, 2], 0⟩ = .ok t ∧ t.read 1 = .ok (t1, [1]) ∧
      t1.skip (2 ^ 32) = .error .bug := by
  refine ⟨toy_lawful 4 (by decide) (by decide), ?_⟩
  rw [encBlocks_short toy 4 0 [1, 2] (by decide) (by decide) (by decide)]
  exact ⟨_, _, rfl, rfl, rfl⟩

/-- Not an ordinary file (5): with trailing data going into the place of the next block, seeking to the end reports a position
after the end: 2 bytes written in blocks of 4, nine trailing bytes, position 8. -/
theorem C18_trailing_eof_counterexample :
    toy.Lawful 4 ∧ ∃ t t', troNew toy 4 0 (some fun _ => .ok 4) ⟨encBlocks toy 4 0 [1, 2] ++ [9, 9, 9, 9, 9, 9, 9, 9, 9], 0⟩ = .ok t ∧
      t.skipEof = .ok t' ∧ t'.pos = 8 := by
  refine ⟨toy_lawful 4 (by decide) (by decide), ?_⟩
  rw [encBlocks_short toy 4 0 [1, 2] (by decide) (by decide) (by decide)]
  exact ⟨_, _, rfl, rfl, rfl⟩

end Dar
