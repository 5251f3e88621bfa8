import Verif.Model.BlockComp
import Verif.Lemmas.Flat
import Verif.Lemmas.Infinint4
/- Property theorems C20: block compression is transparent. -/
namespace Dar

/-- What the blocks of `d` become. -/
def zipBlocks (c : Codec) (B : Nat) (d : Bytes) : Bytes :=
  if h : d = [] ∨ B = 0 then [] else cbhDump 1 (c.zip (d.take B)).length ++ c.zip (d.take B) ++ zipBlocks c B (d.drop B)
termination_by d.length
decreasing_by
  have h1 : d ≠ [] := fun e => h (Or.inl e)
  have h2 : B ≠ 0 := fun e => h (Or.inr e)
  have := List.length_pos_iff.mpr h1
  simp only [List.length_drop]; omega

theorem zipBlocks_nil (c : Codec) (B : Nat) : zipBlocks c B [] = [] := by rw [zipBlocks]; simp
private theorem zipBlocks_cons (c : Codec) (B : Nat) (d : Bytes) (hB : 0 < B) (h : d ≠ []) :
    zipBlocks c B d = cbhDump 1 (c.zip (d.take B)).length ++ c.zip (d.take B) ++ zipBlocks c B (d.drop B) := by
  conv => lhs; rw [zipBlocks]
  rw [dif_neg (by rintro (h1 | h1); exacts [h h1, by omega])]
private theorem zipBlocks_short (c : Codec) (B : Nat) (d : Bytes) (hB : 0 < B) (h : d ≠ []) (hl : d.length ≤ B) :
    zipBlocks c B d = cbhDump 1 (c.zip d).length ++ c.zip d := by
  rw [zipBlocks_cons c B d hB h, List.drop_eq_nil_of_le hl, zipBlocks_nil, List.append_nil, List.take_of_length_le hl]
private theorem zipBlocks_append (c : Codec) (B : Nat) (hB : 0 < B) (k : Nat) : ∀ (a b : Bytes), a.length = k * B →
    zipBlocks c B (a ++ b) = zipBlocks c B a ++ zipBlocks c B b := by
  induction k with
  | zero => intro a b h; have : a = [] := List.length_eq_zero_iff.mp (by omega); subst this; simp [zipBlocks_nil]
  | succ k ih =>
    intro a b h
    have hle : B ≤ a.length := by rw [h, Nat.add_mul]; omega
    have ha : a ≠ [] := by rintro rfl; simp at hle; omega
    rw [zipBlocks_cons c B (a ++ b) hB (by simp [ha]), zipBlocks_cons c B a hB ha,
      List.take_append_of_le_length hle, List.drop_append_of_le_length hle,
      ih (a.drop B) b (by simp [h, Nat.add_mul]), List.append_assoc]
    simp

/-- What an item becomes. -/
def zipItem (c : Codec) (B : Nat) (d : Bytes) : Bytes := zipBlocks c B d ++ (if d = [] then [] else cbhDump 2 0)

private theorem write_end (d b : Bytes) : Flat.write ⟨d, d.length⟩ b = ⟨d ++ b, (d ++ b).length⟩ := by
  unfold Flat.write patch
  by_cases h : b = []
  · subst h; simp
  · rw [if_neg h]
    simp

private structure WInv (b : BComp) (c : Codec) (B : Nat) (pre d : Bytes) : Prop where
  codec : b.codec = c
  bsize : b.B = B
  mode : b.ro = false
  susp : b.suspended = false
  split : ∃ w k, d = w ++ b.clear ∧ w.length = k * B ∧ b.clear.length < B ∧
    b.file = ⟨pre ++ zipBlocks c B w, (pre ++ zipBlocks c B w).length⟩

private theorem flush_full {b : BComp} {c : Codec} {B : Nat} {pre w : Bytes} {k : Nat} (hB : 0 < B) (hc : c.Lawful B) (h1 : b.codec = c)
    (hw : w.length = k * B) (hf : b.file = ⟨pre ++ zipBlocks c B w, (pre ++ zipBlocks c B w).length⟩) (hne : b.clear ≠ []) (hl : b.clear.length ≤ B) :
    b.flushBlock = .ok { b with file := ⟨pre ++ zipBlocks c B (w ++ b.clear), (pre ++ zipBlocks c B (w ++ b.clear)).length⟩, clear := [], cursor := 0 } := by
  unfold BComp.flushBlock
  have := List.length_pos_iff.mpr hne
  have hz := List.length_pos_iff.mpr (hc.some b.clear hne hl)
  simp only [h1]
  rw [if_pos this, if_pos hz]
  rw [hf, write_end, write_end, zipBlocks_append c B hB k w _ hw, zipBlocks_short c B b.clear hB hne hl]
  simp only [List.append_assoc]

private theorem WInv.loop {c : Codec} {B : Nat} {pre : Bytes} (hB : 0 < B) (hc : c.Lawful B) : ∀ (fuel : Nat) (b : BComp) (d a : Bytes),
    WInv b c B pre d → a.length < fuel → ∃ b', BComp.writeLoop fuel b a = .ok b' ∧ WInv b' c B pre (d ++ a) ∧ b'.needEof = b.needEof := by
  intro fuel
  induction fuel with
  | zero => intro b d a _ h; omega
  | succ fuel ih =>
    intro b d a h hl
    unfold BComp.writeLoop
    by_cases ha : a = []
    · rw [if_pos ha]; subst ha; exact ⟨b, rfl, by simpa using h, rfl⟩
    · rw [if_neg ha]
      obtain ⟨h1, h2, h3, h4, w, k, hd, hw, hb, hf⟩ := h
      have hapos := List.length_pos_iff.mpr ha
      have hdl : (a.drop (b.B - b.clear.length)).length < fuel := by simp; omega
      simp only
      by_cases hfull : (b.clear ++ a.take (b.B - b.clear.length)).length = b.B
      · rw [if_pos hfull]
        rw [flush_full (b := { b with clear := b.clear ++ a.take (b.B - b.clear.length) }) hB hc h1 hw hf
          (by intro e; rw [show b.clear ++ a.take (b.B - b.clear.length) = [] from e] at hfull; simp at hfull; omega)
          (by show (b.clear ++ a.take (b.B - b.clear.length)).length ≤ B; omega)]
        obtain ⟨b', e, hi, hn⟩ := ih _ (d ++ a.take (b.B - b.clear.length)) (a.drop (b.B - b.clear.length))
          (WInv.mk (b := { b with
              file := ⟨pre ++ zipBlocks c B (w ++ (b.clear ++ a.take (b.B - b.clear.length))), (pre ++ zipBlocks c B (w ++ (b.clear ++ a.take (b.B - b.clear.length)))).length⟩,
              clear := [], cursor := 0 }) h1 h2 h3 h4 ⟨w ++ (b.clear ++ a.take (b.B - b.clear.length)), k + 1, by simp [hd], by
                rw [List.length_append, hfull, hw, h2]; ring, hB, rfl⟩) hdl
        refine ⟨b', e, ?_, hn⟩
        rw [List.append_assoc, List.take_append_drop] at hi
        exact hi
      · rw [if_neg hfull]
        have hlt : (b.clear ++ a.take (b.B - b.clear.length)).length < B := by
          rw [List.length_append, List.length_take] at hfull ⊢; omega
        obtain ⟨b', e, hi, hn⟩ := ih { b with clear := b.clear ++ a.take (b.B - b.clear.length) } (d ++ a.take (b.B - b.clear.length)) (a.drop (b.B - b.clear.length))
          ⟨h1, h2, h3, h4, w, k, by simp [hd], hw, hlt, hf⟩ hdl
        refine ⟨b', e, ?_, hn⟩
        rw [List.append_assoc, List.take_append_drop] at hi
        exact hi

private theorem WInv.writes {c : Codec} {B : Nat} {pre : Bytes} (hB : 0 < B) (hc : c.Lawful B) (l : List Bytes) : ∀ (b : BComp) (d : Bytes),
    WInv b c B pre d → (b.needEof = true ↔ d ≠ []) → ∃ b', b.writes l = .ok b' ∧ WInv b' c B pre (d ++ l.flatten) ∧ (b'.needEof = true ↔ d ++ l.flatten ≠ []) := by
  induction l with
  | nil => intro b d h hn; exact ⟨b, rfl, by simpa using h, by simpa using hn⟩
  | cons a l ih =>
    intro b d h hn
    obtain ⟨b1, e, hi, hn1⟩ := WInv.loop hB hc (a.length + 1) b d a h (by omega)
    have hw : b.write a = .ok { b1 with needEof := if a.length > 0 then true else b1.needEof } := by
      unfold BComp.write
      rw [h.susp]
      simp [e]
    obtain ⟨b2, e2, hi2, hn2⟩ := ih { b1 with needEof := if a.length > 0 then true else b1.needEof } (d ++ a)
      ⟨hi.codec, hi.bsize, hi.mode, hi.susp, hi.split⟩ (by
        simp only
        by_cases ha : a.length > 0
        · rw [if_pos ha]; simp [List.length_pos_iff.mp ha]
        · rw [if_neg ha, hn1, hn, List.length_eq_zero_iff.mp (show a.length = 0 by omega), List.append_nil])
    refine ⟨b2, ?_, by simpa using hi2, by simpa using hn2⟩
    unfold BComp.writes; simp only [hw, e2]

/-- A writer ready for a new item. -/
structure BcReady (b : BComp) (c : Codec) (B : Nat) (pre : Bytes) : Prop where
  codec : b.codec = c
  bsize : b.B = B
  mode : b.ro = false
  susp : b.suspended = false
  eof : b.needEof = false
  clear : b.clear = []
  file : b.file = ⟨pre, pre.length⟩

theorem bcItem_spec {b : BComp} {c : Codec} {B : Nat} {pre : Bytes} (hB : 0 < B) (hc : c.Lawful B) (h : BcReady b c B pre) (l : List Bytes) :
    ∃ b', b.item l = .ok (b', pre.length) ∧ BcReady b' c B (pre ++ zipItem c B l.flatten) := by
  obtain ⟨b1, e, hi, hn⟩ := WInv.writes (pre := pre) hB hc l b [] ⟨h.codec, h.bsize, h.mode, h.susp, [], 0, by simp [h.clear], by simp,
    by simpa [h.clear] using hB, by simp [zipBlocks_nil, h.file]⟩ (by simp [h.eof])
  rw [List.nil_append] at hi hn
  have hpos : b.position = .ok pre.length := by
    unfold BComp.position; rw [h.mode, h.clear, h.file]; simp
  obtain ⟨h1, h2, h3, h4, w, k, hd, hw, hb, hf⟩ := hi
  have hfl : ∃ cu, b1.flushBlock = .ok { b1 with file := ⟨pre ++ zipBlocks c B l.flatten, (pre ++ zipBlocks c B l.flatten).length⟩, clear := [], cursor := cu } := by
    by_cases hne : b1.clear = []
    · unfold BComp.flushBlock
      rw [if_neg (by rw [hne]; simp)]
      refine ⟨b1.cursor, ?_⟩
      rw [hne, List.append_nil] at hd
      rw [hd, ← hf, ← hne]
    · rw [hd]; exact ⟨0, flush_full hB hc h1 hw hf hne (by omega)⟩
  obtain ⟨cu, hfl⟩ := hfl
  have hs : ∃ b2, b1.syncWrite = .ok b2 ∧ BcReady b2 c B (pre ++ zipItem c B l.flatten) := by
    unfold BComp.syncWrite
    rw [h3]
    simp only [Bool.false_eq_true, if_false, hfl]
    by_cases hd0 : l.flatten = []
    · have hne : b1.needEof = false := by
        by_contra hc'
        exact hn.mp (by simpa using hc') hd0
      rw [hne, if_neg (by simp)]
      refine ⟨_, rfl, h1, h2, h3, h4, rfl, rfl, ?_⟩
      simp [zipItem, hd0, zipBlocks_nil]
    · rw [hn.mpr hd0, if_pos rfl]
      refine ⟨_, rfl, h1, h2, h3, h4, rfl, rfl, ?_⟩
      simp only [write_end, zipItem, if_neg hd0, List.append_assoc]
  obtain ⟨b2, e2, hr⟩ := hs
  refine ⟨b2, ?_, hr⟩
  unfold BComp.item
  simp only [hpos, e, e2]

/-! Reading -/

/-- State of a reader in an item holding `D`, at position `p`; `tail` follows the item. -/
private structure RInv (b : BComp) (c : Codec) (B : Nat) (file D tail : Bytes) (p : Nat) : Prop where
  codec : b.codec = c
  bsize : b.B = B
  susp : b.suspended = false
  mode : b.ro = true
  data : b.file.data = file
  state : (b.reof = false ∧ b.cursor ≤ b.clear.length ∧ ∃ R, b.file.data.drop b.file.pos = zipBlocks c B R ++ cbhDump 2 0 ++ tail ∧ b.clear.drop b.cursor ++ R = D.drop p ∧
      p ≤ D.length) ∨
    (b.reof = true ∧ b.clear = [] ∧ b.cursor = 0 ∧ D.length = p ∧ b.file.data.drop b.file.pos = tail ∧ b.file.pos = b.file.data.length - tail.length)

private theorem drop_back (d rest : Bytes) (h : rest <:+ d) : d.drop (d.length - rest.length) = rest := by
  obtain ⟨t, rfl⟩ := h
  rw [List.length_append, Nat.add_sub_cancel, List.drop_left]

private theorem cbh_read (t : UInt8) (n : Nat) (rest : Bytes) : cbhRead (cbhDump t n ++ rest) = .ok (some (t, n), rest) := by
  unfold cbhDump
  rw [List.cons_append]
  simp only [cbhRead, getInt_putInt n rest]

private theorem load_block {b : BComp} {c : Codec} {B : Nat} (hc : c.Lawful B) (h1 : b.codec = c) (h2 : b.B = B) (x rest : Bytes)
    (hx : x ≠ []) (hxl : x.length ≤ B) (hd : b.file.data.drop b.file.pos = cbhDump 1 (c.zip x).length ++ c.zip x ++ rest) :
    ∃ p', b.load = .ok { b with clear := x, cursor := 0, file := ⟨b.file.data, p'⟩ } ∧ b.file.data.drop p' = rest := by
  have hsuf : (c.zip x ++ rest) <:+ b.file.data := by
    have : (c.zip x ++ rest) <:+ b.file.data.drop b.file.pos := by rw [hd, List.append_assoc]; exact List.suffix_append _ _
    exact this.trans (List.drop_suffix _ _)
  have hz := List.length_pos_iff.mpr (hc.some x hx hxl)
  have hfit := hc.fits x hx hxl
  have hu := hc.u64
  have hdr : b.file.data.drop (b.file.data.length - (c.zip x ++ rest).length) = c.zip x ++ rest := drop_back _ _ hsuf
  have hrd : (Flat.read (b.file.skip (b.file.data.length - (c.zip x ++ rest).length)) (c.zip x).length) =
      (⟨b.file.data, b.file.data.length - (c.zip x ++ rest).length + (c.zip x).length⟩, c.zip x) := by
    unfold Flat.read Flat.skip
    simp only [hdr, List.take_left]
  refine ⟨b.file.data.length - (c.zip x ++ rest).length + (c.zip x).length, ?_, ?_⟩
  · unfold BComp.load
    rw [hd, List.append_assoc, cbh_read]
    simp only [if_true]
    rw [if_neg (by omega), h1, h2, if_neg (by omega), if_pos hz, hrd]
    simp only [hc.inv x hx hxl]
  · rw [← List.drop_drop, hdr, List.drop_left]

private theorem load_eof {b : BComp} (tail : Bytes) (hd : b.file.data.drop b.file.pos = cbhDump 2 0 ++ tail) :
    b.load = .ok { b with clear := [], cursor := 0, reof := true, file := b.file.skip (b.file.data.length - tail.length) } ∧
      b.file.data.drop (b.file.data.length - tail.length) = tail := by
  have hsuf : tail <:+ b.file.data := by
    have : tail <:+ b.file.data.drop b.file.pos := by rw [hd]; exact List.suffix_append _ _
    exact this.trans (List.drop_suffix _ _)
  refine ⟨?_, drop_back _ _ hsuf⟩
  unfold BComp.load
  rw [hd, cbh_read]
  simp only
  rw [if_neg (by decide)]
  simp

/-- The state once the exhausted block has been replaced: there is something to read, or the end has been met. -/
private theorem load_spec' {b : BComp} {c : Codec} {B : Nat} {file D tail : Bytes} {p : Nat} (hB : 0 < B) (hc : c.Lawful B) (h : RInv b c B file D tail p)
    (hr : b.reof = false) :
    ∃ b1, (if b.cursor = b.clear.length then b.load else .ok b) = .ok b1 ∧ RInv b1 c B file D tail p ∧
      (b1.reof = true ∨ b1.cursor < b1.clear.length) := by
  by_cases he : b.cursor = b.clear.length
  · rw [if_pos he]
    rcases h.state with ⟨_, _, R, hd, hcr, hp⟩ | ⟨h', _⟩
    swap
    · rw [hr] at h'; cases h'
    rw [List.drop_eq_nil_of_le (by omega), List.nil_append] at hcr
    by_cases hR : R = []
    · rw [hR, zipBlocks_nil, List.nil_append] at hd
      obtain ⟨e, e2⟩ := load_eof tail hd
      refine ⟨_, e, ⟨h.codec, h.bsize, h.susp, h.mode, h.data, Or.inr ⟨rfl, rfl, rfl, ?_, e2, rfl⟩⟩, Or.inl rfl⟩
      rw [hR] at hcr
      have := congrArg List.length hcr
      simp at this; omega
    · rw [zipBlocks_cons c B R hB hR, List.append_assoc, List.append_assoc] at hd
      have hx : R.take B ≠ [] := by
        intro e; have := congrArg List.length e; have h2 := List.length_pos_iff.mpr hR
        rw [List.length_take, List.length_nil] at this; omega
      obtain ⟨p', e, e2⟩ := load_block hc h.codec h.bsize (R.take B) _ hx (by rw [List.length_take]; omega) hd
      refine ⟨_, e, ⟨h.codec, h.bsize, h.susp, h.mode, h.data, Or.inl ⟨hr, by simp, R.drop B, ?_, ?_, hp⟩⟩, Or.inr (List.length_pos_iff.mpr hx)⟩
      · rw [e2, List.append_assoc]
      · simp only [List.drop_zero, List.take_append_drop, hcr]
  · rw [if_neg he]
    refine ⟨b, rfl, h, Or.inr ?_⟩
    rcases h.state with ⟨_, hcu, _⟩ | ⟨h', _⟩
    · omega
    · rw [hr] at h'; cases h'

private theorem read_loop {c : Codec} {B : Nat} {file D tail : Bytes} (hB : 0 < B) (hc : c.Lawful B) : ∀ (fuel : Nat) (b : BComp) (n p : Nat),
    n + 2 ≤ fuel → RInv b c B file D tail p →
    ∃ b', BComp.readLoop fuel b n = .ok (b', (D.drop p).take n) ∧ RInv b' c B file D tail (p + ((D.drop p).take n).length) ∧
      (D.length < p + n → b'.reof = true) := by
  intro fuel
  induction fuel with
  | zero => intro b n p h; omega
  | succ fuel ih =>
    intro b n p hn h
    unfold BComp.readLoop
    by_cases h0 : n = 0 ∨ b.reof = true
    · rw [if_pos h0]
      rcases h.state with ⟨h1, h2, R, h3, h4, hple⟩ | ⟨h1, h2, h3, h4, h5, h6⟩
      · have hz : n = 0 := by rcases h0 with h' | h'; exacts [h', by rw [h1] at h'; cases h']
        subst hz
        exact ⟨b, by simp, by simpa using h, fun hlt => by omega⟩
      · have hd : D.drop p = [] := List.drop_eq_nil_of_le (by omega)
        refine ⟨b, by rw [hd, List.take_nil], by rw [hd, List.take_nil]; simpa using h, fun _ => h1⟩
    · rw [if_neg h0]
      have hn0 : n ≠ 0 := fun e => h0 (Or.inl e)
      have hr : b.reof = false := by
        by_contra hc'; exact h0 (Or.inr (by simpa using hc'))
      obtain ⟨b1, e, hi, hcase⟩ := load_spec' hB hc h hr
      rw [e]
      simp only
      rcases hi.state with ⟨h1, h2, R, h3, h4, hple⟩ | ⟨h1, h2, h3, h4, h5, h6⟩
      · have hlt : b1.cursor < b1.clear.length := by
          rcases hcase with h' | h'
          · rw [h1] at h'; cases h'
          · exact h'
        have hlenp : (b1.clear.length - b1.cursor) + R.length = D.length - p := by
          have := congrArg List.length h4
          simpa using this
        have hpl : ((b1.clear.drop b1.cursor).take n).length = min n (b1.clear.length - b1.cursor) := by simp
        have hpiece : (b1.clear.drop b1.cursor).take n = (D.drop p).take (((b1.clear.drop b1.cursor).take n).length) := by
          rw [← h4, List.take_append_of_le_length (by rw [hpl, List.length_drop]; omega), hpl]
          rw [List.take_eq_take_iff]; simp
        obtain ⟨b2, e2, hi2, hre⟩ := ih { b1 with cursor := b1.cursor + ((b1.clear.drop b1.cursor).take n).length }
          (n - ((b1.clear.drop b1.cursor).take n).length) (p + ((b1.clear.drop b1.cursor).take n).length) (by rw [hpl]; omega)
          ⟨hi.codec, hi.bsize, hi.susp, hi.mode, hi.data, Or.inl ⟨h1, by simp only [hpl]; omega, R, h3, by
            simp only
            rw [← List.drop_drop, ← List.drop_drop, ← h4, List.drop_append_of_le_length (by rw [hpl, List.length_drop]; omega)], by omega⟩⟩
        rw [e2]
        have htk : (D.drop p).take n = (b1.clear.drop b1.cursor).take n ++
            (D.drop (p + ((b1.clear.drop b1.cursor).take n).length)).take (n - ((b1.clear.drop b1.cursor).take n).length) := by
          conv => lhs; rw [show n = ((b1.clear.drop b1.cursor).take n).length + (n - ((b1.clear.drop b1.cursor).take n).length) by omega, List.take_add]
          rw [← hpiece, List.drop_drop]
        refine ⟨b2, ?_, ?_, ?_⟩
        · simp only [htk]
        · rw [htk, List.length_append, ← Nat.add_assoc]; exact hi2
        · intro hlt2; exact hre (by omega)
      · have hd : D.drop p = [] := List.drop_eq_nil_of_le (by omega)
        have hc0 : (b1.clear.drop b1.cursor).take n = [] := by rw [h2]; simp
        obtain ⟨b2, e2, hi2, hre⟩ : ∃ b2, BComp.readLoop fuel { b1 with cursor := b1.cursor + 0 } (n - 0) = .ok (b2, []) ∧
            RInv b2 c B file D tail p ∧ b2.reof = true := by
          obtain ⟨m, rfl⟩ : ∃ m, fuel = m + 1 := ⟨fuel - 1, by omega⟩
          unfold BComp.readLoop
          rw [if_pos (Or.inr h1)]
          exact ⟨b1, rfl, hi, h1⟩
        rw [hc0, hd, List.take_nil]
        rw [show ([] : Bytes).length = 0 from rfl, e2]
        exact ⟨b2, rfl, by simpa using hi2, fun _ => hre⟩

private theorem RInv.le {b : BComp} {c : Codec} {B : Nat} {file D tail : Bytes} {p : Nat} (h : RInv b c B file D tail p) : p ≤ D.length := by
  rcases h.state with ⟨_, _, R, _, _, h4⟩ | ⟨_, _, _, h4, _⟩
  · exact h4
  · omega

private theorem read_reof (b : BComp) (n : Nat) (h : b.reof = true) : b.read n = .ok (b, []) := by
  unfold BComp.read
  by_cases hs : b.suspended = true
  · rw [if_pos hs, if_pos h]
  · rw [if_neg hs]
    show BComp.readLoop (n + b.file.data.length + 1 + 1) b n = _
    unfold BComp.readLoop
    rw [if_pos (Or.inr h)]

private theorem reads_reof (ns : List Nat) : ∀ (b : BComp), b.reof = true → ∃ l, b.reads ns = .ok (b, l) := by
  induction ns with
  | nil => intro b _; exact ⟨[], rfl⟩
  | cons n ns ih =>
    intro b h
    obtain ⟨l, e⟩ := ih b h
    exact ⟨[] :: l, by unfold BComp.reads; simp only [read_reof b n h, e]⟩

private theorem reads_spec {c : Codec} {B : Nat} {file D tail : Bytes} (hB : 0 < B) (hc : c.Lawful B) (ns : List Nat) : ∀ (b : BComp) (p : Nat),
    RInv b c B file D tail p → ∃ b' p', b.reads ns = .ok (b', plainReads D p ns) ∧ RInv b' c B file D tail p' ∧
      (D.length < p + ns.sum → b'.reof = true) := by
  induction ns with
  | nil => intro b p h; exact ⟨b, p, rfl, h, fun hlt => by have := h.le; simp at hlt; omega⟩
  | cons n ns ih =>
    intro b p h
    obtain ⟨b1, e, hi, hre⟩ := read_loop hB hc (n + b.file.data.length + 2) b n p (by omega) h
    have hrd : b.read n = .ok (b1, (D.drop p).take n) := by
      unfold BComp.read; rw [h.susp]; simpa using e
    obtain ⟨b2, p2, e2, hi2, hre2⟩ := ih b1 _ hi
    refine ⟨b2, p2, ?_, hi2, ?_⟩
    · unfold BComp.reads; simp only [hrd, e2, plainReads]
    · intro hlt
      simp only [List.sum_cons] at hlt
      by_cases hcmp : D.length < p + n
      · obtain ⟨l, el⟩ := reads_reof ns b1 (hre hcmp)
        rw [el] at e2
        cases e2
        exact hre hcmp
      · apply hre2
        rw [List.length_take, List.length_drop]
        omega

/-- Reading an item from where it starts, whatever follows it. -/
theorem bcReads_item {c : Codec} {B : Nat} (hB : 100 ≤ B) (hc : c.Lawful B) (pre D tail : Bytes) (hne : D ≠ []) (ns : List Nat) :
    ∃ r r', bcompNew c B true ⟨pre ++ zipItem c B D ++ tail, pre.length⟩ = .ok r ∧ r.reads ns = .ok (r', plainReads D 0 ns) := by
  have hB0 : 0 < B := by omega
  refine ⟨⟨c, B, true, false, false, [], 0, false, ⟨pre ++ zipItem c B D ++ tail, pre.length⟩⟩, ?_⟩
  have hinv : RInv ⟨c, B, true, false, false, [], 0, false, ⟨pre ++ zipItem c B D ++ tail, pre.length⟩⟩ c B (pre ++ zipItem c B D ++ tail) D tail 0 := by
    refine ⟨rfl, rfl, rfl, rfl, rfl, Or.inl ⟨rfl, le_refl _, D, ?_, by simp, by omega⟩⟩
    simp only []
    rw [List.append_assoc, List.drop_left]
    unfold zipItem
    rw [if_neg hne]
  obtain ⟨r', p', e', _, _⟩ := reads_spec hB0 hc ns _ 0 hinv
  exact ⟨r', by unfold bcompNew; rw [if_neg (by omega)], e'⟩

/-- the items one after the other, and where they start -/
private theorem items_spec {c : Codec} {B : Nat} (hB : 0 < B) (hc : c.Lawful B) (ls : List (List Bytes)) : ∀ (b : BComp) (pre : Bytes),
    BcReady b c B pre → ∃ b' ps out, b.items ls = .ok (b', ps) ∧ BcReady b' c B (pre ++ out) ∧ ps.length = ls.length ∧
      ∀ i (hi : i < ls.length), ∃ before after, out = before ++ zipItem c B (ls[i]).flatten ++ after ∧ ps[i]? = some (pre.length + before.length) ∧
        ((ps ++ [(pre ++ out).length])[i + 1]? = some (pre.length + before.length + (zipItem c B (ls[i]).flatten).length)) := by
  induction ls with
  | nil => intro b pre h; exact ⟨b, [], [], rfl, by simpa using h, rfl, fun i hi => by simp at hi⟩
  | cons l ls ih =>
    intro b pre h
    obtain ⟨b1, e1, h1⟩ := bcItem_spec hB hc h l
    obtain ⟨b2, ps, out, e2, h2, hlen, hps⟩ := ih b1 _ h1
    refine ⟨b2, pre.length :: ps, zipItem c B l.flatten ++ out, ?_, by simpa using h2, by simp [hlen], ?_⟩
    · unfold BComp.items; simp only [e1, e2]
    · intro i hi
      cases i with
      | zero =>
        refine ⟨[], out, by simp, by simp, ?_⟩
        cases ls with
        | nil =>
          simp only [BComp.items] at e2
          cases e2
          have hf : (⟨pre ++ zipItem c B l.flatten, (pre ++ zipItem c B l.flatten).length⟩ : Flat) = ⟨_, _⟩ := h1.file.symm.trans h2.file
          injection hf with hf1 _
          have : out = [] := by simpa using hf1
          subst this
          simp
        | cons l2 ls2 =>
          obtain ⟨bf, af, q1, q2, q3⟩ := hps 0 (by simp)
          cases ps with
          | nil => simp at hlen
          | cons q qs =>
            have hq : (q :: qs)[0]? = some (pre ++ zipItem c B l.flatten).length := by
              unfold BComp.items at e2
              obtain ⟨b3, e3, h3⟩ := bcItem_spec hB hc h1 l2
              rw [e3] at e2
              simp only at e2
              cases hit : b3.items ls2 with
              | error er => rw [hit] at e2; cases e2
              | ok v => rw [hit] at e2; simp only at e2; cases e2; rfl
            simp only [List.getElem?_cons_zero] at hq
            cases hq
            simp
      | succ i =>
        obtain ⟨bf, af, q1, q2, q3⟩ := hps i (by simpa using hi)
        refine ⟨zipItem c B l.flatten ++ bf, af, by simp [q1], ?_, ?_⟩
        · simp only [List.getElem?_cons_succ, q2, List.length_append, Nat.add_assoc]
        · simp only [List.cons_append, List.getElem?_cons_succ, List.getElem_cons_succ, List.length_append] at q3 ⊢
          rw [show (pre.length + ((zipItem c B l.flatten).length + out.length)) = (pre.length + (zipItem c B l.flatten).length + out.length) by omega, q3]
          congr 1; omega

/-- Any number of items, each written in any pieces, are restored exactly: going to the position reported before a (non empty)
item was written, any sequence of reads gives what the plain data of this item would give, nothing more after its end; and once
the end has been met the position is the one of the next item. -/
theorem C20_items (c : Codec) (B : Nat) (hB : 100 ≤ B) (hc : c.Lawful B) (pre : Bytes) (ls : List (List Bytes)) :
    ∃ w w' ps, bcompNew c B false ⟨pre, pre.length⟩ = .ok w ∧ w.items ls = .ok (w', ps) ∧ ps.length = ls.length ∧
      ∀ i (hi : i < ls.length), (ls[i]).flatten ≠ [] → ∀ ns : List Nat, ∃ p next r r',
        ps[i]? = some p ∧ (ps ++ [w'.file.pos])[i + 1]? = some next ∧
        bcompNew c B true w'.file = .ok r ∧ (r.skip p).reads ns = .ok (r', plainReads (ls[i]).flatten 0 ns) ∧
        ((ls[i]).flatten.length < ns.sum → r'.position = .ok next) := by
  have hB0 : 0 < B := by omega
  obtain ⟨w', ps, out, e, hr, hlen, hps⟩ := items_spec hB0 hc ls ⟨c, B, false, false, false, [], 0, false, ⟨pre, pre.length⟩⟩ pre
    ⟨rfl, rfl, rfl, rfl, rfl, rfl, rfl⟩
  refine ⟨_, w', ps, by unfold bcompNew; rw [if_neg (by omega)], e, hlen, ?_⟩
  intro i hi hne ns
  obtain ⟨bf, af, q1, q2, q3⟩ := hps i hi
  have hdata : w'.file.data = pre ++ out := by rw [hr.file]
  have hpos : w'.file.pos = (pre ++ out).length := by rw [hr.file]
  refine ⟨pre.length + bf.length, pre.length + bf.length + (zipItem c B (ls[i]).flatten).length, ⟨c, B, true, false, false, [], 0, false, w'.file⟩, ?_⟩
  have hinv : RInv (BComp.skip ⟨c, B, true, false, false, [], 0, false, w'.file⟩ (pre.length + bf.length)) c B (pre ++ out) (ls[i]).flatten af 0 := by
    refine ⟨rfl, rfl, rfl, rfl, hdata, Or.inl ⟨rfl, le_refl _, (ls[i]).flatten, ?_, by simp [BComp.skip], by omega⟩⟩
    simp only [BComp.skip, Flat.skip, hdata, q1]
    rw [← List.drop_drop, List.drop_left, List.append_assoc, List.drop_left]
    unfold zipItem
    rw [if_neg hne]
  obtain ⟨r', p', e', hi', hre⟩ := reads_spec hB0 hc ns _ 0 hinv
  refine ⟨r', q2, by rw [hpos]; exact q3, by unfold bcompNew; rw [if_neg (by omega)], e', ?_⟩
  intro hlt
  have hreof := hre (by omega)
  rcases hi'.state with ⟨h1, _⟩ | ⟨h1, h2, h3, h4, h5, h6⟩
  · rw [h1] at hreof; cases hreof
  · unfold BComp.position
    rw [hi'.mode, if_pos rfl, h2, h3]
    simp only [List.length_nil, if_true]
    rw [h6, hi'.data, q1]
    congr 1
    simp only [List.length_append]
    omega

/-- One reader goes from item to item: each visit is a position to go to and the reads done there. -/
def BComp.visits (b : BComp) : List (Nat × List Nat) → Res (BComp × List (List Bytes))
  | [] => .ok (b, [])
  | v :: vs => match (b.skip v.1).reads v.2 with
    | .error e => .error e
    | .ok (b1, a) => match b1.visits vs with
      | .error e => .error e
      | .ok (b2, as) => .ok (b2, a :: as)

/-- **C20**: the same reader may visit the (non empty) items in any order, any number of times, leaving each of them at any point, before or after its end: each
visit gives what the plain data of the item would give. -/
theorem C20_visits (c : Codec) (B : Nat) (hB : 100 ≤ B) (hc : c.Lawful B) (pre : Bytes) (ls : List (List Bytes)) :
    ∃ w w' ps r, bcompNew c B false ⟨pre, pre.length⟩ = .ok w ∧ w.items ls = .ok (w', ps) ∧ ps.length = ls.length ∧ bcompNew c B true w'.file = .ok r ∧
      ∀ vs : List (Nat × List Nat), (∀ v ∈ vs, ∃ l, ls[v.1]? = some l ∧ l.flatten ≠ []) →
        ∃ r', r.visits (vs.map fun v => (ps.getD v.1 0, v.2)) = .ok (r', vs.map fun v => plainReads (ls.getD v.1 []).flatten 0 v.2) := by
  have hB0 : 0 < B := by omega
  obtain ⟨w', ps, out, e, hr, hlen, hps⟩ := items_spec hB0 hc ls ⟨c, B, false, false, false, [], 0, false, ⟨pre, pre.length⟩⟩ pre
    ⟨rfl, rfl, rfl, rfl, rfl, rfl, rfl⟩
  have hdata : w'.file.data = pre ++ out := by rw [hr.file]
  refine ⟨_, w', ps, ⟨c, B, true, false, false, [], 0, false, w'.file⟩, by unfold bcompNew; rw [if_neg (by omega)], e, hlen,
    by unfold bcompNew; rw [if_neg (by omega)], ?_⟩
  suffices hh : ∀ (vs : List (Nat × List Nat)) (r : BComp), r.codec = c → r.B = B → r.suspended = false → r.ro = true → r.file.data = pre ++ out →
      (∀ v ∈ vs, ∃ l, ls[v.1]? = some l ∧ l.flatten ≠ []) →
        ∃ r', r.visits (vs.map fun v => (ps.getD v.1 0, v.2)) = .ok (r', vs.map fun v => plainReads (ls.getD v.1 []).flatten 0 v.2) from
    fun vs hvs => hh vs _ rfl rfl rfl rfl hdata hvs
  intro vs
  induction vs with
  | nil => intro r _ _ _ _ _ _; exact ⟨r, rfl⟩
  | cons v vs ih =>
    intro r h1 h2 h3 h4 h5 hvs
    obtain ⟨l, hl, hne⟩ := hvs v List.mem_cons_self
    obtain ⟨hi, hl'⟩ := List.getElem?_eq_some_iff.mp hl
    obtain ⟨bf, af, q1, q2, _⟩ := hps v.1 hi
    rw [hl'] at q1
    have hp : ps.getD v.1 0 = pre.length + bf.length := by rw [List.getD_eq_getElem?_getD, q2]; rfl
    have hld : ls.getD v.1 [] = l := by rw [List.getD_eq_getElem?_getD, hl]; rfl
    have hinv : RInv (r.skip (pre.length + bf.length)) c B (pre ++ out) l.flatten af 0 := by
      refine ⟨h1, h2, h3, h4, h5, Or.inl ⟨rfl, le_refl _, l.flatten, ?_, by simp [BComp.skip], by omega⟩⟩
      simp only [BComp.skip, Flat.skip, h5, q1]
      rw [← List.drop_drop, List.drop_left, List.append_assoc, List.drop_left]
      unfold zipItem
      rw [if_neg hne]
    obtain ⟨r1, p1, e1, hi1, _⟩ := reads_spec hB0 hc v.2 _ 0 hinv
    obtain ⟨r2, e2⟩ := ih r1 hi1.codec hi1.bsize hi1.susp hi1.mode hi1.data (fun v hv => hvs v (List.mem_cons_of_mem _ hv))
    refine ⟨r2, ?_⟩
    simp only [List.map_cons, BComp.visits, hp, e1, e2, hld]

/-- **C20**: while an item is written, its position is told only when no data is kept in memory, and is then the end of the blocks written; otherwise it is refused. -/
theorem C20_position (c : Codec) (B : Nat) (hB : 100 ≤ B) (hc : c.Lawful B) (pre : Bytes) (l : List Bytes) :
    ∃ w w', bcompNew c B false ⟨pre, pre.length⟩ = .ok w ∧ w.writes l = .ok w' ∧
      w'.position = if l.flatten.length % B = 0 then .ok (pre ++ zipBlocks c B l.flatten).length else .error .bug := by
  have hB0 : 0 < B := by omega
  obtain ⟨w', e, hi, _⟩ := WInv.writes (pre := pre) hB0 hc l ⟨c, B, false, false, false, [], 0, false, ⟨pre, pre.length⟩⟩ []
    ⟨rfl, rfl, rfl, rfl, [], 0, rfl, by simp, by simpa using hB0, by simp [zipBlocks_nil]⟩ (by simp)
  refine ⟨_, w', by unfold bcompNew; rw [if_neg (by omega)], e, ?_⟩
  obtain ⟨h1, h2, h3, h4, w, k, hd, hw, hb, hf⟩ := hi
  rw [List.nil_append] at hd
  have hm : l.flatten.length % B = w'.clear.length := by
    rw [hd, List.length_append, hw, Nat.add_comm, Nat.add_mul_mod_self_right, Nat.mod_eq_of_lt hb]
  unfold BComp.position
  rw [h3, hm, if_neg (by simp)]
  by_cases hcl : w'.clear = []
  · rw [if_pos hcl, if_pos (by rw [hcl]; rfl), hf, hd, hcl, List.append_nil]
  · rw [if_neg hcl, if_neg (by rw [List.length_eq_zero_iff]; exact hcl)]

/-- A toy codec: a byte in front. -/
private def toyCodec : Codec where
  zip x := 7 :: x
  unzip z := match z with
    | 7 :: x => .ok x
    | _ => .error .data
  room n := n + 1

private theorem toyCodec_lawful (B : Nat) (hB : B < 2 ^ 63) : toyCodec.Lawful B :=
  ⟨fun _ _ _ => rfl, fun _ _ _ => by simp [toyCodec], fun x _ h => by simp only [toyCodec, List.length_cons]; omega, by simp only [toyCodec]; omega⟩

example : ∃ c : Codec, c.Lawful 100 ∧ c.zip [1, 2] ≠ [1, 2] := ⟨toyCodec, toyCodec_lawful 100 (by decide), by decide⟩

/-- the hypotheses of the theorems above, for two items visited three times -/
example : toyCodec.Lawful 100 ∧ ∀ v ∈ [(0, [1]), (1, [3]), (0, [2, 5])], ∃ l, ([[[1, 2], [9]], [[3]]] : List (List Bytes))[v.1]? = some l ∧ l.flatten ≠ [] :=
  ⟨toyCodec_lawful 100 (by decide), by
    intro v hv
    simp only [List.mem_cons, List.not_mem_nil, or_false] at hv
    rcases hv with rfl | rfl | rfl
    · exact ⟨_, rfl, by decide⟩
    · exact ⟨_, rfl, by decide⟩
    · exact ⟨_, rfl, by decide⟩⟩

/-- Each item must hold some data: nothing is stored for an empty item, reading at its position gives the data of the next
one. -/
theorem C20_empty_counterexample :
    toyCodec.Lawful 100 ∧ ∃ w w' r r', bcompNew toyCodec 100 false ⟨[], 0⟩ = .ok w ∧ w.items [[], [[5, 6]]] = .ok (w', [0, 0]) ∧
      bcompNew toyCodec 100 true w'.file = .ok r ∧ (r.skip 0).reads [10] = .ok (r', [[5, 6]]) := by
  refine ⟨toyCodec_lawful 100 (by decide), ?_⟩
  have hz : zipItem toyCodec 100 [5, 6] = cbhDump 1 3 ++ [7, 5, 6] ++ cbhDump 2 0 := by
    unfold zipItem
    rw [if_neg (by simp), zipBlocks_short toyCodec 100 [5, 6] (by decide) (by simp) (by decide)]
    rfl
  obtain ⟨w, w', ps, e1, e2, e3, h⟩ := C20_items toyCodec 100 (by decide) (toyCodec_lawful 100 (by decide)) [] [[], [[5, 6]]]
  obtain ⟨p, next, r, r', h1, h2, h3, h4, _⟩ := h 1 (by decide) (by decide) [10]
  have hw : w = ⟨toyCodec, 100, false, false, false, [], 0, false, ⟨[], 0⟩⟩ := by
    unfold bcompNew at e1; rw [if_neg (by decide)] at e1; cases e1; rfl
  have hready : BcReady w toyCodec 100 [] := by subst hw; exact ⟨rfl, rfl, rfl, rfl, rfl, rfl, rfl⟩
  obtain ⟨b1, i1, r1⟩ := bcItem_spec (by decide) (toyCodec_lawful 100 (by decide)) hready []
  have hz0 : zipItem toyCodec 100 ([] : List Bytes).flatten = [] := by simp [zipItem, zipBlocks_nil]
  rw [hz0, List.append_nil] at r1
  obtain ⟨b2, i2, r2⟩ := bcItem_spec (by decide) (toyCodec_lawful 100 (by decide)) r1 [[5, 6]]
  have hps : w.items [[], [[5, 6]]] = .ok (b2, [0, 0]) := by
    simp only [BComp.items, i1, i2, List.length_nil]
  rw [hps] at e2
  cases e2
  simp only [List.getElem?_cons_succ, List.getElem?_cons_zero] at h1
  cases h1
  exact ⟨w, w', r, r', e1, hps, h3, h4⟩

/-- Damage in a block header is never taken for data: an unknown block type, an end marker with a size, an empty block or a block
larger than the buffer end in an error, whatever the rest of the file. -/
theorem C20_damaged_header (b : BComp) (t : UInt8) (n : Nat) (rest : Bytes) (hro : b.suspended = false) (hr : b.reof = false)
    (hcur : b.cursor = b.clear.length) (hd : b.file.data.drop b.file.pos = cbhDump t n ++ rest)
    (hbad : (t ≠ 1 ∧ t ≠ 2) ∨ (t = 2 ∧ n ≠ 0) ∨ (t = 1 ∧ n = 0) ∨ (t = 1 ∧ n > b.codec.room b.B)) (k : Nat) (hk : k ≠ 0) :
    b.read k = .error .range := by
  unfold BComp.read
  rw [hro]
  simp only [Bool.false_eq_true, if_false]
  show BComp.readLoop (k + b.file.data.length + 1 + 1) b k = _
  unfold BComp.readLoop
  rw [if_neg (by rintro (h | h); exacts [hk h, by rw [hr] at h; cases h]), if_pos hcur]
  have : b.load = .error .range := by
    unfold BComp.load
    rw [hd, cbh_read]
    simp only
    rcases hbad with ⟨h1, h2⟩ | ⟨h1, h2⟩ | ⟨h1, h2⟩ | ⟨h1, h2⟩
    · rw [if_neg h1, if_neg h2]
    · subst h1; rw [if_neg (by decide)]; simp [h2]
    · subst h1; rw [if_pos (by rfl)]; subst h2; simp
    · subst h1; simp only [if_true]
      by_cases hb : n ≥ 2 ^ 64
      · rw [if_pos hb]
      · rw [if_neg hb, if_pos h2]
  rw [this]

/-- While compression is suspended, bytes go through unchanged, and suspending first completes the current item. -/
theorem C20_suspended (b : BComp) (hs : b.suspended = true) (a : Bytes) (n : Nat) (hr : b.reof = false) :
    (∃ b', b.write a = .ok b' ∧ b'.file = b.file.write a) ∧ (∃ b', b.read n = .ok (b', (b.file.read n).2) ∧ b'.file = (b.file.read n).1) := by
  constructor
  · exact ⟨_, by unfold BComp.write; rw [if_pos hs], rfl⟩
  · refine ⟨{ b with file := (b.file.read n).1 }, ?_, rfl⟩
    unfold BComp.read; rw [if_pos hs, hr]; simp

end Dar
