import Verif.Model.Cache
import Verif.Lemmas.Flat
/- Lemmas on the cache. -/
namespace Dar

/-- The file the user of the cache sees. -/
def Cache.view (c : Cache) : Bytes := if c.pending then patch c.ref.data (c.off + c.ftw) (c.buf.drop c.ftw) else c.ref.data
def Cache.abs (c : Cache) : Flat := ⟨c.view, c.pos⟩

structure Cache.Inv (c : Cache) : Prop where
  size : 10 ≤ c.size
  next : c.next ≤ c.last
  last : c.last ≤ c.size
  ftw : c.ftw = c.size ∨ (c.ftw ≤ c.next ∧ c.ftw < c.last)
  same : ∀ i, i < c.last → i < c.ftw → c.ref.data[c.off + i]? = c.buf[i]?
  refpos : c.pending = false → c.ref.pos = c.off + c.last
  ro : c.mode = .ro → c.ftw = c.size
  eof : c.eof = 0 ∨ (c.eof = c.ref.data.length ∧ c.pending = false)

theorem Cache.not_pending_of_size (c : Cache) (h : c.last ≤ c.size) (hf : c.ftw = c.size) : c.pending = false := by
  unfold Cache.pending; rw [hf]; simp; exact h

theorem Cache.Inv.pending_iff {c : Cache} (h : c.Inv) : c.pending = true ↔ c.ftw ≠ c.size := by
  rcases h.ftw with h1 | h1
  · rw [c.not_pending_of_size h.last h1]; simp [h1]
  · have : c.pending = true := by unfold Cache.pending; simp; exact h1.2
    rw [this]; have := h.last; simp; omega

/-- What is in the cache is what the user sees. -/
theorem Cache.Inv.view_get {c : Cache} (h : c.Inv) (i : Nat) (hi : i < c.last) : c.view[c.off + i]? = c.buf[i]? := by
  unfold Cache.view
  by_cases hp : c.pending = true
  · rw [if_pos hp]
    have hlt : c.ftw < c.last := by unfold Cache.pending at hp; simpa using hp
    have hne : c.buf.drop c.ftw ≠ [] := by
      intro hh; have := congrArg List.length hh; simp at this; unfold Cache.last at hlt; omega
    rw [patch_get _ _ _ hne]
    by_cases h1 : i < c.ftw
    · have hs := h.same i hi h1
      rw [if_pos (by omega)]
      by_cases h2 : c.off + i < c.ref.data.length
      · rw [if_pos h2, hs]
      · rw [get_none_of_len _ _ h2] at hs
        unfold Cache.last at hi
        rw [List.getElem?_eq_getElem hi] at hs; cases hs
    · rw [if_neg (by omega), if_pos (by unfold Cache.last at hi; simp; omega), List.getElem?_drop]
      congr 1; omega
  · rw [if_neg hp]
    have hf : c.ftw = c.size := by by_contra hc; exact hp (h.pending_iff.mpr hc)
    exact h.same i hi (by have := h.last; omega)

theorem Cache.Inv.drop_view {c : Cache} (h : c.Inv) (k m : Nat) (hm : k + m ≤ c.last) :
    (c.view.drop (c.off + k)).take m = (c.buf.drop k).take m := by
  apply List.ext_getElem?
  intro i
  rw [List.getElem?_take, List.getElem?_take, List.getElem?_drop, List.getElem?_drop]
  split_ifs with hi
  · rw [Nat.add_assoc]; exact h.view_get (k + i) (by omega)
  · rfl

/-! ### Flushing -/

theorem shift_spec (c : Cache) (h : c.Inv) (hp : c.pending = false) :
    ∃ c', c.shiftByHalf = .ok c' ∧ c'.Inv ∧ c'.ref = c.ref ∧ c'.pending = false ∧ c'.pos = c.pos ∧ c'.mode = c.mode ∧ c'.size = c.size ∧
      c'.shifted = c.shifted ∧ c'.eof = c.eof ∧ c'.off + c'.last = c.off + c.last ∧ (c.next = c.last → c'.last ≤ c.size / 2) ∧ c'.last ≤ c.last := by
  have hf : c.ftw = c.size := by by_contra hc; rw [h.pending_iff.mpr hc] at hp; cases hp
  unfold Cache.shiftByHalf
  by_cases h0 : c.last ≤ c.size / 2
  · rw [if_pos h0]; exact ⟨c, rfl, h, rfl, hp, rfl, rfl, rfl, rfl, rfl, rfl, fun _ => h0, le_refl _⟩
  · rw [if_neg h0]
    generalize hsh : (if c.next < c.last - c.size / 2 then c.next else c.last - c.size / 2) = sh
    have hle : sh ≤ c.next ∧ sh ≤ c.last - c.size / 2 := by split_ifs at hsh <;> omega
    have hl := h.last
    have hn := h.next
    simp only
    rw [if_neg (by omega), if_neg (by omega)]
    have hlast : (⟨c.mode, c.size, c.shifted, c.buf.drop sh, c.next - sh, c.ftw, c.off + sh, c.eof, c.ref⟩ : Cache).last = c.last - sh := by
      simp [Cache.last]
    have hnp : (⟨c.mode, c.size, c.shifted, c.buf.drop sh, c.next - sh, c.ftw, c.off + sh, c.eof, c.ref⟩ : Cache).pending = false :=
      Cache.not_pending_of_size _ (by rw [hlast]; simp only; omega) hf
    refine ⟨_, rfl, ?_, rfl, hnp, by simp only [Cache.pos]; omega, rfl, rfl, rfl, rfl, by rw [hlast]; simp only; omega,
      fun hh => by rw [hlast]; split_ifs at hsh <;> omega, by rw [hlast]; omega⟩
    refine ⟨h.size, by rw [hlast]; simp only; omega, by rw [hlast]; simp only; omega, .inl hf, ?_, ?_, fun _ => hf, ?_⟩
    · intro i hi _
      rw [hlast] at hi
      simp only
      rw [List.getElem?_drop, Nat.add_assoc]
      exact h.same (sh + i) (by omega) (by omega)
    · intro _; rw [hlast]; simp only; rw [h.refpos hp]; omega
    · rcases h.eof with he | he
      · exact .inl he
      · exact .inr ⟨he.1, hnp⟩

theorem clear_spec (c : Cache) (h : c.Inv) (hp : c.pending = false) :
    ∃ c', c.clearBuffer = .ok c' ∧ c' = { c with off := c.off + c.next, next := 0, buf := [] } ∧ (c.next = c.last → c'.Inv) := by
  unfold Cache.clearBuffer
  rw [if_neg (by rw [hp]; simp)]
  refine ⟨_, rfl, rfl, fun hn => ?_⟩
  have hf : c.ftw = c.size := by by_contra hc; rw [h.pending_iff.mpr hc] at hp; cases hp
  refine ⟨h.size, Nat.zero_le _, Nat.zero_le _, .inl hf, fun i hi => by simp [Cache.last] at hi, fun _ => ?_, fun _ => hf, ?_⟩
  · simp only [Cache.last, List.length_nil, Nat.add_zero]; rw [h.refpos hp, hn]
  · rcases h.eof with he | he
    · exact .inl he
    · exact .inr ⟨he.1, by simp [Cache.pending, Cache.last]⟩

theorem flushPart_spec (c : Cache) (h : c.Inv) (hp : c.pending = true) :
    c.flushPart.Inv ∧ c.flushPart.pending = false ∧ c.flushPart.ref.data = c.view ∧ c.flushPart.next = c.flushPart.last ∧
      c.flushPart.off = c.off ∧ c.flushPart.last = c.last ∧ c.flushPart.size = c.size ∧ c.flushPart.mode = c.mode ∧
      c.flushPart.shifted = c.shifted ∧ c.flushPart.eof = 0 := by
  have hlt : c.ftw < c.last := by unfold Cache.pending at hp; simpa using hp
  have he : c.eof = 0 := by rcases h.eof with he | he; exact he; rw [hp] at he; cases he.2
  have hd : c.flushPart.ref.data = c.view := by
    unfold Cache.flushPart Cache.view
    simp only [if_pos hp, Flat.write, Flat.skip]
  have hvl : c.ftw ≤ c.last := by omega
  have e : c.flushPart = { c with ref := ⟨c.view, c.off + c.last⟩, ftw := c.size, next := c.last } := by
    unfold Cache.flushPart Cache.view
    simp only [if_pos hp, Flat.write, Flat.skip]
    congr 2
    simp only [List.length_drop]; unfold Cache.last at *; omega
  have hnp : c.flushPart.pending = false := by
    rw [e]; exact Cache.not_pending_of_size _ h.last rfl
  refine ⟨?_, hnp, hd, by rw [e]; rfl, by rw [e], by rw [e]; rfl, by rw [e], by rw [e], by rw [e], by rw [e]; exact he⟩
  refine ⟨?_, ?_, ?_, ?_, ?_, ?_, ?_, ?_⟩
  · rw [e]; exact h.size
  · rw [e]; exact le_refl _
  · rw [e]; exact h.last
  · rw [e]; exact .inl rfl
  · rw [e]; intro i hi _; exact h.view_get i hi
  · rw [e]; intro _; rfl
  · rw [e]; intro _; rfl
  · rw [e]; exact .inl he

/-- Flushing pending data: the file below gets the content the user sees; the position is the end of the cached data. -/
theorem flush_spec (c : Cache) (h : c.Inv) (hp : c.pending = true) :
    ∃ c', c.flushWrite = .ok c' ∧ c'.Inv ∧ c'.pending = false ∧ c'.ref.data = c.view ∧ c'.off + c'.last = c.off + c.last ∧ c'.next = c'.last ∧
      c'.mode = c.mode ∧ c'.size = c.size ∧ c'.eof = 0 ∧ c'.last ≤ c.size / 2 := by
  have hm : c.mode ≠ .ro := fun hm => by have := h.ro hm; exact (h.pending_iff.mp hp) this
  obtain ⟨i1, i2, i3, i4, i5, i6, i7, i8, i9, i10⟩ := flushPart_spec c h hp
  unfold Cache.flushWrite
  rw [if_neg hm]
  split_ifs
  · obtain ⟨c', j1, j2, j3, j4, j5, j6, j7, j8, j9, j10, j11, j12⟩ := shift_spec _ i1 i2
    have := j5
    simp only [Cache.pos] at this
    refine ⟨c', j1, j2, j4, by rw [j3]; exact i3, by omega, by omega, by rw [j6, i8], by rw [j7, i7], by rw [j9, i10], ?_⟩
    rw [← i7]; exact j11 i4
  · obtain ⟨c', j1, j2, j3⟩ := clear_spec _ i1 i2
    have hinv := j3 i4
    refine ⟨c', j1, hinv, ?_, ?_, ?_, ?_, ?_, ?_, ?_, ?_⟩
    · rw [j2]; simp [Cache.pending, Cache.last]
    · rw [j2]; exact i3
    · rw [j2]; simp only [Cache.last, List.length_nil]; rw [i4, i5, i6]; rfl
    · rw [j2]; rfl
    · rw [j2]; exact i8
    · rw [j2]; exact i7
    · rw [j2]; exact i10
    · rw [j2]; exact Nat.zero_le _

theorem view_of_clean (c : Cache) (h : c.pending = false) : c.view = c.ref.data := by unfold Cache.view; rw [if_neg (by rw [h]; simp)]

/-- flushIfNeeded when the position is at the end of the cached data -/
theorem flushIfNeeded_spec (c : Cache) (h : c.Inv) :
    ∃ c', c.flushIfNeeded = .ok c' ∧ c'.Inv ∧ c'.pending = false ∧ c'.view = c.view ∧ c'.off + c'.last = c.off + c.last ∧
      (c.next = c.last → c'.next = c'.last) ∧ c'.mode = c.mode ∧ c'.size = c.size ∧
      (c' = c ∨ (c'.last ≤ c.size / 2 ∧ c.pending = true)) := by
  unfold Cache.flushIfNeeded
  by_cases hp : c.pending = true
  · rw [if_pos hp]
    obtain ⟨c', h1, h2, h3, h4, h5, h6, h7, h8, h9, h10⟩ := flush_spec c h hp
    exact ⟨c', h1, h2, h3, by rw [view_of_clean c' h3, h4], h5, fun _ => h6, h7, h8, .inr ⟨h10, hp⟩⟩
  · rw [if_neg hp]
    have hp' : c.pending = false := by simpa using hp
    exact ⟨c, rfl, h, hp', rfl, rfl, fun h => h, rfl, rfl, .inl rfl⟩

/-! ### Reading -/

theorem fill_spec (c : Cache) (hsz : 10 ≤ c.size) (hl : c.last ≤ c.size) (hf : c.ftw = c.size)
    (hs : ∀ i, i < c.last → c.ref.data[c.off + i]? = c.buf[i]?) (hr : c.ref.pos = c.off + c.last)
    (he : c.eof = 0 ∨ c.eof = c.ref.data.length) (hn : c.next ≤ c.fill.last) :
    c.fill.Inv ∧ c.fill.pending = false ∧ c.fill.view = c.ref.data ∧ c.fill.pos = c.pos ∧ c.fill.mode = c.mode ∧ c.fill.size = c.size ∧
      c.fill.last = c.last + min (c.size - c.last) (c.ref.data.length - (c.off + c.last)) ∧ c.fill.ref.data = c.ref.data ∧ c.fill.off = c.off := by
  have e : c.fill = ⟨c.mode, c.size, c.shifted, c.buf ++ (c.ref.data.drop c.ref.pos).take (c.size - c.last), c.next, c.ftw, c.off, c.eof,
      ⟨c.ref.data, c.ref.pos + ((c.ref.data.drop c.ref.pos).take (c.size - c.last)).length⟩⟩ := rfl
  have hlast : c.fill.last = c.last + min (c.size - c.last) (c.ref.data.length - (c.off + c.last)) := by
    rw [e]; simp [Cache.last, hr]
  have hnp : c.fill.pending = false := Cache.not_pending_of_size _ (by rw [hlast]; rw [e]; simp only; omega) (by rw [e]; exact hf)
  refine ⟨⟨?_, hn, ?_, ?_, ?_, ?_, ?_, ?_⟩, hnp, view_of_clean _ hnp, rfl, rfl, rfl, hlast, rfl, rfl⟩
  · exact hsz
  · rw [hlast, e]; simp only; omega
  · exact .inl hf
  · intro i hi _
    rw [hlast] at hi
    rw [e]
    simp only
    rw [List.getElem?_append]
    split_ifs with h1
    · exact hs i h1
    · rw [List.getElem?_take, List.getElem?_drop, hr]
      change ¬ i < c.last at h1
      have hlb : c.buf.length = c.last := rfl
      rw [hlb, if_pos (by omega)]
      congr 1; omega
  · intro _; rw [hlast, e]; simp only; rw [hr]; simp; omega
  · intro _; exact hf
  · rcases he with he | he
    · exact .inl he
    · exact .inr ⟨he, hnp⟩

/-- Filling an exhausted cache. -/
theorem fulfill_spec (c : Cache) (h : c.Inv) (hp : c.pending = false) (hn : c.next = c.last) (hm : c.mode ≠ .wo)
    (he : c.eof = 0 ∨ c.off + c.last < c.eof) :
    ∃ c', c.fulfillRead = .ok c' ∧ c'.Inv ∧ c'.pending = false ∧ c'.view = c.view ∧ c'.pos = c.pos ∧ c'.mode = c.mode ∧ c'.size = c.size ∧
      (c'.next ≥ c'.last → c.view.length ≤ c.pos) := by
  unfold Cache.fulfillRead
  rw [if_neg hm]
  have hf : c.ftw = c.size := by by_contra hc; rw [h.pending_iff.mpr hc] at hp; cases hp
  have room : ∃ c1, c.makeRoom = .ok c1 ∧ c1.Inv ∧ c1.pending = false ∧ c1.ref = c.ref ∧ c1.pos = c.pos ∧ c1.next = c1.last ∧
      c1.mode = c.mode ∧ c1.size = c.size ∧ c1.eof = c.eof ∧ c1.last ≤ c.size / 2 ∧ (c.last = 0 → c1.last = 0) := by
    unfold Cache.makeRoom
    split_ifs
    · obtain ⟨c', j1, j2, j3, j4, j5, j6, j7, j8, j9, j10, j11, j12⟩ := shift_spec c h hp
      have := j5
      simp only [Cache.pos] at this
      exact ⟨c', j1, j2, j4, j3, j5, by omega, j6, j7, j9, j11 hn, fun _ => by omega⟩
    · obtain ⟨c', j1, j2, j3⟩ := clear_spec c h hp
      refine ⟨c', j1, j3 hn, ?_, ?_, ?_, ?_, ?_, ?_, ?_, ?_, ?_⟩ <;> rw [j2] <;> simp [Cache.pending, Cache.last, Cache.pos]
  obtain ⟨c1, h1, i1, p1, r1, q1, n1, m1, s1, e1, l1, z1⟩ := room
  rw [h1]
  change ∃ c', Except.ok _ = Except.ok c' ∧ _
  have f1 : c1.ftw = c1.size := by by_contra hc; rw [i1.pending_iff.mpr hc] at p1; cases p1
  have hv : c.view = c1.ref.data := by rw [view_of_clean c hp, r1]
  have hsz := i1.size
  have pos1 : c1.off + c1.last = c.off + c.last := by simp only [Cache.pos] at q1; omega
  have ee : c1.eof = 0 ∨ c1.eof = c1.ref.data.length := by
    rcases h.eof with h | h
    · left; rw [e1, h]
    · right; rw [e1, r1]; exact h.1
  unfold Cache.seekFill
  by_cases hc : c1.eof ≠ 0 ∧ c1.off + c1.last + c1.size > c1.eof ∧ c1.next = c1.last ∧ decide (c.last = 0) = true
  · rw [if_pos hc]
    have z : c1.last = 0 := z1 (by simpa using hc.2.2.2)
    have hb : c1.buf = [] := List.length_eq_zero_iff.mp z
    have hlen : c1.eof = c1.ref.data.length := by rcases ee with h | h; exact absurd h hc.1; exact h
    have hlt : c1.off < c1.eof := by
      rcases he with he | he
      · exact absurd (e1.trans he) hc.1
      · omega
    by_cases hbig : c1.eof > c1.size
    · rw [if_pos hbig]
      generalize hcc : ({ c1 with next := c1.off + c1.size - c1.eof, off := c1.eof - c1.size, ref := c1.ref.skip (c1.eof - c1.size) } : Cache) = cc
      have hl0 : cc.last = 0 := by rw [← hcc]; exact z
      have hfl : cc.fill.last = cc.last + min (cc.size - cc.last) (cc.ref.data.length - (cc.off + cc.last)) := by
        rw [hl0, ← hcc]; simp [Cache.fill, Flat.read, Flat.skip, Cache.last, hb]
      have hn' : cc.next ≤ cc.fill.last := by
        rw [hfl, hl0, ← hcc]; simp only [Flat.skip]; omega
      obtain ⟨g1, g2, g3, g4, g5, g6, g7, g8, g9⟩ := fill_spec cc (by rw [← hcc]; exact hsz) (by omega) (by rw [← hcc]; exact f1)
        (fun i hi => by omega) (by rw [hl0, ← hcc]; rfl) (by rw [← hcc]; exact ee) hn'
      refine ⟨_, rfl, g1, g2, ?_, ?_, ?_, ?_, ?_⟩
      · rw [g3, hv, ← hcc]; rfl
      · rw [g4, ← q1, ← hcc]; simp only [Cache.pos]; omega
      · rw [g5, ← m1, ← hcc]
      · rw [g6, ← s1, ← hcc]
      · intro hge
        have hnn : cc.fill.next = cc.next := rfl
        rw [hfl, hl0, hnn, ← hcc] at hge
        simp only [Flat.skip] at hge
        omega
    · rw [if_neg hbig]
      generalize hcc : ({ c1 with next := c1.off, off := 0, ref := c1.ref.skip 0 } : Cache) = cc
      have hl0 : cc.last = 0 := by rw [← hcc]; exact z
      have hfl : cc.fill.last = cc.last + min (cc.size - cc.last) (cc.ref.data.length - (cc.off + cc.last)) := by
        rw [hl0, ← hcc]; simp [Cache.fill, Flat.read, Flat.skip, Cache.last, hb]
      have hn' : cc.next ≤ cc.fill.last := by
        rw [hfl, hl0, ← hcc]; simp only [Flat.skip]; omega
      obtain ⟨g1, g2, g3, g4, g5, g6, g7, g8, g9⟩ := fill_spec cc (by rw [← hcc]; exact hsz) (by omega) (by rw [← hcc]; exact f1)
        (fun i hi => by omega) (by rw [hl0, ← hcc]; rfl) (by rw [← hcc]; exact ee) hn'
      refine ⟨_, rfl, g1, g2, ?_, ?_, ?_, ?_, ?_⟩
      · rw [g3, hv, ← hcc]; rfl
      · rw [g4, ← q1, ← hcc]; simp only [Cache.pos]; omega
      · rw [g5, ← m1, ← hcc]
      · rw [g6, ← s1, ← hcc]
      · intro hge
        have hnn : cc.fill.next = cc.next := rfl
        rw [hfl, hl0, hnn, ← hcc] at hge
        simp only [Flat.skip] at hge
        omega
  · rw [if_neg hc]
    generalize hcc : ({ c1 with ref := c1.ref.skip (c1.off + c1.last) } : Cache) = cc
    have hl0 : cc.last = c1.last := by rw [← hcc]; rfl
    have hfl : cc.fill.last = cc.last + min (cc.size - cc.last) (cc.ref.data.length - (cc.off + cc.last)) := by
      rw [hl0, ← hcc]; simp [Cache.fill, Flat.read, Flat.skip, Cache.last]
    have hn' : cc.next ≤ cc.fill.last := by
      have : cc.next = c1.next := by rw [← hcc]
      rw [hfl]; omega
    obtain ⟨g1, g2, g3, g4, g5, g6, g7, g8, g9⟩ := fill_spec cc (by rw [← hcc]; exact hsz) (by rw [hl0, ← hcc]; exact i1.last) (by rw [← hcc]; exact f1)
      (fun i hi => by rw [hl0] at hi; rw [← hcc]; exact i1.same i hi (by have := i1.last; omega)) (by rw [hl0, ← hcc]; rfl) (by rw [← hcc]; exact ee) hn'
    refine ⟨_, rfl, g1, g2, ?_, ?_, ?_, ?_, ?_⟩
    · rw [g3, hv, ← hcc]; rfl
    · rw [g4, ← q1, ← hcc]; rfl
    · rw [g5, ← m1, ← hcc]
    · rw [g6, ← s1, ← hcc]
    · intro hge
      have hnn : cc.fill.next = c1.next := by rw [← hcc]; rfl
      have hoff : cc.off = c1.off := by rw [← hcc]
      have hsz2 : cc.size = c1.size := by rw [← hcc]
      have hd : cc.ref.data = c1.ref.data := by rw [← hcc]; rfl
      rw [hfl, hl0, hnn, hoff, hsz2, hd] at hge
      rw [hv, ← q1]
      simp only [Cache.pos]
      omega

end Dar
