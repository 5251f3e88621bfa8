import Verif.Model.Tronc
import Verif.Spec.Window
import Verif.Lemmas.Flat
/- Property theorems C16 (a window never escapes its segment). -/
namespace Dar

theorem seg_get (d : Bytes) (s n i : Nat) : (segment d s n)[i]? = if i < n then d[s + i]? else none := by
  unfold segment; rw [List.getElem?_take, List.getElem?_drop]

theorem seg_len (d : Bytes) (s n : Nat) : (segment d s n).length = min n (d.length - s) := by simp [segment]

/-- Writing inside the window. -/
theorem seg_patch (d : Bytes) (s n p : Nat) (b : Bytes) (hs : s ≤ d.length) (hp : p + b.length ≤ n) :
    segment (patch d (s + p) b) s n = patch (segment d s n) p b := by
  by_cases hb : b = []
  · subst hb; simp [patch_nil]
  · have hl : 0 < b.length := List.length_pos_iff.mpr hb
    apply List.ext_getElem?
    intro i
    rw [seg_get, patch_get _ _ _ hb, patch_get _ _ _ hb, seg_get, seg_len]
    split_ifs <;> first | rfl | omega | (congr 1; omega) | (rw [get_none_of_len _ _ (by omega)])

theorem patch_take (d : Bytes) (off s : Nat) (b : Bytes) (h : s ≤ off) (hs : s ≤ d.length) : (patch d off b).take s = d.take s := by
  by_cases hb : b = []
  · subst hb; simp [patch_nil]
  · apply List.ext_getElem?
    intro i
    rw [List.getElem?_take, List.getElem?_take]
    split_ifs with hi
    · rw [patch_get _ _ _ hb, if_pos (by omega), if_pos (by omega)]
    · rfl

theorem patch_drop (d : Bytes) (off s : Nat) (b : Bytes) (h : off + b.length ≤ s) : (patch d off b).drop s = d.drop s := by
  by_cases hb : b = []
  · subst hb; simp [patch_nil]
  · apply List.ext_getElem?
    intro i
    rw [List.getElem?_drop, List.getElem?_drop, patch_get _ _ _ hb, if_neg (by omega), if_neg (by omega)]

theorem unstack32_spec (avail mac : Nat) (h : mac ≤ 2 ^ 32 - 1) : (unstack32 avail mac).1 + (unstack32 avail mac).2 = avail + mac ∧
    (unstack32 avail mac).2 ≤ 2 ^ 32 - 1 ∧ ((unstack32 avail mac).2 = 0 → avail + mac = 0) := by
  unfold unstack32; simp only; omega

theorem readLoop_tronc : ∀ (fuel : Nat) (ref : Flat) (avail mac want : Nat) (got : Bytes), want - got.length < fuel → mac ≤ 2 ^ 32 - 1 →
    troncReadLoop ref avail mac want got fuel =
      ((ref.read (min (want - got.length) (avail + mac))).1, got ++ (ref.read (min (want - got.length) (avail + mac))).2) := by
  intro fuel
  induction fuel with
  | zero => intro ref avail mac want got h; omega
  | succ fuel ih =>
    intro ref avail mac want got h hmac
    rw [troncReadLoop]
    have hus := unstack32_spec avail mac hmac
    generalize unstack32 avail mac = am at hus ⊢
    obtain ⟨a, m⟩ := am
    dsimp only at hus ⊢
    generalize hmi : troncMicro (want - got.length) m = micro
    have hmi2 : micro = min (want - got.length) m := by rw [← hmi]; unfold troncMicro; split_ifs <;> omega
    have hle : micro ≤ min (want - got.length) (avail + mac) := by omega
    by_cases h0 : micro > 0
    · rw [if_pos h0]
      by_cases h1 : (ref.read micro).2.length > 0
      · rw [if_pos h1]
        have hl : (ref.read micro).2.length ≤ micro := by simp [Flat.read]
        rw [ih _ _ _ _ _ (by rw [List.length_append]; omega) (by omega)]
        have hk : min (want - (got ++ (ref.read micro).2).length) (a + (m - (ref.read micro).2.length)) =
            min (want - got.length) (avail + mac) - (ref.read micro).2.length := by
          rw [List.length_append]; omega
        rw [hk]
        generalize hK : min (want - got.length) (avail + mac) = K at *
        have hL : (ref.read micro).2.length = min micro (ref.data.length - ref.pos) := by simp [Flat.read]
        generalize hLL : (ref.read micro).2.length = L at *
        have e1 : (ref.read micro).1 = ⟨ref.data, ref.pos + L⟩ := by rw [← hLL]; rfl
        have e2 : (ref.read micro).2 = (ref.data.drop ref.pos).take L := by
          rw [hL]; simp only [Flat.read]
          apply List.ext_getElem?; intro i
          rw [List.getElem?_take, List.getElem?_take, List.getElem?_drop]
          split_ifs <;> first | rfl | omega | (rw [get_none_of_len _ _ (by omega)])
        have e3 : (ref.data.drop ref.pos).take K = (ref.data.drop ref.pos).take L ++ (ref.data.drop (ref.pos + L)).take (K - L) := by
          rw [show K = L + (K - L) by omega, List.take_add, List.drop_drop]; simp
        rw [e1, e2]
        simp only [Flat.read, e3, List.append_assoc, List.length_append]
        congr 2
        have : ((ref.data.drop ref.pos).take L).length = L := by rw [List.length_take, List.length_drop]; omega
        omega
      · rw [if_neg h1]
        have hend : ref.data.length ≤ ref.pos := by
          simp [Flat.read] at h1; omega
        have hd : ref.data.drop ref.pos = [] := List.drop_eq_nil_of_le hend
        simp [Flat.read, hd]
    · rw [if_neg h0]
      have : min (want - got.length) (avail + mac) = 0 := by omega
      rw [this]; simp [Flat.read]

theorem writeLoop_tronc : ∀ (fuel : Nat) (ref : Flat) (avail mac : Nat) (b : Bytes), b.length < fuel → mac ≤ 2 ^ 32 - 1 →
    troncWriteLoop ref avail mac b fuel = (ref.write (b.take (avail + mac)), decide (b.length ≤ avail + mac)) := by
  intro fuel
  induction fuel with
  | zero => intro ref avail mac b h; omega
  | succ fuel ih =>
    intro ref avail mac b h hmac
    rw [troncWriteLoop]
    have hus := unstack32_spec avail mac hmac
    generalize unstack32 avail mac = am at hus ⊢
    obtain ⟨a, m⟩ := am
    dsimp only at hus ⊢
    by_cases h0 : m = 0 ∧ 0 < b.length
    · rw [if_pos h0]
      have : avail + mac = 0 := by omega
      rw [this]
      have hd : decide (b.length ≤ 0) = false := by simp; intro hh; subst hh; simp at h0
      simp [Flat.write, patch_nil]
      intro hh; subst hh; simp at h0
    · rw [if_neg h0]
      generalize hmi : troncMicro b.length m = micro
      have hmi2 : micro = min b.length m := by rw [← hmi]; unfold troncMicro; split_ifs <;> omega
      have htl : (b.take micro).length = micro := by rw [List.length_take]; omega
      by_cases h1 : 0 < (b.drop micro).length
      · rw [if_pos h1]
        rw [List.length_drop] at h1
        rw [ih _ _ _ _ (by rw [List.length_drop]; omega) (by omega)]
        have hk : a + (m - micro) = avail + mac - micro := by omega
        rw [hk]
        refine Prod.ext ?_ ?_
        · simp only [Flat.write, htl, List.length_take, List.length_drop]
          rw [show ref.pos + micro = ref.pos + (b.take micro).length by rw [htl], patch_append]
          have : b.take micro ++ (b.drop micro).take (avail + mac - micro) = b.take (avail + mac) := by
            rw [show avail + mac = micro + (avail + mac - micro) by omega, List.take_add]; simp
          rw [this, htl]
          congr 1; omega
        · simp only [List.length_drop]
          congr 1
          apply propext; omega
      · rw [if_neg h1]
        rw [List.length_drop] at h1
        have : micro = b.length := by omega
        rw [this, List.take_length, List.take_of_length_le (by omega)]
        simp; omega

/-- The window the user sees. -/
def Tronc.view (t : Tronc) : Flat := ⟨if t.limited then segment t.ref.data t.start t.sz else t.ref.data.drop t.start, t.current⟩

theorem Tronc.read_limited (t : Tronc) (hl : t.limited = true) (hc : t.check = true) (n : Nat) :
    t.read n = (⟨((t.ref.skip (t.start + t.current)).read (min n (t.sz - t.current))).1, t.start, t.sz,
      t.current + ((t.ref.skip (t.start + t.current)).read (min n (t.sz - t.current))).2.length, t.limited, t.check⟩,
      ((t.ref.skip (t.start + t.current)).read (min n (t.sz - t.current))).2) := by
  unfold Tronc.read
  simp only [hl, if_true, Tronc.sync, hc]
  rw [readLoop_tronc _ _ _ _ _ _ (by simp) (by omega)]
  simp

/-- One operation on a window of the code. -/
def Tronc.step (t : Tronc) : WinOp → Res (Tronc × WinAns)
  | .read n => .ok ((t.read n).1, .data (t.read n).2)
  | .write b => .ok ((t.write b).1, .flag (t.write b).2)
  | .skip p => .ok ((t.skip p).1, .flag (t.skip p).2)
  | .toEof => do let t ← t.skipEof; .ok (t, .flag true)
def Tronc.run (t : Tronc) : List WinOp → Res (Tronc × List WinAns)
  | [] => .ok (t, [])
  | o :: l => do let (t, a) ← t.step o; let (t, as) ← t.run l; .ok (t, a :: as)

/-- A window of fixed size, opened inside its file, whose position is in it. -/
structure Tronc.Inv (t : Tronc) : Prop where
  limited : t.limited = true
  check : t.check = true
  pos : t.current ≤ t.sz
  start : t.start ≤ t.ref.data.length

theorem tronc_step (t : Tronc) (h : t.Inv) (o : WinOp) :
    ∃ t', t.step o = .ok (t', (winStep t.sz t.view o).2) ∧ t'.Inv ∧ t'.sz = t.sz ∧ t'.start = t.start ∧ t'.view = (winStep t.sz t.view o).1 ∧
      t'.ref.data.take t.start = t.ref.data.take t.start ∧ t'.ref.data.drop (t.start + t.sz) = t.ref.data.drop (t.start + t.sz) := by
  have hlim := h.limited
  have hchk := h.check
  have hpos := h.pos
  have hst := h.start
  have hview : t.view = ⟨segment t.ref.data t.start t.sz, t.current⟩ := by simp [Tronc.view, hlim]
  cases o with
  | read n =>
    have e : ((t.ref.skip (t.start + t.current)).read (min n (t.sz - t.current))).2 =
        (t.view.read (min n (t.sz - t.current))).2 := by
      rw [hview]
      simp only [Flat.read, Flat.skip]
      apply List.ext_getElem?; intro i
      rw [List.getElem?_take, List.getElem?_take, List.getElem?_drop, List.getElem?_drop, seg_get]
      split_ifs <;> first | rfl | omega | (congr 1; omega)
    refine ⟨(t.read n).1, ?_, ?_⟩
    · simp only [Tronc.step, winStep]
      rw [Tronc.read_limited t hlim hchk, e, hview]
    · rw [Tronc.read_limited t hlim hchk, e]
      refine ⟨⟨hlim, hchk, ?_, hst⟩, rfl, rfl, ?_, rfl, rfl⟩
      · simp only [Flat.read, hview]; rw [List.length_take]; omega
      · simp only [winStep, hview]; simp [Tronc.view, hlim, Flat.read, Flat.skip]
  | write b =>
    have hw : t.write b = (if b.length ≤ t.sz - t.current then ({ t with ref := (t.ref.skip (t.start + t.current)).write b, current := t.current + b.length }, true)
        else ({ t with ref := (t.ref.skip (t.start + t.current)).write (b.take (t.sz - t.current)) }, false)) := by
      unfold Tronc.write
      simp only [hlim, if_true, Tronc.sync, hchk]
      rw [writeLoop_tronc _ _ _ _ _ (by omega) (by omega)]
      by_cases hb : b.length ≤ t.sz - t.current
      · simp [hb, List.take_of_length_le hb]
      · simp [hb]
    have hin : ∀ x : Bytes, x.length ≤ t.sz - t.current → segment (patch t.ref.data (t.start + t.current) x) t.start t.sz = patch (segment t.ref.data t.start t.sz) t.current x :=
      fun x hx => seg_patch _ _ _ _ _ hst (by omega)
    have hgrow : ∀ x : Bytes, t.start ≤ (patch t.ref.data (t.start + t.current) x).length := by
      intro x
      by_cases hx : x = []
      · subst hx; rw [patch_nil]; exact hst
      · rw [patch_length _ _ _ hx]; omega
    refine ⟨(t.write b).1, ?_, ?_⟩
    · simp only [Tronc.step, winStep, hw, hview]
      by_cases hb : b.length ≤ t.sz - t.current
      · rw [if_pos hb, if_pos (by omega)]
      · rw [if_neg hb, if_neg (by omega)]
    · rw [hw]
      simp only [winStep, hview]
      by_cases hb : b.length ≤ t.sz - t.current
      · rw [if_pos hb, if_pos (by omega)]
        refine ⟨⟨hlim, hchk, by simp only; omega, hgrow b⟩, rfl, rfl, ?_, patch_take _ _ _ _ (Nat.le_add_right _ _) hst, patch_drop _ _ _ _ (show t.start + t.current + b.length ≤ _ by omega)⟩
        simp only [Tronc.view, hlim, if_true, Flat.write, Flat.skip, hin b hb]
      · rw [if_neg hb, if_neg (by omega)]
        have hx : (b.take (t.sz - t.current)).length ≤ t.sz - t.current := by rw [List.length_take]; omega
        refine ⟨⟨hlim, hchk, hpos, hgrow _⟩, rfl, rfl, ?_, patch_take _ _ _ _ (Nat.le_add_right _ _) hst, patch_drop _ _ _ _ (show t.start + t.current + (b.take (t.sz - t.current)).length ≤ _ by omega)⟩
        simp only [Tronc.view, hlim, if_true, Flat.write, Flat.skip, hin _ hx]
  | skip p =>
    refine ⟨(t.skip p).1, ?_⟩
    simp only [Tronc.step, winStep, hview]
    unfold Tronc.skip
    by_cases h1 : t.current = p ∧ t.check = true
    · rw [if_pos h1, if_neg (by omega)]
      refine ⟨rfl, h, rfl, rfl, by rw [hview, h1.1], rfl, rfl⟩
    · rw [if_neg h1]
      by_cases h2 : p > t.sz
      · rw [if_pos ⟨hlim, h2⟩, if_pos h2]
        exact ⟨rfl, ⟨hlim, hchk, le_refl _, hst⟩, rfl, rfl, by simp [Tronc.view, hlim, Flat.skip], rfl, rfl⟩
      · rw [if_neg (fun hh => h2 hh.2), if_neg h2]
        exact ⟨rfl, ⟨hlim, hchk, by simp only; omega, hst⟩, rfl, rfl, by simp [Tronc.view, hlim, Flat.skip], rfl, rfl⟩
  | toEof =>
    refine ⟨{ t with ref := t.ref.skip (t.start + t.sz), current := t.sz }, ?_, ⟨hlim, hchk, le_refl _, hst⟩, rfl, rfl, ?_, rfl, rfl⟩
    · simp only [Tronc.step, Tronc.skipEof, hlim, if_true]; rfl
    · simp [Tronc.view, hlim, Flat.skip, winStep, hview]

/-- **C16**: any session on a window of the file gives what the same session gives on a separate file holding only these
bytes and unable to grow; the bytes of the underlying file before and after the window never change. -/
theorem C16_session (l : List WinOp) : ∀ (t : Tronc), t.Inv →
    ∃ t', t.run l = .ok (t', (winRun t.sz ⟨segment t.ref.data t.start t.sz, t.current⟩ l).2) ∧
      segment t'.ref.data t.start t.sz = (winRun t.sz ⟨segment t.ref.data t.start t.sz, t.current⟩ l).1.data ∧
      t'.current = (winRun t.sz ⟨segment t.ref.data t.start t.sz, t.current⟩ l).1.pos ∧ t'.current ≤ t.sz ∧
      t'.ref.data.take t.start = t.ref.data.take t.start ∧ t'.ref.data.drop (t.start + t.sz) = t.ref.data.drop (t.start + t.sz) := by
  induction l with
  | nil => intro t h; exact ⟨t, rfl, rfl, rfl, h.pos, rfl, rfl⟩
  | cons o l ih =>
    intro t h
    obtain ⟨t1, s1, i1, z1, st1, v1, p1, d1⟩ := tronc_step t h o
    have hview : t.view = ⟨segment t.ref.data t.start t.sz, t.current⟩ := by simp [Tronc.view, h.limited]
    have hview1 : t1.view = ⟨segment t1.ref.data t1.start t1.sz, t1.current⟩ := by simp [Tronc.view, i1.limited]
    obtain ⟨t2, r1, r2, r3, r4, r5, r6⟩ := ih t1 i1
    rw [← hview1, v1, z1] at r1 r2 r3
    rw [st1] at r2 r5 r6
    rw [z1] at r4 r6
    rw [← hview]
    refine ⟨t2, ?_, r2, r3, r4, r5.trans p1, r6.trans d1⟩
    rw [Tronc.run, s1]
    change (t1.run l >>= fun x => Except.ok (x.1, (winStep t.sz t.view o).2 :: x.2)) = _
    rw [r1]; rfl

/-- A window just opened. -/
theorem C16_open (f : Flat) (start size : Nat) (h : start ≤ f.data.length) : (troncNew f start size).Inv :=
  ⟨rfl, rfl, le_refl _, h⟩

/-- **C16**: moving or resizing a window: the file is not touched, the window is in order (so that all the rest applies to it)
and the offset of the underlying file where one was is kept, or replaced by the nearest one inside the new window. -/
theorem C16_modify (t : Tronc) (hc : t.check = true) (start size : Nat) (h : start ≤ t.ref.data.length) :
    (t.modify start size).Inv ∧ (t.modify start size).ref = t.ref ∧ (t.modify start size).start = start ∧ (t.modify start size).sz = size ∧
      (t.modify start size).start + (t.modify start size).current = max start (min (t.start + t.current) (start + size)) := by
  refine ⟨⟨rfl, hc, ?_, h⟩, rfl, rfl, rfl, ?_⟩
  · simp only [Tronc.modify, Tronc.modifyOpen]; split_ifs <;> omega
  · simp only [Tronc.modify, Tronc.modifyOpen]; split_ifs <;> omega

/-- **C16**: a window without size limit: reading, writing and seeking are those of the file starting there. -/
theorem C16_unlimited (t : Tronc) (hl : t.limited = false) (hc : t.check = true) (hs : t.start ≤ t.ref.data.length) :
    (∀ n, (t.read n).2 = (t.view.read n).2 ∧ (t.read n).1.view = (t.view.read n).1) ∧
    (∀ b, (t.write b).1.view = t.view.write b ∧ (t.write b).1.ref.data.take t.start = t.ref.data.take t.start) ∧
    (∀ p, (t.skip p).2 = true ∧ (t.skip p).1.view = t.view.skip p) ∧
    (∃ t', t.skipEof = .ok t' ∧ t'.view = t.view.skipEof) := by
  have hview : t.view = ⟨t.ref.data.drop t.start, t.current⟩ := by simp [Tronc.view, hl]
  refine ⟨fun n => ?_, fun b => ?_, fun p => ?_, ?_⟩
  · rw [hview]; simp [Tronc.read, hl, Tronc.sync, hc, Flat.read, Flat.skip, Tronc.view, List.drop_drop]
  · constructor
    · rw [hview]
      simp only [Tronc.write, hl, Tronc.sync, hc, Tronc.view, Flat.write, Flat.skip, if_true, Bool.false_eq_true, if_false]
      congr 1
      have h1 := seg_patch t.ref.data t.start (max (t.ref.data.length) (t.start + t.current + b.length)) t.current b hs (by omega)
      unfold segment at h1
      rw [List.take_of_length_le, List.take_of_length_le] at h1
      · exact h1
      · simp
      · by_cases hb : b = []
        · subst hb; simp [patch_nil]
        · rw [List.length_drop, patch_length _ _ _ hb]; omega
    · simp only [Tronc.write, hl, Tronc.sync, hc, Flat.write, Flat.skip, if_true, Bool.false_eq_true, if_false]
      exact patch_take _ _ _ _ (by omega) hs
  · rw [hview]
    unfold Tronc.skip
    by_cases h1 : t.current = p ∧ t.check = true
    · rw [if_pos h1]; exact ⟨rfl, by rw [hview, h1.1]; rfl⟩
    · rw [if_neg h1]; simp [hl, Tronc.view, Flat.skip]
  · unfold Tronc.skipEof Tronc.setBack
    simp only [hl, Bool.false_eq_true, if_false, Flat.skipEof, false_and]
    rw [if_neg (by omega)]
    exact ⟨_, rfl, by simp [Tronc.view, hl]⟩

/-- **C16**: relative seeks, when the file below is at the place of the window position. -/
theorem C16_relative (t : Tronc) (h : t.Inv) (hp : t.ref.pos = t.start + t.current) (x : Int) (h1 : 0 ≤ (t.current : Int) + x) (h2 : (t.current : Int) + x < t.sz) :
    (t.skipRel x).2 = true ∧ ((t.skipRel x).1.current : Int) = t.current + x ∧ (t.skipRel x).1.Inv ∧
      (t.skipRel x).1.ref.data = t.ref.data ∧ (t.skipRel x).1.ref.pos = t.start + (t.skipRel x).1.current := by
  have hl := h.limited
  have hpos := h.pos
  unfold Tronc.skipRel
  by_cases hn : x < 0
  · rw [if_pos hn, if_neg (by omega)]
    have hr : t.ref.skipRel x = ({ t.ref with pos := t.ref.pos - x.natAbs }, true) := by
      unfold Flat.skipRel; rw [if_pos hn, if_neg (by omega)]
    simp only [hr, if_true]
    exact ⟨trivial, by omega, ⟨hl, h.check, by simp only; omega, h.start⟩, trivial, by omega⟩
  · rw [if_neg hn]
    by_cases hz : x > 0
    · rw [if_pos hz, if_neg (by omega)]
      have hr : t.ref.skipRel x = ({ t.ref with pos := t.ref.pos + x.natAbs }, true) := by
        unfold Flat.skipRel; rw [if_neg hn]
      simp only [hr, if_true]
      exact ⟨trivial, by omega, ⟨hl, h.check, by simp only; omega, h.start⟩, trivial, by omega⟩
    · rw [if_neg hz]
      exact ⟨rfl, by show (t.current : Int) = _; omega, h, rfl, hp⟩

/-- **C16**: a relative seek never leaves the window nor changes the file. -/
theorem C16_relative_confined (t : Tronc) (h : t.Inv) (x : Int) : (t.skipRel x).1.Inv ∧ (t.skipRel x).1.ref.data = t.ref.data := by
  have hl := h.limited
  have hpos := h.pos
  have hd : ∀ x, (t.ref.skipRel x).1.data = t.ref.data := by intro x; unfold Flat.skipRel; split_ifs <;> rfl
  have key : ∀ r : Flat, r.data = t.ref.data → ∀ c ≤ t.sz, ({ t with ref := r, current := c } : Tronc).Inv ∧ r.data = t.ref.data :=
    fun r hr c hc => ⟨⟨hl, h.check, hc, by simp only; rw [hr]; exact h.start⟩, hr⟩
  unfold Tronc.skipRel
  split_ifs with a b c d e f
  · exact key (t.ref.skip t.start) rfl _ (Nat.zero_le _)
  · exact key _ (hd x) _ (by omega)
  · exact key ((t.ref.skipRel x).1.skip (t.start + t.current)) (hd x) _ hpos
  · exact key (t.ref.skip (t.start + t.sz)) rfl _ (le_refl _)
  · exact key _ (hd x) _ (by rcases not_and_or.mp e with h | h; exact absurd hl h; omega)
  · exact key ((t.ref.skipRel x).1.skip (t.start + t.current)) (hd x) _ hpos
  · exact ⟨h, rfl⟩

/-- Moving forward to exactly the end of the window by a relative seek is reported as a failure, whereas an absolute seek
to the same place is a success. -/
theorem C16_relative_end_counterexample :
    ((troncNew ⟨[1, 2, 3, 4, 5, 6], 0⟩ 1 4).skip 0).1.skipRel 4 = (⟨⟨[1, 2, 3, 4, 5, 6], 5⟩, 1, 4, 4, true, true⟩, false) ∧
    (((troncNew ⟨[1, 2, 3, 4, 5, 6], 0⟩ 1 4).skip 0).1.skip 4).2 = true := by decide

/-- A window just opened is at its end, from where a backward relative seek inside the window fails when the underlying file
has not been moved. -/
theorem C16_relative_fresh_counterexample :
    (troncNew ⟨[1, 2, 3, 4, 5, 6], 0⟩ 1 4).skipRel (-2) = (⟨⟨[1, 2, 3, 4, 5, 6], 5⟩, 1, 4, 4, true, true⟩, false) := by decide

/-- A window over bytes 2..5: reading to the end and over, writing inside, writing over the end, seeking outside. -/
def c16Ops : List WinOp := [.skip 1, .read 10, .skip 2, .write [91], .write [92, 93], .skip 7, .read 1, .skip 0, .read 4]
example : (troncNew ⟨[0, 1, 2, 3, 4, 5, 6, 7], 0⟩ 2 4).Inv := C16_open _ _ _ (by decide)
example : ∃ t', (troncNew ⟨[0, 1, 2, 3, 4, 5, 6, 7], 0⟩ 2 4).run c16Ops = .ok (t', [.flag true, .data [3, 4, 5], .flag true, .flag true, .flag false,
    .flag false, .data [], .flag true, .data [2, 3, 91, 92]]) ∧ t'.ref.data = [0, 1, 2, 3, 91, 92, 6, 7] := ⟨_, rfl, rfl⟩

end Dar
