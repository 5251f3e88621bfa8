import Verif.Lemmas.SaveFile
import Mathlib.Data.List.Induction
/- C67: a file that changes while it is saved is either read again until its data is the one of a single moment, or told dirty; the readings are bounded. -/
namespace Dar

/-- the loops, from any state met on the way -/
theorem saveLoop_spec {o : SaveOpts} {ev : Nat → ReadEv} {fic0 : FicRec} {a0 : ArchAt} : ∀ (n : Nat) (s : SaveSt) (outer : Bool), SaveInv o ev fic0 a0 s →
    (outer = true → s.arch.pos = a0.pos) → (outer = false → HeadAt o a0 s) →
    (o.repeatCount + (if fic0.compressed then 2 else 1) ≤ n + s.k) →
    (∃ r s', saveLoop o ev a0.pos n s outer = .ok r ∧ SaveInv o ev fic0 a0 s' ∧ SaveEnd o ev fic0 a0 s' r) ∨ saveLoop o ev a0.pos n s outer = .error .bug ∨ saveLoop o ev a0.pos n s outer = .error .range := by
  intro n
  induction n with
  | zero =>
    intro s outer h _ _ hn
    exfalso
    have h1 := h.counts
    have h2 := h.limit
    by_cases hc : fic0.compressed = true
    · rw [if_pos hc] at hn
      split at h1 <;> omega
    · rw [if_neg hc] at hn
      rw [if_neg (by tauto)] at h1
      omega
  | succ n ih =>
    intro s outer h ho hi hn
    have key : ∀ s1 : SaveSt, s1.k = s.k → SaveInv o ev fic0 a0 s1 → HeadAt o a0 s1 → ∀ F, (F = (saveTurn o a0.pos (ev s1.k) s1).bind fun r => match r with
        | .done r => .ok r
        | .again s' outer' => saveLoop o ev a0.pos n s' outer') →
        (∃ r s', F = .ok r ∧ SaveInv o ev fic0 a0 s' ∧ SaveEnd o ev fic0 a0 s' r) ∨ F = .error .bug ∨ F = .error .range := by
      intro s1 hk h1 hh F hF
      rcases saveTurn_spec h1 hh with ⟨st, e, ht⟩ | e | e
      · rw [e] at hF
        cases st with
        | done r => exact Or.inl ⟨r, s1, hF, h1, ht⟩
        | again s2 out2 =>
          obtain ⟨t1, t2, t3, t4⟩ := ht
          rw [hF]
          exact ih s2 out2 t1 t3 t4 (by omega)
      · rw [e] at hF; exact Or.inr (Or.inl hF)
      · rw [e] at hF; exact Or.inr (Or.inr hF)
    cases outer with
    | false => exact key s rfl h (hi rfl) _ rfl
    | true =>
      have hp := ho rfl
      refine key { s with arch := s.arch.write (o.header s.fic) } rfl ?_ ?_ _ rfl
      · exact ⟨write_len h.len _, Nat.le_trans h.after (Nat.le_add_right _ _), (by show (s.arch.write _).bytes.take _ = _; rw [write_take h.after h.len]; exact h.kept), h.dirty, h.origin, h.resave, h.counts, h.compr, h.limit⟩
      · refine ⟨s.fic, rfl, ?_, ?_⟩
        · show a0.pos + _ ≤ s.arch.pos + _
          omega
        · show ((s.arch.write (o.header s.fic)).bytes.drop a0.pos).take _ = _
          rw [← hp]; exact write_at h.len _
theorem saveFile_spec {o : SaveOpts} {ev : Nat → ReadEv} {fic : FicRec} {a : ArchAt} (ha : a.pos ≤ a.bytes.length) {n w : Nat} (hn : o.repeatCount + 2 ≤ n) :
    (∃ r s', saveFile o ev n fic a w = .ok r ∧ SaveInv o ev fic a s' ∧ SaveEnd o ev fic a s' r) ∨ saveFile o ev n fic a w = .error .bug ∨ saveFile o ev n fic a w = .error .range := by
  refine saveLoop_spec n _ true ?_ (fun _ => rfl) (by intro hx; cases hx) ?_
  · refine ⟨ha, Nat.le_refl _, rfl, rfl, Or.inl ⟨rfl, rfl⟩, (by intro hx; cases hx), ?_, id, Nat.zero_le _⟩
    exact Nat.zero_le _
  · have : (if fic.compressed then 2 else 1) ≤ 2 := by split <;> omega
    show _ ≤ n + 0
    omega

/-- **C67 (bounded).** However often a file changes while it is saved, it is read at most once more than the number of retries asked, and once more if it may be saved a second time without compression;
the saving then ends (with a result, or with an error if the file has disappeared when it was to be read again or if the archive could not go back).  What was in the archive before is not touched. -/
theorem C67_bounded (o : SaveOpts) (ev : Nat → ReadEv) (fic : FicRec) (a : ArchAt) (ha : a.pos ≤ a.bytes.length) (w n : Nat) (hn : o.repeatCount + 2 ≤ n) :
    (∃ r, saveFile o ev n fic a w = .ok r ∧ 1 ≤ r.reads ∧ r.reads ≤ o.repeatCount + (if fic.compressed then 2 else 1) ∧ r.arch.bytes.take a.pos = a.bytes.take a.pos) ∨
      saveFile o ev n fic a w = .error .bug ∨ saveFile o ev n fic a w = .error .range := by
  rcases saveFile_spec (o := o) (ev := ev) (fic := fic) ha hn with ⟨r, s, e, h, he⟩ | e | e
  · left
    refine ⟨r, e, by rw [he.reads]; omega, ?_, he.kept⟩
    have h1 := h.counts
    have h2 := h.limit
    rw [he.reads]
    by_cases hc : fic.compressed = true
    · rw [if_pos hc]
      split at h1 <;> omega
    · rw [if_neg hc]
      rw [if_neg (by tauto)] at h1
      omega
  · exact Or.inr (Or.inl e)
  · exact Or.inr (Or.inr e)
/-- **C67 (saved).** A file told to be saved without having changed has, after the last reading, the modification date recorded for it (or it has disappeared meanwhile): what is stored where the catalogue
tells is the data of that reading, with its CRC, and the object has not become dirty. -/
theorem C67_saved (o : SaveOpts) (ev : Nat → ReadEv) (fic : FicRec) (a : ArchAt) (ha : a.pos ≤ a.bytes.length) (w n : Nat) (hn : o.repeatCount + 2 ≤ n) (r : SaveOut) (e : saveFile o ev n fic a w = .ok r)
    (hr : r.ret = true) : r.fic.dirty = fic.dirty ∧ ((ev (r.reads - 1)).mtime = none ∨ (ev (r.reads - 1)).mtime = some r.fic.mtime) ∧ PlacedAt o ev r.fic r.arch.bytes (r.reads - 1) := by
  rcases saveFile_spec (o := o) (ev := ev) (fic := fic) (w := w) ha hn with ⟨r', s, e', h, he⟩ | e' | e' <;> rw [e'] at e <;> cases e
  have hk : r.reads - 1 = s.k := by rw [he.reads]; rfl
  rw [hk]
  exact ⟨(he.good hr).1, (he.good hr).2, he.placed (Or.inl hr)⟩
/-- **C67 (consistent).** If the content of the file never changes without its modification date being changed, and dates never come back, then a file told to be saved without having changed (and still there
at the end) is stored as it was at one single moment: the data, the CRC, the size and the modification date of the archive are the ones of that moment, however the changes were interleaved with the readings. -/
theorem C67_consistent (o : SaveOpts) (ev : Nat → ReadEv) (fic : FicRec) (a : ArchAt) (ha : a.pos ≤ a.bytes.length) (w n : Nat) (hn : o.repeatCount + 2 ≤ n) (r : SaveOut) (e : saveFile o ev n fic a w = .ok r)
    (hr : r.ret = true) (H : FileHist) (hH : H.Honest) (b c : Nat → Nat) (hev : Happens H b c ev fic) (hthere : (ev (r.reads - 1)).mtime ≠ none) :
    ∃ t, b 0 ≤ t ∧ t ≤ c (r.reads - 1) ∧ r.fic.mtime = H.mtime t ∧ r.fic.size = (H.content t).length ∧ r.fic.crc = o.crcOf (H.content t) ∧
      (r.arch.bytes.drop r.fic.offset).take r.fic.storage = o.stored r.fic.compressed (H.content t) := by
  rcases saveFile_spec (o := o) (ev := ev) (fic := fic) (w := w) ha hn with ⟨r', s, e', h, he⟩ | e' | e' <;> rw [e'] at e <;> cases e
  have hk : r.reads - 1 = s.k := by rw [he.reads]; rfl
  rw [hk] at hthere ⊢
  have hmono : ∀ d j, b j ≤ b (j + d) ∧ c j ≤ c (j + d) := by
    intro d j
    induction d with
    | zero => exact ⟨Nat.le_refl _, Nat.le_refl _⟩
    | succ d ih =>
      have o1 := hev.order (j + d)
      have o2 := hev.order (j + d + 1)
      exact ⟨by show b j ≤ b (j + d + 1); omega, by show c j ≤ c (j + d + 1); omega⟩
  have hmle : ∀ {j k}, j ≤ k → b j ≤ b k ∧ c j ≤ c k := by
    intro j k hjk
    have := hmono (k - j) j
    rwa [Nat.add_sub_cancel' hjk] at this
  -- the reading before which the date and the size were taken
  have ho : ∃ j, j ≤ s.k ∧ r.fic.mtime = H.mtime (b j) ∧ ∃ t, b j ≤ t ∧ t ≤ c j ∧ r.fic.size = (H.content t).length := by
    rcases he.origin with ⟨h1, h2⟩ | ⟨j, hj, h1⟩
    · exact ⟨0, Nat.zero_le _, h1.trans hev.date0, by rw [h2]; exact hev.size0⟩
    · rw [hk] at hj
      obtain ⟨g1, g2⟩ := hev.again j _ _ h1
      exact ⟨j + 1, hj, g1, g2⟩
  obtain ⟨j, hj, hm, t0, ht1, ht2, hz⟩ := ho
  have hend : H.mtime (c s.k) = r.fic.mtime := by
    rcases (he.good hr).2 with hx | hx
    · exact absurd hx hthere
    · exact (hev.after _ _ hx).symm
  have hbc := hev.order s.k
  have hmj := hmle hj
  have hsame : ∀ t, b j ≤ t → t ≤ c s.k → H.content t = H.content (b j) := fun t h1 h2 => hH (b j) t (c s.k) h1 h2 (by rw [hend]; exact hm.symm)
  have hdata : (ev s.k).data = H.content (b j) := by
    apply List.ext_getElem?
    intro i
    obtain ⟨t, q1, q2, q3⟩ := hev.data s.k i
    rw [q3, hsame t (by omega) q2]
  obtain ⟨p1, p2, p3⟩ := he.placed (Or.inl hr)
  rw [hdata] at p1 p3
  have h0 := hmle (Nat.zero_le j)
  exact ⟨b j, h0.1, by omega, hm, by rw [hz, hsame t0 ht1 (by omega)], p3, p1⟩
/-- **C67 (dirty), partial.** A file that was still changing at the last reading allowed is told dirty, and its date after that reading was not the one recorded; if no limit is set on the bytes wasted (retry-on-change
with 0 bytes, the default being 1 retry), the data of the last reading is stored where the catalogue tells, with its CRC.  With a limit, it may not be (`C67_dirty_lost`). -/
theorem C67_dirty_partial (o : SaveOpts) (ev : Nat → ReadEv) (fic : FicRec) (a : ArchAt) (ha : a.pos ≤ a.bytes.length) (w n : Nat) (hn : o.repeatCount + 2 ≤ n) (r : SaveOut) (e : saveFile o ev n fic a w = .ok r)
    (hr : r.ret = false) : r.fic.dirty = true ∧ (∃ m, (ev (r.reads - 1)).mtime = some m ∧ m ≠ r.fic.mtime) ∧ (o.repeatByte = 0 → PlacedAt o ev r.fic r.arch.bytes (r.reads - 1)) := by
  rcases saveFile_spec (o := o) (ev := ev) (fic := fic) (w := w) ha hn with ⟨r', s, e', h, he⟩ | e' | e' <;> rw [e'] at e <;> cases e
  have hk : r.reads - 1 = s.k := by rw [he.reads]; rfl
  rw [hk]
  exact ⟨(he.bad hr).1, (he.bad hr).2, fun h0 => he.placed (Or.inr h0)⟩
/-- **C67 (marks).** For the sequential reading: at the place of the file there is the inode of a file, told compressed just as the data that follows is. -/
theorem C67_head (o : SaveOpts) (ev : Nat → ReadEv) (fic : FicRec) (a : ArchAt) (ha : a.pos ≤ a.bytes.length) (w n : Nat) (hn : o.repeatCount + 2 ≤ n) (r : SaveOut) (e : saveFile o ev n fic a w = .ok r) :
    ∃ f : FicRec, f.compressed = r.fic.compressed ∧ o.header f <+: r.arch.bytes.drop a.pos := by
  rcases saveFile_spec (o := o) (ev := ev) (fic := fic) (w := w) ha hn with ⟨r', s, e', h, he⟩ | e' | e' <;> rw [e'] at e <;> cases e
  exact he.head

/-! ### cases -/

/-- retries, without compression; the inode is told by 9, its date, its size -/
def o67 (count byte : Nat) : SaveOpts := ⟨count, byte, false, fun f => [9, UInt8.ofNat f.mtime, UInt8.ofNat f.size], fun c => 8 :: c, [7], [6], [], fun d => 0 :: d, fun d => [d.sum]⟩
def f67 (compressed : Bool) : FicRec := ⟨1, 2, 0, 0, false, [], compressed⟩
/-- the file changes from 10 20 (date 1) to 30 31 32 (date 2) at the moment 2 -/
def h67 : FileHist := ⟨fun t => if t < 2 then 1 else 2, fun t => if t < 2 then [10, 20] else [30, 31, 32]⟩
/-- the first reading (moments 0 to 3) sees the first byte before the change and the others after, the second one (from the moment 4 on) is quiet -/
def e67 : Nat → ReadEv := fun k => if k = 0 then ⟨[10, 31, 32], some 2, some (2, 3), .done, .no, .done, .no⟩ else ⟨[30, 31, 32], some 2, some (2, 3), .done, .no, .done, .no⟩
def b67 : Nat → Nat := fun k => if k = 0 then 0 else 4
def c67 : Nat → Nat := fun k => if k = 0 then 3 else 4

theorem h67_honest : h67.Honest := by
  intro t1 t t2 h1 h2 hm
  have hm' : (if t1 < 2 then 1 else 2) = (if t2 < 2 then 1 else 2) := hm
  show (if t < 2 then [10, 20] else [30, 31, 32]) = (if t1 < 2 then [10, 20] else [30, 31, 32])
  by_cases c1 : t1 < 2 <;> by_cases c2 : t2 < 2 <;> by_cases c3 : t < 2 <;> simp [c1, c2, c3] at hm' ⊢ <;> omega
/-- the hypotheses of `C67_consistent` are met by a file changed in the middle of its first reading: what was read then is the content of no moment -/
theorem h67_happens : Happens h67 b67 c67 e67 (f67 false) := by
  refine ⟨?_, rfl, ⟨0, by decide, by decide, rfl⟩, ?_, ?_, ?_⟩
  · intro k
    show (if k = 0 then 0 else 4) ≤ (if k = 0 then 3 else 4) ∧ (if k = 0 then 3 else 4) ≤ (if k + 1 = 0 then 0 else 4)
    by_cases h : k = 0 <;> simp [h]
  · intro k i
    by_cases h : k = 0
    · subst h
      by_cases hi : i = 0
      · subst hi; exact ⟨0, by decide, by decide, rfl⟩
      · refine ⟨3, by decide, by decide, ?_⟩
        show [10, 31, 32][i]? = [30, 31, 32][i]?
        obtain ⟨i, rfl⟩ : ∃ j, i = j + 1 := ⟨i - 1, by omega⟩
        rfl
    · refine ⟨4, ?_, ?_, ?_⟩
      · show (if k = 0 then 0 else 4) ≤ 4; rw [if_neg h]; exact Nat.le_refl _
      · show 4 ≤ (if k = 0 then 3 else 4); rw [if_neg h]; exact Nat.le_refl _
      · show (e67 k).data[i]? = _
        unfold e67; rw [if_neg h]; rfl
  · intro k m hm
    unfold e67 at hm
    by_cases h : k = 0
    · rw [if_pos h] at hm; cases hm; subst h; rfl
    · rw [if_neg h] at hm; cases hm
      show 2 = h67.mtime (if k = 0 then 3 else 4)
      rw [if_neg h]; rfl
  · intro k m z hm
    have : m = 2 ∧ z = 3 := by
      unfold e67 at hm
      by_cases h : k = 0
      · rw [if_pos h] at hm; cases hm; exact ⟨rfl, rfl⟩
      · rw [if_neg h] at hm; cases hm; exact ⟨rfl, rfl⟩
    obtain ⟨rfl, rfl⟩ := this
    have hb : b67 (k + 1) = 4 := by unfold b67; rw [if_neg (by omega)]
    have hc : c67 (k + 1) = 4 := by unfold c67; rw [if_neg (by omega)]
    rw [hb, hc]
    exact ⟨rfl, 4, Nat.le_refl _, Nat.le_refl _, rfl⟩
/-- with one retry the second reading is kept, and the archive holds the second content -/
example : (saveFile (o67 1 0) e67 3 (f67 false) ⟨[5], 1⟩ 0).map (fun r => (r.ret, r.fic, r.arch.bytes, r.reads)) = .ok (true, ⟨2, 3, 4, 3, false, [93], false⟩, [5, 9, 1, 2, 30, 31, 32, 8, 93], 2) := by decide +kernel
/-- with no retry the mixed data is kept and the file is told dirty -/
example : (saveFile (o67 0 0) e67 2 (f67 false) ⟨[5], 1⟩ 0).map (fun r => (r.ret, r.fic, r.arch.bytes, r.reads)) = .ok (false, ⟨1, 2, 4, 3, true, [73], false⟩, [5, 9, 1, 2, 10, 31, 32, 8, 73, 6], 1) := by decide +kernel
/-- the data grows when it is compressed: it is saved again without compression -/
example : (saveFile (o67 0 0) (fun _ => ⟨[10, 20], some 1, none, .done, .no, .no, .no⟩) 2 (f67 true) ⟨[5], 1⟩ 0).map (fun r => (r.ret, r.fic, r.arch.bytes, r.reads)) =
    .ok (true, ⟨1, 2, 4, 2, false, [30], false⟩, [5, 9, 1, 2, 10, 20, 8, 30], 2) := by decide +kernel
/-- a pipe cannot go back: the data already there is wasted -/
example : (saveFile (o67 1 0) (fun k => { e67 k with cut1 := .no }) 3 (f67 false) ⟨[5], 1⟩ 0).map (fun r => (r.ret, r.fic, r.arch.bytes, r.wasted)) =
    .ok (true, ⟨2, 3, 10, 3, false, [93], false⟩, [5, 9, 1, 2, 10, 31, 32, 8, 73, 7, 30, 31, 32, 8, 93], 5) := by decide +kernel
/-- **C67, counterexample: the data of a dirty file is lost.** Once the limit on the bytes wasted is reached, a file that changes is told dirty, but its data has been removed from the archive (which is truncated
before the limit is looked at, src/libdar/filtre.cpp:3705-3716 then 3750): the catalogue tells three bytes of data that are not there. -/
theorem C67_dirty_lost : ∃ (o : SaveOpts) (ev : Nat → ReadEv) (fic : FicRec) (a : ArchAt) (w : Nat) (r : SaveOut), a.pos = a.bytes.length ∧ saveFile o ev (o.repeatCount + 2) fic a w = .ok r ∧ r.ret = false ∧
    r.fic.storage = 3 ∧ r.arch.bytes.length = r.fic.offset ∧ ¬ o.dirtyMark <:+: r.arch.bytes := by
  refine ⟨o67 1 5, e67, f67 false, ⟨[5], 1⟩, 5, ⟨false, ⟨1, 2, 4, 3, true, [73], false⟩, ⟨[5, 9, 1, 2], 4⟩, 5, 1⟩, rfl, by decide +kernel, rfl, rfl, rfl, ?_⟩
  show ¬ [6] <:+: [5, 9, 1, 2]
  decide
/-- **C67, counterexample: the inode read sequentially is the old one.** When a file has been read again, the inode put before its data for the sequential reading is not written again: it tells the date and the
size of before the change. -/
theorem C67_head_stale : ∃ (o : SaveOpts) (ev : Nat → ReadEv) (fic : FicRec) (a : ArchAt) (r : SaveOut), a.pos = a.bytes.length ∧ saveFile o ev (o.repeatCount + 2) fic a 0 = .ok r ∧ r.ret = true ∧
    o.header fic <+: r.arch.bytes.drop a.pos ∧ (r.fic.mtime ≠ fic.mtime ∧ r.fic.size ≠ fic.size) ∧ ¬ o.header r.fic <:+: r.arch.bytes := by
  refine ⟨o67 1 0, e67, f67 false, ⟨[5], 1⟩, ⟨true, ⟨2, 3, 4, 3, false, [93], false⟩, ⟨[5, 9, 1, 2, 30, 31, 32, 8, 93], 9⟩, 0, 2⟩, rfl, by decide +kernel, rfl, ?_, ⟨by decide, by decide⟩, ?_⟩
  · show [9, 1, 2] <+: [9, 1, 2, 30, 31, 32, 8, 93]; decide
  · show ¬ [9, 2, 3] <:+: [5, 9, 1, 2, 30, 31, 32, 8, 93]; decide
/-- **C67, counterexample: a second try that works is a bug.** When the archive cannot be truncated and the first try to skip back fails, the code tries a second time (a repeated line, src/libdar/filtre.cpp:3726-3727): if
that works, the check that follows stops the program. -/
theorem C67_late_skip : ∃ (o : SaveOpts) (ev : Nat → ReadEv) (fic : FicRec) (a : ArchAt), a.pos = a.bytes.length ∧ saveFile o ev (o.repeatCount + 2) fic a 0 = .error .bug :=
  ⟨o67 1 0, fun k => { e67 k with cut1 := .no, skip1 := .late }, f67 false, ⟨[5], 1⟩, rfl, rfl⟩
/-- **C67, counterexample: a file that disappears.** A file that has changed and is not there any more when it is to be read again ends the saving with an error, while a file that has disappeared when its date is looked at
is told saved. -/
theorem C67_disappeared : (∃ (o : SaveOpts) (ev : Nat → ReadEv) (fic : FicRec) (a : ArchAt), saveFile o ev (o.repeatCount + 2) fic a 0 = .error .range) ∧
    (∃ (o : SaveOpts) (ev : Nat → ReadEv) (fic : FicRec) (a : ArchAt) (r : SaveOut), saveFile o ev (o.repeatCount + 2) fic a 0 = .ok r ∧ r.ret = true ∧ (ev 0).mtime = none) :=
  ⟨⟨o67 1 0, fun k => { e67 k with again := none }, f67 false, ⟨[5], 1⟩, rfl⟩, ⟨o67 1 0, fun k => { e67 k with mtime := none }, f67 false, ⟨[5], 1⟩, _, rfl, rfl, rfl⟩⟩

end Dar
