import Verif.Spec.SaveFile
/- Invariants of the saving of a file. -/
namespace Dar

/-! ### the archive -/

theorem write_take {a : ArchAt} {p : Nat} (hp : p ≤ a.pos) (hl : a.pos ≤ a.bytes.length) (b : Bytes) : (a.write b).bytes.take p = a.bytes.take p := by
  unfold ArchAt.write
  rw [List.append_assoc, List.take_append_of_le_length (by simp; omega), List.take_take, Nat.min_eq_left hp]
theorem write_len {a : ArchAt} (hl : a.pos ≤ a.bytes.length) (b : Bytes) : (a.write b).pos ≤ (a.write b).bytes.length := by
  unfold ArchAt.write
  simp
  omega
theorem write_at {a : ArchAt} (hl : a.pos ≤ a.bytes.length) (b : Bytes) : ((a.write b).bytes.drop a.pos).take b.length = b := by
  unfold ArchAt.write
  rw [List.append_assoc, List.drop_append_of_le_length (by simp; omega)]
  simp
/-- what is before the position stays -/
theorem drop_take_of_take {l l' : Bytes} {p i n : Nat} (h : l'.take p = l.take p) (hn : i + n ≤ p) : (l'.drop i).take n = (l.drop i).take n := by
  have e : ∀ m : Bytes, (m.drop i).take n = ((m.take p).drop i).take n := by
    intro m
    rw [List.drop_take, List.take_take, Nat.min_eq_left (by omega)]
  rw [e l', e l, h]
/-- the state of the loops: the archive before the file is untouched, the header of the last turn of the outer loop is there -/
structure SaveInv (o : SaveOpts) (ev : Nat → ReadEv) (fic0 : FicRec) (a0 : ArchAt) (s : SaveSt) : Prop where
  len : s.arch.pos ≤ s.arch.bytes.length
  after : a0.pos ≤ s.arch.pos
  kept : s.arch.bytes.take a0.pos = a0.bytes.take a0.pos
  dirty : s.fic.dirty = fic0.dirty
  origin : (s.fic.mtime = fic0.mtime ∧ s.fic.size = fic0.size) ∨ ∃ j < s.k, (ev j).again = some (s.fic.mtime, s.fic.size)
  resave : s.resave = true → s.fic.compressed = false
  counts : s.k ≤ s.count + (if fic0.compressed = true ∧ s.fic.compressed = false then 1 else 0)
  compr : s.fic.compressed = true → fic0.compressed = true
  limit : s.count ≤ o.repeatCount
/-- the header of a file, at its place -/
def HeadAt (o : SaveOpts) (a0 : ArchAt) (s : SaveSt) : Prop :=
  ∃ f, f.compressed = s.fic.compressed ∧ a0.pos + (o.header f).length ≤ s.arch.pos ∧ (s.arch.bytes.drop a0.pos).take (o.header f).length = o.header f
/-- what is known at the end -/
structure SaveEnd (o : SaveOpts) (ev : Nat → ReadEv) (fic0 : FicRec) (a0 : ArchAt) (s : SaveSt) (r : SaveOut) : Prop where
  kept : r.arch.bytes.take a0.pos = a0.bytes.take a0.pos
  origin : (r.fic.mtime = fic0.mtime ∧ r.fic.size = fic0.size) ∨ ∃ j < r.reads - 1, (ev j).again = some (r.fic.mtime, r.fic.size)
  reads : r.reads = s.k + 1
  good : r.ret = true → r.fic.dirty = fic0.dirty ∧ ((ev s.k).mtime = none ∨ (ev s.k).mtime = some r.fic.mtime)
  bad : r.ret = false → r.fic.dirty = true ∧ ∃ m, (ev s.k).mtime = some m ∧ m ≠ r.fic.mtime
  placed : (r.ret = true ∨ o.repeatByte = 0) → PlacedAt o ev r.fic r.arch.bytes s.k
  head : ∃ f, f.compressed = r.fic.compressed ∧ o.header f <+: r.arch.bytes.drop a0.pos
theorem prefix_of_take {a b : Bytes} (h : b.take a.length = a) : a <+: b := by rw [← h]; exact List.take_prefix _ _
/-- the data and the CRC written -/
theorem putData_spec {o : SaveOpts} {s : SaveSt} (hl : s.arch.pos ≤ s.arch.bytes.length) (d : Bytes) :
    (putData o s d).arch.pos ≤ (putData o s d).arch.bytes.length ∧ s.arch.pos + (o.stored s.fic.compressed d).length ≤ (putData o s d).arch.pos ∧
    (putData o s d).arch.bytes.take s.arch.pos = s.arch.bytes.take s.arch.pos ∧
    ((putData o s d).arch.bytes.drop s.arch.pos).take (o.stored s.fic.compressed d).length = o.stored s.fic.compressed d := by
  have h1 := write_len hl (o.stored s.fic.compressed d)
  have p1 : (s.arch.write (o.stored s.fic.compressed d)).pos = s.arch.pos + (o.stored s.fic.compressed d).length := rfl
  have h2 := write_take (p := s.arch.pos) (a := s.arch.write (o.stored s.fic.compressed d)) (by omega) h1 (o.crcMark (o.crcOf d))
  have h3 := write_take (p := s.arch.pos + (o.stored s.fic.compressed d).length) (a := s.arch.write (o.stored s.fic.compressed d)) (by omega) h1 (o.crcMark (o.crcOf d))
  refine ⟨write_len h1 _, ?_, ?_, ?_⟩
  · show _ ≤ s.arch.pos + (o.stored s.fic.compressed d).length + (o.crcMark (o.crcOf d)).length
    omega
  · show (((s.arch.write (o.stored s.fic.compressed d)).write _).bytes.take s.arch.pos) = _
    rw [h2, write_take (Nat.le_refl _) hl]
  · show ((((s.arch.write (o.stored s.fic.compressed d)).write _).bytes.drop s.arch.pos).take _) = _
    rw [drop_take_of_take h3 (Nat.le_refl _), write_at hl]
/-- ending a file whose data is in place -/
theorem end_place {o : SaveOpts} {ev : Nat → ReadEv} {fic : FicRec} {a : ArchAt} {k : Nat} (hl : a.pos ≤ a.bytes.length) (hp : PlacedAt o ev fic a.bytes k) (hoff : fic.offset + fic.storage ≤ a.pos) (b : Bytes) :
    PlacedAt o ev fic (a.write b).bytes k := by
  obtain ⟨h1, h2, h3⟩ := hp
  exact ⟨by rw [drop_take_of_take (write_take (Nat.le_refl a.pos) hl b) hoff]; exact h1, h2, h3⟩
theorem head_write {o : SaveOpts} {a0 : ArchAt} {a : ArchAt} {f : FicRec} (hl : a.pos ≤ a.bytes.length) (h1 : a0.pos + (o.header f).length ≤ a.pos)
    (h2 : (a.bytes.drop a0.pos).take (o.header f).length = o.header f) (b : Bytes) : ((a.write b).bytes.drop a0.pos).take (o.header f).length = o.header f := by
  rw [drop_take_of_take (write_take (Nat.le_refl a.pos) hl b) h1]; exact h2

/-- what a turn leads to -/
def TurnOk (o : SaveOpts) (ev : Nat → ReadEv) (fic0 : FicRec) (a0 : ArchAt) (s : SaveSt) : SaveStep → Prop
  | .done r => SaveEnd o ev fic0 a0 s r
  | .again s' outer => SaveInv o ev fic0 a0 s' ∧ s'.k = s.k + 1 ∧ (outer = true → s'.arch.pos = a0.pos) ∧ (outer = false → HeadAt o a0 s')
/-- after the data has been written: what is known of the archive `a`, the data being at `start` -/
structure PutInv (o : SaveOpts) (ev : Nat → ReadEv) (a0 : ArchAt) (start : Nat) (s : SaveSt) : Prop where
  above : a0.pos ≤ start
  below : start ≤ s.arch.pos
  head : ∃ f, f.compressed = s.fic.compressed ∧ a0.pos + (o.header f).length ≤ start ∧ (s.arch.bytes.drop a0.pos).take (o.header f).length = o.header f
  offset : s.fic.offset = start
  fits : start + s.fic.storage ≤ s.arch.pos
  placed : PlacedAt o ev s.fic s.arch.bytes s.k
theorem endFile_spec {o : SaveOpts} {ev : Nat → ReadEv} {fic0 : FicRec} {a0 : ArchAt} {start : Nat} {s s0 : SaveSt} (hk : s.k = s0.k) (h : SaveInv o ev fic0 a0 s) (hp : PutInv o ev a0 start s)
    (hm : (ev s.k).mtime = none ∨ (ev s.k).mtime = some s.fic.mtime) : TurnOk o ev fic0 a0 s0 (endFile o true s) := by
  obtain ⟨f, f1, f2, f3⟩ := hp.head
  refine ⟨?_, h.origin, (by show s.k + 1 = _; rw [hk]), fun _ => ⟨h.dirty, (by rw [← hk]; exact hm)⟩, (fun hr => by cases hr), fun _ => ?_, ⟨f, f1, ?_⟩⟩
  · show (s.arch.write o.sig).bytes.take _ = _
    rw [write_take h.after h.len]; exact h.kept
  · rw [← hk]
    exact end_place h.len hp.placed (by rw [hp.offset]; exact hp.fits) _
  · exact prefix_of_take (head_write h.len (by have := hp.below; omega) f3 _)
theorem changedFile_spec {o : SaveOpts} {ev : Nat → ReadEv} {fic0 : FicRec} {a0 : ArchAt} {start : Nat} {s s0 : SaveSt} (hk : s.k = s0.k) (h : SaveInv o ev fic0 a0 s) (hp : PutInv o ev a0 start s)
    (hres : s.resave = false) {m : Nat} (hm : (ev s.k).mtime = some m) (hne : m ≠ s.fic.mtime) :
    (∃ st, changedFile o start (ev s.k) s = .ok st ∧ TurnOk o ev fic0 a0 s0 st) ∨ changedFile o start (ev s.k) s = .error .bug ∨ changedFile o start (ev s.k) s = .error .range := by
  obtain ⟨f, f1, f2, f3⟩ := hp.head
  have hb := hp.below
  have hst := hp.above
  unfold changedFile
  by_cases hc : s.count < o.repeatCount
  · rw [if_pos hc]
    -- going back
    have key : backForRetry start (ev s.k) s.arch s.wasted = .error .bug ∨ ∃ a w, backForRetry start (ev s.k) s.arch s.wasted = .ok (a, w) ∧ a.pos ≤ a.bytes.length ∧ start ≤ a.pos ∧
        a.bytes.take start = s.arch.bytes.take start := by
      have hcut : (s.arch.cut start).pos ≤ (s.arch.cut start).bytes.length ∧ start ≤ (s.arch.cut start).pos ∧ (s.arch.cut start).bytes.take start = s.arch.bytes.take start := by
        have := h.len
        refine ⟨?_, Nat.le_refl _, ?_⟩
        · show start ≤ (s.arch.bytes.take start).length
          rw [List.length_take]; omega
        · show (s.arch.bytes.take start).take start = _
          rw [List.take_take, Nat.min_self]
      have hgo : (s.arch.goto start).pos ≤ (s.arch.goto start).bytes.length ∧ start ≤ (s.arch.goto start).pos ∧ (s.arch.goto start).bytes.take start = s.arch.bytes.take start := by
        have := h.len
        refine ⟨?_, Nat.le_refl _, rfl⟩
        show start ≤ s.arch.bytes.length
        omega
      have hskip : (match (ev s.k).skip1 with
          | .done => .ok (s.arch.goto start, s.wasted)
          | .late => if s.arch.pos = start then .ok (s.arch, s.wasted + (s.arch.pos - start)) else .error .bug
          | _ => .ok (s.arch, s.wasted + (s.arch.pos - start)) : Res (ArchAt × Nat)) = .error .bug ∨ ∃ a w, (match (ev s.k).skip1 with
          | .done => .ok (s.arch.goto start, s.wasted)
          | .late => if s.arch.pos = start then .ok (s.arch, s.wasted + (s.arch.pos - start)) else .error .bug
          | _ => .ok (s.arch, s.wasted + (s.arch.pos - start)) : Res (ArchAt × Nat)) = .ok (a, w) ∧ a.pos ≤ a.bytes.length ∧ start ≤ a.pos ∧ a.bytes.take start = s.arch.bytes.take start := by
        cases (ev s.k).skip1 with
        | no => exact Or.inr ⟨_, _, rfl, h.len, hb, rfl⟩
        | done => exact Or.inr ⟨_, _, rfl, hgo⟩
        | fails => exact Or.inr ⟨_, _, rfl, h.len, hb, rfl⟩
        | late =>
          dsimp only
          by_cases he : s.arch.pos = start
          · rw [if_pos he]; exact Or.inr ⟨_, _, rfl, h.len, hb, rfl⟩
          · rw [if_neg he]; exact Or.inl rfl
      unfold backForRetry
      cases (ev s.k).cut1 with
      | done => exact Or.inr ⟨_, _, rfl, hcut⟩
      | no => exact hskip
      | fails => exact hskip
    rcases key with hkk | ⟨a, w, hbk, ha1, ha2, ha3⟩
    · right; left
      show (backForRetry start (ev s.k) s.arch s.wasted).bind _ = _
      rw [hkk]; rfl
    · have hkept : a.bytes.take a0.pos = a0.bytes.take a0.pos := by
        have := congrArg (List.take a0.pos) ha3
        rw [List.take_take, List.take_take, Nat.min_eq_left hst] at this
        rw [this]; exact h.kept
      have hhead : (a.bytes.drop a0.pos).take (o.header f).length = o.header f := by
        rw [drop_take_of_take ha3 f2]; exact f3
      have hdo : ∀ (F : ArchAt × Nat → Res SaveStep), (backForRetry start (ev s.k) s.arch s.wasted).bind F = F (a, w) := by intro F; rw [hbk]; rfl
      by_cases hl : o.repeatByte = 0 ∨ w < o.repeatByte
      · -- again
        cases hag : (ev s.k).again with
        | none =>
          right; right
          show (backForRetry start (ev s.k) s.arch s.wasted).bind _ = _
          rw [hdo]
          dsimp only
          rw [if_pos hl]
        | some mz =>
          left
          obtain ⟨m', z⟩ := mz
          let a' := if a.pos ≠ start then a.write o.waste else a
          refine ⟨.again { s with fic := { s.fic with mtime := m', size := z }, arch := a', count := s.count + 1, wasted := w, k := s.k + 1 } false, ?_, ?_⟩
          · show (backForRetry start (ev s.k) s.arch s.wasted).bind _ = _
            rw [hdo]
            dsimp only
            rw [if_pos hl]
          · have ha' : a'.pos ≤ a'.bytes.length ∧ a.pos ≤ a'.pos ∧ a'.bytes.take a.pos = a.bytes.take a.pos := by
              show (if a.pos ≠ start then a.write o.waste else a).pos ≤ (if a.pos ≠ start then a.write o.waste else a).bytes.length ∧ a.pos ≤ (if a.pos ≠ start then a.write o.waste else a).pos ∧
                (if a.pos ≠ start then a.write o.waste else a).bytes.take a.pos = a.bytes.take a.pos
              by_cases he : a.pos ≠ start
              · simp only [if_pos he]
                exact ⟨write_len ha1 _, Nat.le_add_right _ _, write_take (Nat.le_refl _) ha1 _⟩
              · simp only [if_neg he]
                exact ⟨ha1, Nat.le_refl _, by trivial⟩
            obtain ⟨b1, b2, b3⟩ := ha'
            have hcnt := h.counts
            refine ⟨⟨b1, by show a0.pos ≤ a'.pos; omega, ?_, h.dirty, Or.inr ⟨s.k, Nat.lt_succ_self _, hag⟩, h.resave, ?_, h.compr, hc⟩, (by rw [← hk]), (by intro hx; cases hx), fun _ => ⟨f, f1, ?_, ?_⟩⟩
            · show a'.bytes.take a0.pos = _
              have := congrArg (List.take a0.pos) b3
              rw [List.take_take, List.take_take, Nat.min_eq_left (by omega)] at this
              rw [this]; exact hkept
            · show s.k + 1 ≤ s.count + 1 + _
              dsimp only
              omega
            · show a0.pos + (o.header f).length ≤ a'.pos
              omega
            · show (a'.bytes.drop a0.pos).take (o.header f).length = _
              rw [drop_take_of_take b3 (by omega)]; exact hhead
      · -- no more
        left
        refine ⟨endFile o false { s with fic := { s.fic with dirty := true }, arch := a, count := s.count + 1, wasted := w }, ?_, ?_⟩
        · show (backForRetry start (ev s.k) s.arch s.wasted).bind _ = _
          rw [hdo]
          dsimp only
          rw [if_neg hl]
        · refine ⟨?_, h.origin, (by show s.k + 1 = _; rw [hk]), (fun hr => by cases hr), fun _ => ⟨rfl, m, (by rw [← hk]; exact hm), hne⟩, ?_, ⟨f, f1, ?_⟩⟩
          · show (a.write o.sig).bytes.take _ = _
            rw [write_take (by omega) ha1]; exact hkept
          · rintro (hr | hr)
            · cases hr
            · exact absurd (Or.inl hr) hl
          · exact prefix_of_take (head_write ha1 (by omega) hhead _)
  · rw [if_neg hc]
    left
    refine ⟨_, rfl, ?_⟩
    have hw := write_len h.len o.dirtyMark
    have hwp : s.arch.pos ≤ (s.arch.write o.dirtyMark).pos := Nat.le_add_right _ _
    have hpl := end_place (o := o) (ev := ev) (fic := s.fic) h.len hp.placed (by rw [hp.offset]; exact hp.fits) o.dirtyMark
    refine ⟨?_, h.origin, (by show s.k + 1 = _; rw [hk]), (fun hr => by cases hr), fun _ => ⟨rfl, m, (by rw [← hk]; exact hm), hne⟩, fun _ => ?_, ⟨f, f1, ?_⟩⟩
    · show ((s.arch.write o.dirtyMark).write o.sig).bytes.take _ = _
      rw [write_take (by have := h.after; omega) hw, write_take h.after h.len]; exact h.kept
    · rw [← hk]
      have hoff : s.fic.offset + s.fic.storage ≤ (s.arch.write o.dirtyMark).pos := by rw [hp.offset]; have := hp.fits; omega
      obtain ⟨c1, c2, c3⟩ := end_place hw hpl hoff o.sig
      exact ⟨c1, c2, c3⟩
    · exact prefix_of_take (head_write hw (by omega) (head_write h.len (by omega) f3 _) _)
theorem checkFile_spec {o : SaveOpts} {ev : Nat → ReadEv} {fic0 : FicRec} {a0 : ArchAt} {s s1 : SaveSt} (h : SaveInv o ev fic0 a0 s) (hh : HeadAt o a0 s)
    (hs1 : s1 = { putData o s (ev s.k).data with resave := false }) :
    (∃ st, checkFile o s.arch.pos (o.stored s.fic.compressed (ev s.k).data).length (ev s.k) s1 = .ok st ∧ TurnOk o ev fic0 a0 s st) ∨
      checkFile o s.arch.pos (o.stored s.fic.compressed (ev s.k).data).length (ev s.k) s1 = .error .bug ∨ checkFile o s.arch.pos (o.stored s.fic.compressed (ev s.k).data).length (ev s.k) s1 = .error .range := by
  subst hs1
  obtain ⟨p1, p2, p3, p4⟩ := putData_spec (o := o) h.len (ev s.k).data
  obtain ⟨f, f1, f2, f3⟩ := hh
  let s2 : SaveSt := { putData o s (ev s.k).data with resave := false, fic := { (putData o s (ev s.k).data).fic with offset := s.arch.pos, storage := (o.stored s.fic.compressed (ev s.k).data).length } }
  have hinv : SaveInv o ev fic0 a0 s2 := by
    refine ⟨p1, ?_, ?_, h.dirty, h.origin, (by intro hx; cases hx), h.counts, h.compr, h.limit⟩
    · show a0.pos ≤ (putData o s (ev s.k).data).arch.pos
      have := h.after; omega
    · show (putData o s (ev s.k).data).arch.bytes.take a0.pos = _
      have := congrArg (List.take a0.pos) p3
      rw [List.take_take, List.take_take, Nat.min_eq_left h.after] at this
      rw [this]; exact h.kept
  have hput : PutInv o ev a0 s.arch.pos s2 := by
    refine ⟨h.after, (by show _ ≤ (putData o s (ev s.k).data).arch.pos; omega), ⟨f, f1, f2, ?_⟩, rfl, p2, ⟨p4, rfl, rfl⟩⟩
    show ((putData o s (ev s.k).data).arch.bytes.drop a0.pos).take _ = _
    rw [drop_take_of_take p3 f2]; exact f3
  unfold checkFile
  dsimp only
  cases hm : (ev s.k).mtime with
  | none => exact Or.inl ⟨_, rfl, endFile_spec (s := s2) rfl hinv hput (Or.inl hm)⟩
  | some m =>
    dsimp only
    by_cases he : m = (putData o s (ev s.k).data).fic.mtime
    · rw [if_pos he]
      exact Or.inl ⟨_, rfl, endFile_spec (s := s2) rfl hinv hput (Or.inr (by rw [he] at hm; exact hm))⟩
    · rw [if_neg he]
      exact changedFile_spec (s := s2) rfl hinv hput rfl hm he
theorem saveTurn_spec {o : SaveOpts} {ev : Nat → ReadEv} {fic0 : FicRec} {a0 : ArchAt} {s : SaveSt} (h : SaveInv o ev fic0 a0 s) (hh : HeadAt o a0 s) :
    (∃ st, saveTurn o a0.pos (ev s.k) s = .ok st ∧ TurnOk o ev fic0 a0 s st) ∨ saveTurn o a0.pos (ev s.k) s = .error .bug ∨ saveTurn o a0.pos (ev s.k) s = .error .range := by
  obtain ⟨p1, p2, p3, p4⟩ := putData_spec (o := o) h.len (ev s.k).data
  unfold saveTurn
  dsimp only
  by_cases hr : (!o.neverResave && decide (s.fic.size ≤ (o.stored s.fic.compressed (ev s.k).data).length) && s.fic.compressed) = true
  · rw [if_pos hr]
    have hcomp : s.fic.compressed = true := by simp at hr; exact hr.2
    have hnr : s.resave = false := by
      cases hx : s.resave with
      | false => rfl
      | true => rw [h.resave hx] at hcomp; cases hcomp
    cases hb : backForResave a0.pos (ev s.k) (putData o s (ev s.k).data).arch with
    | none => exact checkFile_spec h hh rfl
    | some a =>
      dsimp only
      rw [hnr]
      left
      refine ⟨_, rfl, ?_⟩
      have ha : a.pos = a0.pos ∧ a.pos ≤ a.bytes.length ∧ a.bytes.take a0.pos = a0.bytes.take a0.pos := by
        have hlen : a0.pos ≤ (putData o s (ev s.k).data).arch.bytes.length := by have := h.after; omega
        have hk : (putData o s (ev s.k).data).arch.bytes.take a0.pos = a0.bytes.take a0.pos := by
          have := congrArg (List.take a0.pos) p3
          rw [List.take_take, List.take_take, Nat.min_eq_left h.after] at this
          rw [this]; exact h.kept
        have hcut : ((putData o s (ev s.k).data).arch.cut a0.pos).pos = a0.pos ∧ ((putData o s (ev s.k).data).arch.cut a0.pos).pos ≤ ((putData o s (ev s.k).data).arch.cut a0.pos).bytes.length ∧
            ((putData o s (ev s.k).data).arch.cut a0.pos).bytes.take a0.pos = a0.bytes.take a0.pos := by
          refine ⟨rfl, ?_, ?_⟩
          · show a0.pos ≤ ((putData o s (ev s.k).data).arch.bytes.take a0.pos).length
            rw [List.length_take]; omega
          · show ((putData o s (ev s.k).data).arch.bytes.take a0.pos).take a0.pos = _
            rw [List.take_take, Nat.min_self]; exact hk
        have hgo : ((putData o s (ev s.k).data).arch.goto a0.pos).pos = a0.pos ∧ ((putData o s (ev s.k).data).arch.goto a0.pos).pos ≤ ((putData o s (ev s.k).data).arch.goto a0.pos).bytes.length ∧
            ((putData o s (ev s.k).data).arch.goto a0.pos).bytes.take a0.pos = a0.bytes.take a0.pos := ⟨rfl, hlen, hk⟩
        unfold backForResave at hb
        cases hc0 : (ev s.k).cut0 <;> rw [hc0] at hb <;> dsimp only at hb
        · cases hs0 : (ev s.k).skip0 <;> rw [hs0] at hb <;> cases hb
          exact hgo
        · cases hb; exact hcut
        · cases hs0 : (ev s.k).skip0 <;> rw [hs0] at hb <;> cases hb
          exact hgo
      obtain ⟨a1, a2, a3⟩ := ha
      refine ⟨⟨a2, (by show a0.pos ≤ a.pos; omega), a3, h.dirty, ?_, fun _ => rfl, ?_, (by intro hx; cases hx), h.limit⟩, rfl, fun _ => a1, (by intro hx; cases hx)⟩
      · rcases h.origin with h1 | ⟨j, h1, h2⟩
        · exact Or.inl h1
        · exact Or.inr ⟨j, Nat.lt_succ_of_lt h1, h2⟩
      · have := h.counts
        rw [hcomp] at this
        simp at this
        show s.k + 1 ≤ s.count + _
        dsimp only
        rw [if_pos ⟨h.compr hcomp, rfl⟩]
        omega
  · rw [if_neg hr]
    exact checkFile_spec h hh rfl

end Dar
