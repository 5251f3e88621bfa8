import Verif.Lemmas.XformOut
import Verif.Lemmas.XformPrefix
/- C71: transforming an archive (dar_xform) changes its slices and nothing else. -/
namespace Dar

theorem take_of_read {goOn : Nat → Bool} {src : XSrc} {h : SliceHdr} {d : Bytes} (hr : src.read goOn = .ok (h, d)) : ∃ l, src.take goOn = .ok (h, l, none) ∧ l.flatten = d := by
  unfold XSrc.read at hr
  cases ht : src.take goOn with
  | error e => rw [ht] at hr; cases hr
  | ok p =>
    obtain ⟨s, l, e⟩ := p
    rw [ht] at hr
    cases e with
    | some e => cases hr
    | none =>
      simp only [Except.ok.injEq, Prod.mk.injEq] at hr
      exact ⟨l, by rw [hr.1], hr.2⟩

/-- C71: **Re-slicing preserves the archive.**  Whatever the archive comes from (slices of any size, a single file, a pipe), if it can be read to its end, holding `d`, its transformation
succeeds, and the new archive, cut as asked for, holds exactly `d`, with the format of the original and, for the formats that have one, its data name. -/
theorem C71_reslice (goOn : Nat → Bool) (src : XSrc) (h : SliceHdr) (d : Bytes) (iname : Bytes) (dst : XDst) (hr : src.read goOn = .ok (h, d)) (hne : d ≠ [])
    (hi : LabelOk iname) (hd : LabelOk h.dname) (hroom : Room iname h.dname h.old dst) :
    ∃ files h', xformTo goOn src iname dst false = (files, none) ∧ (XSrc.slices files).read goOn = .ok (h', d) ∧ Sized dst files ∧
      h'.iname = iname ∧ h'.old = h.old ∧ (h.old = false → h'.dname = h.dname) := by
  obtain ⟨l, ht, hl⟩ := take_of_read hr
  obtain ⟨o0, o, files, c, s, ch, e1, e2, e3, e4, e5⟩ := create_out goOn iname h.dname h.old dst hi hd hroom l (by rw [hl]; exact hne)
  refine ⟨files, s, ?_, by rw [created_read e4, hl], e5, e4.inm, e4.isOld, ?_⟩
  · unfold xformTo
    rw [ht]
    simp only [e1, e2, e3]
    rfl
  · intro ho
    rw [e4.dnm, ho]; rfl

/-- C71: **What the program writes is what it reads.**  An archive created with any sequence of writes is read back as these writes put end to end, whatever its slicing. -/
theorem C71_created (goOn : Nat → Bool) (iname dname : Bytes) (old : Bool) (dst : XDst) (writes : List Bytes) (hne : writes.flatten ≠ []) (hi : LabelOk iname) (hd : LabelOk dname)
    (hroom : Room iname dname old dst) : ∃ files h, createTo iname dname old dst writes = (files, none) ∧ (XSrc.slices files).read goOn = .ok (h, writes.flatten) ∧ Sized dst files ∧
      h.iname = iname ∧ h.old = old ∧ (old = false → h.dname = dname) := by
  obtain ⟨o0, o, files, c, s, ch, e1, e2, e3, e4, e5⟩ := create_out goOn iname dname old dst hi hd hroom writes hne
  refine ⟨files, s, ?_, created_read e4, e5, e4.inm, e4.isOld, ?_⟩
  · unfold createTo
    simp only [e1, e2, e3]
  · intro ho
    rw [e4.dnm, ho]; rfl

/-- C71: **So is what it sends to a pipe.** -/
theorem C71_created_pipe (goOn : Nat → Bool) (iname dname : Bytes) (old : Bool) (writes : List Bytes) (hne : writes.flatten ≠ []) (hi : LabelOk iname) (hd : LabelOk dname) :
    ∃ f h, createTo iname dname old .single writes = ([f], none) ∧ (XSrc.pipe f).read goOn = .ok (h, writes.flatten) ∧ h.iname = iname ∧ h.old = old ∧ (old = false → h.dname = dname) := by
  obtain ⟨o0, o, f, s, e1, e2, e3, e4, e5, e6, e7⟩ := created_pipe goOn iname dname old hi hd writes hne
  refine ⟨f, s, ?_, e4, e5, e7, ?_⟩
  · unfold createTo
    simp only [e1, e2, e3]
  · intro ho
    rw [e6, ho]; rfl

/-- C71: **A transformation gives the archive one would have created with the new slicing in the first place**: for the formats that have a data name, no trace is left of the original slices. -/
theorem C71_same_as_created (goOn : Nat → Bool) (src : XSrc) (h : SliceHdr) (d : Bytes) (iname : Bytes) (dst : XDst) (writes : List Bytes) (hr : src.read goOn = .ok (h, d)) (hne : d ≠ [])
    (hw : writes.flatten = d) (hi : LabelOk iname) (hd : LabelOk h.dname) (hroom : Room iname h.dname h.old dst) :
    xformTo goOn src iname dst false = createTo iname h.dname h.old dst writes := by
  obtain ⟨l, ht, hl⟩ := take_of_read hr
  have hcl : ∀ (o0 : XOut), newOut (newHdr iname h.dname h.old dst) dst = .ok o0 → ∀ l1 l2 : List Bytes, l1.flatten = l2.flatten → ∀ o1 o2, o0.writes l1 = (o1, none) → o0.writes l2 = (o2, none) →
      o1.close false = o2.close false := by
    intro o0 e0 l1 l2 he o1 o2 w1 w2
    cases o0 with
    | single a b => rw [writes_single] at w1 w2; injection w1 with w1; injection w2 with w2; rw [← w1, ← w2, he]
    | slices c w =>
      cases dst with
      | single => obtain ⟨b, e⟩ := newOut_isSingle e0; cases e
      | slices first other =>
        have hcw : newSlices (newHdr iname h.dname h.old (.slices first other)) = .ok c ∧ w = sarOpenW c [] := by
          simp only [newOut] at e0
          cases hn : newSlices (newHdr iname h.dname h.old (.slices first other)) with
          | error x => rw [hn] at e0; cases e0
          | ok c' => rw [hn] at e0; injection e0 with e0; injection e0 with e0 e0'; subst e0; exact ⟨rfl, e0'.symm⟩
        obtain ⟨hn, hw0⟩ := hcw
        subst hw0
        have hok : c.Ok := by
          cases ho : h.old with
          | false =>
            rw [ho] at hn hroom
            obtain ⟨c', hc', hrm⟩ := room_recent hi hroom
            rw [hn] at hc'; injection hc' with hc'; subst hc'
            exact (newSlices_recent iname h.dname first other hi hd c hn hrm).1
          | true =>
            rw [ho] at hn
            obtain ⟨_, _, _, _, _, _, _, _, _, _, _, _, _, e9⟩ := created_old goOn iname h.dname first other hi c hn l (by rw [hl]; exact hne)
            exact e9
        obtain ⟨oa, _, _, a1, a2, a3, _⟩ := writes_produce hok l1
        obtain ⟨ob, _, _, b1, b2, b3, _⟩ := writes_produce hok l2
        rw [a1] at w1; injection w1 with w1; subst w1
        rw [b1] at w2; injection w2 with w2; subst w2
        rw [C13_chunking hok l1 l2 he, b3] at a3
        injection a3 with a3
        rw [a2, b2, a3]
  obtain ⟨o0, o, files, c, s, ch, e1, e2, e3, e4, e5⟩ := create_out goOn iname h.dname h.old dst hi hd hroom l (by rw [hl]; exact hne)
  obtain ⟨o0', o', files', c', s', ch', e1', e2', e3', _⟩ := create_out goOn iname h.dname h.old dst hi hd hroom writes (by rw [hw]; exact hne)
  rw [e1] at e1'; injection e1' with e1'; subst e1'
  unfold xformTo createTo
  rw [ht]
  simp only [e1, e2, e2', Option.map_none]
  rw [hcl o0 e1 l writes (by rw [hl, hw]) o o' e2 e2']

/-- successive transformations; none fails -/
def xforms (goOn : Nat → Bool) (src : XSrc) : List (Bytes × XDst) → Option XSrc
  | [] => some src
  | (n, dst) :: l => match xformTo goOn src n dst false with
    | (files, none) => xforms goOn (.slices files) l
    | _ => none

/-- C71: **Any number of times.** -/
theorem C71_chain (goOn : Nat → Bool) (l : List (Bytes × XDst)) : ∀ (src : XSrc) (h : SliceHdr) (d : Bytes), src.read goOn = .ok (h, d) → d ≠ [] → h.old = false → LabelOk h.dname →
    (∀ x ∈ l, LabelOk x.1 ∧ Room x.1 h.dname false x.2) → ∃ src' h', xforms goOn src l = some src' ∧ src'.read goOn = .ok (h', d) ∧ h'.dname = h.dname ∧ h'.old = false := by
  induction l with
  | nil => intro src h d hr _ ho _ _; exact ⟨src, h, rfl, hr, rfl, ho⟩
  | cons x l ih =>
    obtain ⟨n, dst⟩ := x
    intro src h d hr hne ho hd hx
    obtain ⟨hi, hrm⟩ := hx (n, dst) (by simp)
    obtain ⟨files, h', e1, e2, _, _, e5, e6⟩ := C71_reslice goOn src h d n dst hr hne hi hd (by rw [ho]; exact hrm)
    have e6 := e6 ho
    obtain ⟨src', h2, g1, g2, g3, g4⟩ := ih (.slices files) h' d e2 hne (by rw [e5, ho]) (by rw [e6]; exact hd) (fun x hm => by rw [e6]; exact hx x (by simp [hm]))
    refine ⟨src', h2, ?_, g2, by rw [g3, e6], g4⟩
    rw [xforms, e1]
    exact g1

/-- C71: **Success is never reported when the original could not be read to its end.** -/
theorem C71_success (goOn : Nat → Bool) (src : XSrc) (iname : Bytes) (dst : XDst) (fails : Bool) (files : List Bytes) (h : xformTo goOn src iname dst fails = (files, none)) :
    ∃ s d, src.read goOn = .ok (s, d) := by
  unfold xformTo at h
  unfold XSrc.read
  cases ht : src.take goOn with
  | error e => rw [ht] at h; cases h
  | ok p =>
    obtain ⟨s, l, e⟩ := p
    cases e with
    | none => exact ⟨_, _, rfl⟩
    | some e =>
      exfalso
      rw [ht] at h
      simp only at h
      split at h
      · cases h
      · split at h
        · cases h
        · cases h

/-- C71: **What stops the reading of the first header is reported as it is** (an option of a more recent version, an interruption, an internal error, a number too large); the rest is for the user to
solve, who here gives up. -/
theorem C71_header_error (goOn : Nat → Bool) (f : Bytes) (more : List Bytes) (e : Err) (he : sliceRead goOn (some f.length) f.length f = .error e) (iname : Bytes) (dst : XDst) (fails : Bool) :
    xformTo goOn (.slices (f :: more)) iname dst fails =
      ([], some (if e = .unsupported ∨ e = .cancel ∨ e = .userAbort ∨ e = .limitint ∨ e = .bug ∨ e = .ub ∨ e = .diverge then e else .userAbort)) := by
  have ho : openHdr goOn f = .error (if e = .unsupported ∨ e = .cancel ∨ e = .userAbort ∨ e = .limitint ∨ e = .bug ∨ e = .ub ∨ e = .diverge then e else .userAbort) := by
    unfold openHdr
    rw [he]
    cases e <;> rfl
  have hs : setStart goOn (f :: more) = .error (if e = .unsupported ∨ e = .cancel ∨ e = .userAbort ∨ e = .limitint ∨ e = .bug ∨ e = .ub ∨ e = .diverge then e else .userAbort) := by
    unfold setStart setOpen
    simp only [Nat.sub_self, List.getElem?_cons_zero, ho]
    rfl
  unfold xformTo XSrc.take
  simp only [hs]
  rfl

/-- C71: **Errors met while copying are told from one another**: an interruption, a failed user command, a user who gives up and internal errors are reported as such, all others as a failure of the
operation (Edata). -/
theorem C71_copy_error (goOn : Nat → Bool) (src : XSrc) (h : SliceHdr) (l : List Bytes) (e : Err) (iname : Bytes) (dst : XDst) (ht : src.take goOn = .ok (h, l, some e)) (hne : l.flatten ≠ [])
    (hi : LabelOk iname) (hd : LabelOk h.dname) (hroom : Room iname h.dname h.old dst) :
    (xformTo goOn src iname dst false).2 = some (if e = .script ∨ e = .userAbort ∨ e = .bug ∨ e = .cancel ∨ e = .ub ∨ e = .diverge then e else .data) := by
  obtain ⟨o0, o, files, c, s, ch, e1, e2, e3, e4, e5⟩ := create_out goOn iname h.dname h.old dst hi hd hroom l hne
  unfold xformTo
  rw [ht]
  simp only [e1, e2]
  cases e <;> rfl

private theorem xwrites_none : ∀ (l : List Bytes) (o : XOut), (o.writes l).2 = none → ∀ l1 a l2, l = l1 ++ a :: l2 → ∃ o1 o2, o.writes l1 = (o1, none) ∧ o1.write a = .ok o2 := by
  intro l
  induction l with
  | nil => intro o _ l1 a l2 h; simp at h
  | cons b l ih =>
    intro o h l1 a l2 e
    unfold XOut.writes at h
    cases hb : o.write b with
    | error e' => rw [hb] at h; cases h
    | ok o' =>
      rw [hb] at h
      cases l1 with
      | nil =>
        obtain ⟨rfl, _⟩ : b = a ∧ l = l2 := by simpa using e
        exact ⟨o, o', rfl, hb⟩
      | cons c l1 =>
        obtain ⟨rfl, el⟩ : b = c ∧ l = l1 ++ a :: l2 := by simpa using e
        obtain ⟨o1, o2, h1, h2⟩ := ih o' h l1 a l2 el
        refine ⟨o1, o2, ?_, h2⟩
        unfold XOut.writes
        rw [hb]
        exact h1

/-- C71: **Success means that every piece was accepted by the destination** (a slice that cannot be closed or opened, a header that does not fit... are reported). -/
theorem C71_write_error (goOn : Nat → Bool) (src : XSrc) (iname : Bytes) (dst : XDst) (fails : Bool) (hok : (xformTo goOn src iname dst fails).2 = none) :
    ∃ h l o, src.take goOn = .ok (h, l, none) ∧ newOut (newHdr iname h.dname h.old dst) dst = .ok o ∧
      ∀ l1 a l2, l = l1 ++ a :: l2 → ∃ o1 o2, o.writes l1 = (o1, none) ∧ o1.write a = .ok o2 := by
  unfold xformTo at hok
  cases ht : src.take goOn with
  | error e => rw [ht] at hok; cases hok
  | ok t =>
    obtain ⟨h, l, err⟩ := t
    rw [ht] at hok
    simp only at hok
    cases hn : newOut (newHdr iname h.dname h.old dst) dst with
    | error e => rw [hn] at hok; cases hok
    | ok o =>
      rw [hn] at hok
      simp only at hok
      rcases hw : o.writes l with ⟨o', e⟩
      rw [hw] at hok
      cases e with
      | some e => cases hok
      | none =>
        have herr : err = none := by cases err; exacts [rfl, by cases hok]
        subst herr
        exact ⟨h, l, o, rfl, hn, xwrites_none l o (by rw [hw])⟩

/-- C71: **The slices of two archives are never mixed.**  When slice number `pre.length + 1` is not readable, or belongs to another set of slices than the first slice, either the reading fails
or nothing of that slice nor of those after it was used. -/
theorem C71_foreign (goOn : Nat → Bool) (pre post : List Bytes) (g : Bytes) (h : SliceHdr) (d : Bytes) (f1 : Bytes) (hpre : pre[0]? = some f1)
    (hbad : ∀ hg pg h1 p1, openHdr goOn g = .ok (hg, pg) → openHdr goOn f1 = .ok (h1, p1) → hg.iname ≠ h1.iname)
    (hr : (XSrc.slices (pre ++ g :: post)).read goOn = .ok (h, d)) : (XSrc.slices pre).read goOn = .ok (h, d) := by
  have hlen : 1 ≤ pre.length := by
    cases pre with
    | nil => cases hpre
    | cons a l => simp
  obtain ⟨l, ht, hl⟩ := take_of_read hr
  simp only [XSrc.take] at ht
  cases hs : setStart goOn (pre ++ g :: post) with
  | error e => rw [hs] at ht; cases ht
  | ok p =>
    obtain ⟨s, r⟩ := p
    rw [hs] at ht
    simp only [Bind.bind, Except.bind, Except.ok.injEq, Prod.mk.injEq] at ht
    obtain ⟨h1, h2⟩ := ht
    subst h1
    have hs' : setStart goOn pre = .ok (s, r) := by
      rw [← hs]; unfold setStart; rw [setOpen_pre (by omega) hlen]
    obtain ⟨n1, _, _, _, f, hd, k1, k2, _, _, k5, k6⟩ := setOpen_num hs'
    rw [show 1 - 1 = 0 from rfl, hpre] at k1
    injection k1 with k1
    subst k1
    have hb : ∀ last, ∃ e, setOpen goOn (pre ++ g :: post) (some s) last (pre.length + 1) = .error e := by
      intro last
      unfold setOpen
      rw [Nat.add_sub_cancel, List.getElem?_append_right (Nat.le_refl _), Nat.sub_self]
      simp only [List.getElem?_cons_zero]
      cases hg : openHdr goOn g with
      | error e => exact ⟨e, rfl⟩
      | ok q =>
        obtain ⟨hg', pg⟩ := q
        simp only [Bind.bind, Except.bind, Option.getD_some]
        rw [if_pos (by rw [k6]; exact fun hc => hbad hg' pg hd _ hg k2 hc.symm)]
        exact ⟨_, rfl⟩
    have hc := setCopy_pre hb _ (setTurns pre s) r l (by rw [n1]) (by rw [n1]; exact hlen) (sliceLeft_start hs') h2
    unfold XSrc.read
    rw [take_slices hs', hc]
    simp only [hl]

/-- C71: **An archive whose last slice is missing is never taken for a complete one**: without a slice marked as the last, a reading to the end, hence a transformation, always fails. -/
theorem C71_last_missing (goOn : Nat → Bool) (files : List Bytes) (hno : ∀ (i : Nat) f h p, files[i]? = some f → openHdr goOn f = .ok (h, p) → openFlag h f ≠ .ok flagTerminal)
    (iname : Bytes) (dst : XDst) (fails : Bool) :
    (∃ e, (XSrc.slices files).read goOn = .error e) ∧ (xformTo goOn (.slices files) iname dst fails).2 ≠ none := by
  have hrd : ∃ e, (XSrc.slices files).read goOn = .error e := by
    unfold XSrc.read
    cases hs : setStart goOn files with
    | error e => simp only [XSrc.take, hs]; exact ⟨e, rfl⟩
    | ok p =>
      obtain ⟨s, r⟩ := p
      obtain ⟨_, _, _, _, f, hd, k1, k2, k3, k4, _⟩ := setOpen_num hs
      have hfl : r.flag ≠ flagTerminal := by
        intro hc; rw [hc] at k3; exact hno _ f hd _ k1 k2 k3
      unfold openLast at k4
      rw [if_neg hfl] at k4
      injection k4 with k4
      obtain ⟨l, e, hc⟩ := setCopy_noend (s := s) hno (setTurns files s) r hfl k4.symm
      rw [take_slices hs, hc]
      exact ⟨e, rfl⟩
  refine ⟨hrd, ?_⟩
  intro hc
  obtain ⟨s, d, h⟩ := C71_success goOn (.slices files) iname dst fails (xformTo goOn (.slices files) iname dst fails).1 (by rw [← hc])
  obtain ⟨e, he⟩ := hrd
  rw [he] at h; cases h

/-- C71: **An archive cut off in a pipe is noticed**: in the recent format, when an archive received by a pipe is accepted, the stream was ended by the closing mark, of which the data is what
precedes it; or it was cut right after its header. -/
theorem C71_pipe_end (goOn : Nat → Bool) (s : Bytes) (h : SliceHdr) (d : Bytes) (hr : (XSrc.pipe s).read goOn = .ok (h, d)) (ho : h.old = false) :
    ∃ rest, pipeStart goOn s = .ok (h, rest) ∧ (rest = d ++ [flagTerminal] ∨ rest = [] ∧ d = []) := by
  obtain ⟨l, ht, hl⟩ := take_of_read hr
  simp only [XSrc.take] at ht
  cases hs : pipeStart goOn s with
  | error e => rw [hs] at ht; cases ht
  | ok p =>
    obtain ⟨h', rest⟩ := p
    rw [hs] at ht
    simp only [Bind.bind, Except.bind, Except.ok.injEq, Prod.mk.injEq] at ht
    obtain ⟨h1, h2⟩ := ht
    subst h1
    rw [ho] at h2
    refine ⟨rest, rfl, ?_⟩
    rcases pipeCopy_ends _ _ _ h2 with h3 | ⟨h3, h4⟩
    · left; rw [h3, hl]
    · right; refine ⟨h3, ?_⟩; rw [← hl, h4]; rfl

/-- C71: **The layout is found in the first slice**: reads and skips of any kind on the new archive see the transformed data as a plain file. -/
theorem C71_random_access_partial (goOn : Nat → Bool) (src : XSrc) (h : SliceHdr) (d : Bytes) (iname : Bytes) (dst : XDst) (hr : src.read goOn = .ok (h, d)) (hne : d ≠ [])
    (hi : LabelOk iname) (hd : LabelOk h.dname) (hroom : Room iname h.dname h.old dst) (ops : List FileOp) (outs : List Bytes) (hops : plainFile d 0 ops = some outs) :
    ∃ files s c r, xformTo goOn src iname dst false = (files, none) ∧ setStart goOn files = .ok (s, r) ∧ c.lay = s.lay ∧ sarSession c files r ops = .ok outs := by
  obtain ⟨l, ht, hl⟩ := take_of_read hr
  obtain ⟨o0, o, files, c, s, ch, e1, e2, e3, e4, e5⟩ := create_out goOn iname h.dname h.old dst hi hd hroom l (by rw [hl]; exact hne)
  obtain ⟨files', r, p1, p2, p3⟩ := C13_read_partial e4.set.ok [d] ops outs (by simpa using hops)
  rw [hl] at e4
  rw [e4.prod] at p1
  injection p1 with p1
  subst p1
  refine ⟨files, s, c, r, ?_, ?_, e4.set.lay.symm, p3⟩
  · unfold xformTo
    rw [ht]
    simp only [e1, e2, e3]
    rfl
  · have hs := e4.set
    rw [setStart_eq hs (by rw [e4.asFiles]; exact files_flags hs.ok ch), p2]
    rfl

/-- C71: what is left by a transformation that fails for want of a slice (or for any other reading error) after having copied `l`: **a set of slices closed as a complete one**, that reads as `l`
and that nothing tells from a whole archive, except the exit status of the program. -/
theorem C71_interrupted (goOn : Nat → Bool) (src : XSrc) (h : SliceHdr) (l : List Bytes) (e : Err) (iname : Bytes) (dst : XDst) (ht : src.take goOn = .ok (h, l, some e)) (hne : l.flatten ≠ [])
    (hi : LabelOk iname) (hd : LabelOk h.dname) (hroom : Room iname h.dname h.old dst) :
    ∃ files h', xformTo goOn src iname dst false = (files, some (xformErr e)) ∧ (XSrc.slices files).read goOn = .ok (h', l.flatten) := by
  obtain ⟨o0, o, files, c, s, ch, e1, e2, e3, e4, e5⟩ := create_out goOn iname h.dname h.old dst hi hd hroom l hne
  refine ⟨files, s, ?_, created_read e4⟩
  unfold xformTo
  rw [ht]
  simp only [e1, e2, e3]
  rfl

/-- C71: **The data name of an archive of format 07 is not kept**: it becomes the name of the new set of slices.  (What was isolated from the original no longer goes with it.) -/
theorem C71_old_name_counterexample (goOn : Nat → Bool) (src : XSrc) (h : SliceHdr) (d : Bytes) (iname : Bytes) (dst : XDst) (hr : src.read goOn = .ok (h, d)) (hne : d ≠ [])
    (hi : LabelOk iname) (hd : LabelOk h.dname) (hroom : Room iname h.dname h.old dst) (ho : h.old = true) (hdiff : iname ≠ h.dname) :
    ∃ files h', xformTo goOn src iname dst false = (files, none) ∧ (XSrc.slices files).read goOn = .ok (h', d) ∧ h'.dname = iname ∧ h'.dname ≠ h.dname := by
  obtain ⟨l, ht, hl⟩ := take_of_read hr
  obtain ⟨o0, o, files, c, s, ch, e1, e2, e3, e4, e5⟩ := create_out goOn iname h.dname h.old dst hi hd hroom l (by rw [hl]; exact hne)
  have hn : s.dname = iname := by rw [e4.dnm, ho]; rfl
  refine ⟨files, s, ?_, by rw [created_read e4, hl], hn, by rw [hn]; exact hdiff⟩
  unfold xformTo
  rw [ht]
  simp only [e1, e2, e3]
  rfl

/-! ### examples, and what the code does wrong -/

/-- names of sets of slices -/
def xName (n : UInt8) : Bytes := List.replicate 9 7 ++ [n]
theorem xName_ok (n : UInt8) : LabelOk (xName n) := by
  refine ⟨rfl, ?_⟩
  unfold xName labelCleared
  simp

/-- what is read -/
def xData (src : XSrc) : Option Bytes := match src.read (fun _ => true) with
  | .ok (_, d) => some d
  | .error _ => none

example : Room (xName 1) (xName 2) false (.slices 70 80) := by
  show _ ∧ _
  decide +kernel
example : Room (xName 1) (xName 2) true (.slices 25 20) := by
  show _ ∧ _
  decide +kernel

/-- an archive of format 07 in three slices -/
def xOld : List Bytes := (createTo (xName 1) (xName 2) true (.slices 25 20) [[1, 2, 3, 4, 5], [6, 7, 8, 9, 10]]).1
/-- a recent archive in three slices -/
def xNew : List Bytes := (createTo (xName 1) (xName 2) false (.slices 70 80) [[1, 2, 3, 4, 5], [6, 7, 8, 9, 10, 11, 12, 13, 14, 15, 16, 17, 18, 19, 20, 21, 22, 23, 24, 25, 26, 27, 28, 29, 30]]).1
/-- a recent archive in one file -/
def xOne : List Bytes := (createTo (xName 1) (xName 2) false .single [[1, 2, 3, 4, 5]]).1

example : xOld.length = 3 ∧ xNew.length = 3 ∧ xOne.length = 1 := by decide +kernel
example : xData (.slices xNew) = some [1, 2, 3, 4, 5, 6, 7, 8, 9, 10, 11, 12, 13, 14, 15, 16, 17, 18, 19, 20, 21, 22, 23, 24, 25, 26, 27, 28, 29, 30] := by decide +kernel
example : xData (.slices xOld) = some [1, 2, 3, 4, 5, 6, 7, 8, 9, 10] := by decide +kernel
/-- the hypotheses of C71_last_missing are met by the first two slices -/
example : xData (.slices (xNew.take 2)) = none := by decide +kernel
/-- those of C71_foreign: the second slice replaced by that of another archive -/
example : xData (.slices (xNew.set 1 (((createTo (xName 3) (xName 2) false (.slices 70 80) [List.replicate 30 9]).1).getD 1 []))) = none := by decide +kernel

/-- C71: **A failure at the very end goes unnoticed**: xform_to relies on a destructor to complete the last slice, which ignores the exception; success is reported, and the archive cannot be read. -/
theorem C71_close_counterexample : (xformTo (fun _ => true) (.slices xNew) (xName 3) (.slices 70 80) true).2 = none ∧
    xData (.slices (xformTo (fun _ => true) (.slices xNew) (xName 3) (.slices 70 80) true).1) = none := by decide +kernel

/-- C71: **The archive left by a failure passes for a complete one** (see C71_interrupted). -/
theorem C71_interrupted_counterexample : (xformTo (fun _ => true) (.slices (xNew.take 2)) (xName 3) .single false).2 = some .userAbort ∧
    xData (.slices (xformTo (fun _ => true) (.slices (xNew.take 2)) (xName 3) .single false).1) = some [] := by decide +kernel

/-- C71: **A truncated slice is filled with zeros, silently**: in the middle of a set of format 07; or of the recent format when the byte it now ends with looks like a flag. -/
theorem C71_truncated_slice_counterexample :
    xData (.slices (xOld.set 1 ((xOld.getD 1 []).take 18))) = some [1, 2, 3, 4, 5, 6, 0, 0, 9, 10] ∧
    (xformTo (fun _ => true) (.slices (xOld.set 1 ((xOld.getD 1 []).take 18))) (xName 3) .single false).2 = none ∧
    let f := (createTo (xName 1) (xName 2) false (.slices 70 80) [List.replicate 20 78]).1
    xData (.slices (f.set 0 ((f.getD 0 []).take 67))) = some (List.replicate 4 78 ++ List.replicate 3 0 ++ List.replicate 13 78) := by decide +kernel

/-- C71: **A truncated single file is accepted**: its last byte, whatever it is, is taken for the closing flag.  (From a pipe it is refused.) -/
theorem C71_truncated_single_counterexample :
    let f := (xOne.getD 0 [])
    xData (.slices [f.take (f.length - 3)]) = some [1, 2] ∧ (xformTo (fun _ => true) (.slices [f.take (f.length - 3)]) (xName 3) .single false).2 = none ∧
    xData (.pipe f) = some [1, 2, 3, 4, 5] ∧ xData (.pipe (f.take (f.length - 3))) = none := by decide +kernel

end Dar
