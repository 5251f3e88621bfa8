import Verif.Lemmas.StreamComp
/- Property theorems C72: streamed compression (gzip, bzip2, xz, zstd) is transparent. -/
namespace Dar

private theorem mem_le_sum {n : Nat} {l : List Nat} (h : n ∈ l) : n ≤ l.sum := by
  induction l with
  | nil => cases h
  | cons a l ih =>
    rw [List.sum_cons]
    rcases List.mem_cons.mp h with h | h
    · omega
    · have := ih h; omega

/-- **C72**, gzip, bzip2, xz: any number of items, each written in any pieces, are restored exactly by any reader, with buffers of any size: going to the position noted before an item was written, in any order,
any number of times, leaving it at any point, any sequence of reads gives what the plain data of the item would give, and nothing after its end.  Two conditions: the item is not empty, and its size is not a
multiple of the capacity of the byte counter of the library. -/
theorem C72_visits (E : ZEnc) (D : ZDec) (code : Bytes → Bytes → Prop) (hE : E.Lawful code) (hD : D.Lawful code) (W B B' : Nat) (hB : 0 < B) (hB' : 0 < B') (pre : Bytes)
    (ls : List (List Bytes)) (hw : ∀ l ∈ ls, l.flatten.length % 2 ^ W = 0 → l.flatten = []) :
    ∃ N w' ps, ps.length = ls.length ∧ ∀ fuel, N ≤ fuel → (zwNew E ⟨pre, pre.length⟩).items W B fuel ls = .ok (w', ps) ∧
      ∀ vs : List (Nat × List Nat), (∀ v ∈ vs, ∃ l, ls[v.1]? = some l ∧ l.flatten ≠ []) →
        ∃ r', (zrNew D w'.file).visits B' fuel (vs.map fun v => (ps.getD v.1 0, v.2)) = .ok (vs.map fun v => plainReads (ls.getD v.1 []).flatten 0 v.2, r') := by
  obtain ⟨rep, lag, H⟩ := hE.get
  obtain ⟨rp, HD⟩ := hD.get
  obtain ⟨N, w', ps, out, h1, h2, h3, h4⟩ := zitems_spec (W := W) H hB ls (zwNew E ⟨pre, pre.length⟩) pre ⟨rfl, rfl, rfl, rfl⟩ hw
  refine ⟨max N ((pre ++ out).length + (ls.map (fun l => l.flatten.length)).sum + 1), w', ps, h2, fun fuel hf => ⟨h3 fuel (by omega), ?_⟩⟩
  intro vs
  suffices hh : ∀ (vs : List (Nat × List Nat)) (r : ZR D), r.susp = false → r.file.data = pre ++ out → (∀ v ∈ vs, ∃ l, ls[v.1]? = some l ∧ l.flatten ≠ []) →
      ∃ r', r.visits B' fuel (vs.map fun v => (ps.getD v.1 0, v.2)) = .ok (vs.map fun v => plainReads (ls.getD v.1 []).flatten 0 v.2, r') from
    hh vs _ rfl (by simp [zrNew, h1.file])
  intro vs
  induction vs with
  | nil => intro r _ _ _; exact ⟨r, rfl⟩
  | cons v vs ih =>
    intro r hs hd hvs
    obtain ⟨l, hl, hne⟩ := hvs v List.mem_cons_self
    obtain ⟨hi, hl'⟩ := List.getElem?_eq_some_iff.mp hl
    obtain ⟨bf, z, af, q1, q2, q3⟩ := h4 v.1 hi
    rw [hl'] at q2
    have hcode : code l.flatten z := by unfold itemCode at q2; rwa [if_neg hne] at q2
    have hld : ls.getD v.1 [] = l := by rw [List.getD_eq_getElem?_getD, hl]; rfl
    have hp : ps.getD v.1 0 = (pre ++ bf).length := by rw [List.getD_eq_getElem?_getD, q3]; simp
    have hdl : l.flatten.length ≤ (ls.map (fun l => l.flatten.length)).sum :=
      mem_le_sum (List.mem_map.mpr ⟨l, List.mem_of_getElem? hl, rfl⟩)
    have hzl : z.length ≤ (pre ++ out).length := by rw [q1]; simp; omega
    have hinv := zskip_inv HD (r := r) (pre := pre ++ bf) (d := l.flatten) (z := z) (avail := z ++ af) hs (by rw [hd, q1]; simp)
    obtain ⟨r1, c1, p1, e1, hi1⟩ := zreads_spec HD hB' hcode (List.prefix_append z af) fuel (by omega) v.2 _ _ _ hinv
    obtain ⟨r2, e2⟩ := ih r1 hi1.susp (by rw [hi1.data, q1]; simp) (fun v hv => hvs v (List.mem_cons_of_mem _ hv))
    refine ⟨r2, ?_⟩
    rw [List.map_cons]
    unfold ZR.visits
    simp only [hp]
    rw [e1]; simp only; rw [e2]
    simp only [List.map_cons, hld, List.length_nil]

/-- **C72**, zstd: the same; an item for which something was written, be it an empty piece, is kept apart from the next one. -/
theorem C72_zstd_visits (E : ZEnc) (D : ZDec) (code : Bytes → Bytes → Prop) (hE : E.Lawful code) (hD : D.Eager code) (A B A' B' : Nat) (hA : 0 < A) (hB : 0 < B) (hA' : 0 < A') (hB' : 0 < B')
    (pre : Bytes) (ls : List (List Bytes)) :
    ∃ N w' ps, ps.length = ls.length ∧ ∀ fuel, N ≤ fuel → (zswNew E ⟨pre, pre.length⟩).items A B fuel ls = .ok (w', ps) ∧
      ∀ vs : List (Nat × List Nat), (∀ v ∈ vs, ∃ l, ls[v.1]? = some l ∧ l ≠ []) →
        ∃ r', (zsrNew D w'.file).visits A' B' fuel (vs.map fun v => (ps.getD v.1 0, v.2)) = .ok (vs.map fun v => plainReads (ls.getD v.1 []).flatten 0 v.2, r') := by
  obtain ⟨rep, lag, H⟩ := hE.get
  obtain ⟨rp, HD⟩ := hD.get
  obtain ⟨N, w', ps, out, h1, h2, h3, h4⟩ := zsitems_spec H hA hB ls (zswNew E ⟨pre, pre.length⟩) pre ⟨rfl, rfl, rfl, rfl⟩
  refine ⟨max N ((pre ++ out).length + (ls.map (fun l => l.flatten.length)).sum + 2), w', ps, h2, fun fuel hf => ⟨h3 fuel (by omega), ?_⟩⟩
  intro vs
  suffices hh : ∀ (vs : List (Nat × List Nat)) (r : ZsR D), r.susp = false → r.file.data = pre ++ out → (∀ v ∈ vs, ∃ l, ls[v.1]? = some l ∧ l ≠ []) →
      ∃ r', r.visits A' B' fuel (vs.map fun v => (ps.getD v.1 0, v.2)) = .ok (vs.map fun v => plainReads (ls.getD v.1 []).flatten 0 v.2, r') from
    hh vs _ rfl (by simp [zsrNew, h1.file])
  intro vs
  induction vs with
  | nil => intro r _ _ _; exact ⟨r, rfl⟩
  | cons v vs ih =>
    intro r hs hd hvs
    obtain ⟨l, hl, hne⟩ := hvs v List.mem_cons_self
    obtain ⟨hi, hl'⟩ := List.getElem?_eq_some_iff.mp hl
    obtain ⟨bf, z, af, q1, q2, q3⟩ := h4 v.1 hi
    rw [hl'] at q2
    have hcode : code l.flatten z := by unfold pieceCode at q2; rwa [if_neg hne] at q2
    have hld : ls.getD v.1 [] = l := by rw [List.getD_eq_getElem?_getD, hl]; rfl
    have hp : ps.getD v.1 0 = (pre ++ bf).length := by rw [List.getD_eq_getElem?_getD, q3]; simp
    have hdl : l.flatten.length ≤ (ls.map (fun l => l.flatten.length)).sum :=
      mem_le_sum (List.mem_map.mpr ⟨l, List.mem_of_getElem? hl, rfl⟩)
    have hzl : z.length ≤ (pre ++ out).length := by rw [q1]; simp; omega
    have hinv := zsskip_inv HD (r := r) (pre := pre ++ bf) (d := l.flatten) (z := z) (avail := z ++ af) hs (by rw [hd, q1]; simp)
    obtain ⟨r1, c1, p1, e1, hi1⟩ := zsreads_spec HD hA' hB' hcode (List.prefix_append z af) fuel (by omega) v.2 _ _ _ hinv
    obtain ⟨r2, e2⟩ := ih r1 hi1.susp (by rw [hi1.data, q1]; simp) (fun v hv => hvs v (List.mem_cons_of_mem _ hv))
    refine ⟨r2, ?_⟩
    rw [List.map_cons]
    unfold ZsR.visits
    simp only [hp]
    rw [e1]; simp only; rw [e2]
    simp only [List.map_cons, hld, List.length_nil]

/-- **C72**, a cut stream, gzip, bzip2, xz: the file ends inside the stream of `d`; every read succeeds and what is given is the beginning of the data (and see C72_truncated_counterexample: the lack of the rest
is not reported). -/
theorem C72_truncated (D : ZDec) (code : Bytes → Bytes → Prop) (hD : D.Lawful code) (B : Nat) (hB : 0 < B) (pre d z avail : Bytes) (hc : code d z) (hcut : avail <+: z) (n : Nat) (fuel : Nat)
    (hf : z.length + d.length < fuel) :
    ∃ out r', ((zrNew D ⟨pre ++ avail, 0⟩).skip pre.length).read B fuel n = .ok (out, r') ∧ out <+: d ∧ out.length ≤ n := by
  obtain ⟨rp, HD⟩ := hD.get
  have hinv := zskip_inv HD (r := zrNew D ⟨pre ++ avail, 0⟩) (d := d) (z := z) (avail := avail) rfl rfl
  obtain ⟨out, r', c', e, h1, h2, _⟩ := zread_spec HD hB hc (Or.inl hcut) fuel hf _ _ _ hinv n
  exact ⟨out, r', e, by simpa using h1.pd, h2⟩

/-- **C72**, a cut stream, zstd: a read gives all that was asked for, or all the data, or fails with a range error: it is never silently short. -/
theorem C72_zstd_truncated (D : ZDec) (code : Bytes → Bytes → Prop) (hD : D.Eager code) (A B : Nat) (hA : 0 < A) (hB : 0 < B) (pre d z avail : Bytes) (hc : code d z)
    (hcut : avail <+: z) (hlt : avail ≠ z) (n : Nat) (fuel : Nat) (hf : z.length + d.length + 1 < fuel) :
    (∃ r', ((zsrNew D ⟨pre ++ avail, 0⟩).skip pre.length).read A B fuel n = .ok (d.take n, r') ∧ n ≤ d.length) ∨
      ((zsrNew D ⟨pre ++ avail, 0⟩).skip pre.length).read A B fuel n = .error .range := by
  obtain ⟨rp, HD⟩ := hD.get
  have hinv := zsskip_inv HD (r := zsrNew D ⟨pre ++ avail, 0⟩) (d := d) (z := z) (avail := avail) rfl rfl
  unfold ZsR.read
  rw [if_neg (by simp [ZsR.skip, zsrNew])]
  rcases zspull_spec HD hA hB hc (Or.inl hcut) fuel _ _ _ n hinv (by simp; omega) with ⟨out, r', c', e, h1, h2, h3, h4⟩ | ⟨e, _⟩
  · left
    have ho := take_of_full h1.pd h2 h3
    have hfull : out.length = n := by
      by_contra hne
      have hz := (h1.fin (h4 hne)).1
      have hle : c'.length ≤ avail.length := by
        have := congrArg List.length h1.rest
        simp only [List.length_append] at this
        omega
      rw [hz] at hle
      exact hlt (hcut.eq_of_length_le hle)
    refine ⟨r', by rw [e, ho]; simp, ?_⟩
    have := h1.pd.length_le
    simp at this; omega
  · right; exact e

/-- **C72**, gzip, bzip2, xz: the position is refused while the library holds data of an item, and is the end of the file once the item is complete. -/
theorem C72_position (E : ZEnc) (code : Bytes → Bytes → Prop) (hE : E.Lawful code) (W B : Nat) (hB : 0 < B) (pre : Bytes) (l : List Bytes) (hw : l.flatten.length % 2 ^ W ≠ 0) :
    ∃ N w w', ∀ fuel, N ≤ fuel → (zwNew E ⟨pre, pre.length⟩).writes B fuel l = .ok w ∧ w.position W = .error .bug ∧
      w.sync W B fuel = .ok w' ∧ w'.position W = .ok w'.file.data.length ∧ ∃ z, code l.flatten z ∧ w'.file.data = pre ++ z := by
  obtain ⟨rep, lag, H⟩ := hE.get
  obtain ⟨N, w1, o1, h1, f1⟩ := zwrites_spec H hB pre l (zwNew E ⟨pre, pre.length⟩) [] [] (ZReady.inv H ⟨rfl, rfl, rfl, rfl⟩)
  rw [List.nil_append] at h1
  obtain ⟨M, w2, z, c1, c2, c3, c4⟩ := zfinish_spec H hB pre (lag w1.st) w1 l.flatten o1 false (Nat.le_refl _) h1.rep h1.file
  refine ⟨max N M, w1, { w2 with st := E.init, total := 0 }, fun fuel hf => ⟨f1 fuel (by omega), ?_, ?_, ?_, z, c1, by simp [c2]⟩⟩
  · unfold ZW.position wideTotal; rw [h1.total, if_pos hw]
  · unfold ZW.sync; rw [if_neg (by unfold wideTotal; rw [h1.total]; exact hw), c4 fuel (by omega)]
  · unfold ZW.position wideTotal; simp [c2]

/-- **C72**: suspending the compression completes the current item; what is then written goes to the file unchanged, and once resumed new items are compressed again. -/
theorem C72_suspended (E : ZEnc) (code : Bytes → Bytes → Prop) (hE : E.Lawful code) (W B : Nat) (hB : 0 < B) (pre : Bytes) (l : List Bytes) (hw : l.flatten.length % 2 ^ W ≠ 0) (raw : Bytes) :
    ∃ N w w1 w2 z, code l.flatten z ∧ ∀ fuel, N ≤ fuel → (zwNew E ⟨pre, pre.length⟩).writes B fuel l = .ok w ∧ w.suspend W B fuel = .ok w1 ∧ w1.write B fuel raw = .ok w2 ∧
      w2.file.data = pre ++ z ++ raw ∧ w2.resume = zwNew E ⟨pre ++ z ++ raw, (pre ++ z ++ raw).length⟩ := by
  obtain ⟨rep, lag, H⟩ := hE.get
  obtain ⟨N, w1, o1, h1, f1⟩ := zwrites_spec H hB pre l (zwNew E ⟨pre, pre.length⟩) [] [] (ZReady.inv H ⟨rfl, rfl, rfl, rfl⟩)
  rw [List.nil_append] at h1
  obtain ⟨M, w2, z, c1, c2, c3, c4⟩ := zfinish_spec H hB pre (lag w1.st) w1 l.flatten o1 false (Nat.le_refl _) h1.rep h1.file
  refine ⟨max N M, w1, { w2 with st := E.init, total := 0, susp := true }, { w2 with st := E.init, total := 0, susp := true, file := w2.file.write raw }, z, c1, fun fuel hf =>
    ⟨f1 fuel (by omega), ?_, ?_, ?_, ?_⟩⟩
  · unfold ZW.suspend
    rw [if_neg (by rw [h1.susp]; simp)]
    unfold ZW.sync; rw [if_neg (by unfold wideTotal; rw [h1.total]; exact hw), c4 fuel (by omega)]
  · unfold ZW.write; simp
  · simp only [c2, flat_write_tail]
  · simp only [ZW.resume, zwNew, c2, flat_write_tail]

/-- **C72**, zstd: the same. -/
theorem C72_zstd_suspended (E : ZEnc) (code : Bytes → Bytes → Prop) (hE : E.Lawful code) (A B : Nat) (hA : 0 < A) (hB : 0 < B) (pre : Bytes) (l : List Bytes) (hl : l ≠ []) (raw : Bytes) :
    ∃ N w w1 w2 z, code l.flatten z ∧ ∀ fuel, N ≤ fuel → (zswNew E ⟨pre, pre.length⟩).writes A B fuel l = .ok w ∧ w.suspend B fuel = .ok w1 ∧ w1.write A B fuel raw = .ok w2 ∧
      w2.file.data = pre ++ z ++ raw ∧ w2.st = E.init ∧ w2.flushed = true := by
  obtain ⟨rep, lag, H⟩ := hE.get
  obtain ⟨N, w1, o1, h1, g1, f1⟩ := zswrites_spec H hA hB pre l (zswNew E ⟨pre, pre.length⟩) [] [] ⟨H.init, rfl, by simp [zswNew]⟩
  rw [List.nil_append] at h1
  obtain ⟨M, w2, z, c1, c2, c3, c4⟩ := zsfinish_spec H hB pre (lag w1.st) w1 l.flatten o1 false (Nat.le_refl _) h1.rep h1.file
  refine ⟨max N M, w1, { w2 with st := E.init, flushed := true, susp := true }, { w2 with st := E.init, flushed := true, susp := true, file := w2.file.write raw }, z, c1, fun fuel hf =>
    ⟨f1 fuel (by omega), ?_, ?_, ?_, rfl, rfl⟩⟩
  · unfold ZsW.suspend
    rw [if_neg (by rw [h1.susp]; simp)]
    unfold ZsW.sync; rw [if_neg (by rw [g1]; simp [hl]), c4 fuel (by omega)]
  · unfold ZsW.write; simp
  · simp only [c2, flat_write_tail]

/-- **C72**: a code of error of the library ends the read with an error, whatever was produced before: damaged data is a range error, lack of memory is reported as such, any other one is a bug. -/
theorem C72_damaged (D : ZDec) (B fuel n : Nat) (hn : n ≠ 0) (r : ZR D) (hs : r.susp = false) (ret : WRet)
    (h : (D.step r.st (r.fill B n 0 false).1.inb n).2.2.2 = ret) (hst : (r.fill B n 0 false).1.st = r.st) :
    (ret = .dataError → r.read B (fuel + 1) n = .error .range) ∧ (ret = .memError → r.read B (fuel + 1) n = .error .memory) ∧
    (ret = .streamError ∨ ret = .versionError → r.read B (fuel + 1) n = .error .bug) := by
  unfold ZR.read
  rw [if_neg hn, if_neg (by rw [hs]; simp)]
  unfold ZR.pull
  rcases hf : r.fill B n 0 false with ⟨r1, mem, dry⟩
  rw [hf] at h hst
  simp only at h hst
  rcases hstep : D.step r1.st r1.inb n with ⟨st, k, out, rt⟩
  rw [← hst, hstep] at h
  simp only at h
  simp only [hstep]
  subst h
  refine ⟨?_, ?_, ?_⟩
  · rintro rfl; simp [zCode]
  · rintro rfl; simp [zCode]
  · rintro (rfl | rfl) <;> simp [zCode]

/-- **C72**, zstd: an error of the library ends the read with a range error. -/
theorem C72_zstd_damaged (D : ZDec) (A B fuel n : Nat) (hn : 0 < n) (r : ZsR D) (hs : r.susp = false) (he : r.ended = false) (ret : WRet)
    (h : (D.step (r.fill B).st (r.fill B).inb (min n A)).2.2.2 = ret) (h1 : ret ≠ .ok) (h2 : ret ≠ .streamEnd) : r.read A B (fuel + 1) n = .error .range := by
  unfold ZsR.read
  rw [if_neg (by rw [hs]; simp)]
  unfold ZsR.pull
  rw [if_pos ⟨he, hn⟩]
  rcases hstep : D.step (r.fill B).st (r.fill B).inb (min n A) with ⟨st, k, out, rt⟩
  rw [hstep] at h
  simp only at h
  subst h
  simp only [hstep]
  rw [if_pos ⟨h1, h2⟩]

/-- **C72**: while the compression is suspended the bytes of the file are read as they are. -/
theorem C72_suspended_read (D : ZDec) (A B fuel n : Nat) :
    (∀ r : ZR D, r.susp = true → ∃ r', r.read B fuel n = .ok ((r.file.read n).2, r') ∧ r'.file = (r.file.read n).1 ∧ r'.susp = true) ∧
    (∀ r : ZsR D, r.susp = true → ∃ r', r.read A B fuel n = .ok ((r.file.read n).2, r') ∧ r'.file = (r.file.read n).1 ∧ r'.susp = true) := by
  refine ⟨fun r h => ?_, fun r h => ?_⟩
  · unfold ZR.read
    by_cases hn : n = 0
    · rw [if_pos hn]
      subst hn
      refine ⟨r, by simp [Flat.read], by simp [Flat.read], h⟩
    · rw [if_neg hn, if_pos h]
      exact ⟨_, rfl, rfl, h⟩
  · unfold ZsR.read
    rw [if_pos h]
    exact ⟨_, rfl, rfl, h⟩

/-- **C72** counterexample (the counter of bytes given to the library is kept in a machine word by zlib, 32 bits on some systems): an item whose size is a multiple of its capacity is taken for empty when it is
completed: it goes on with the next one, in a single stream: the position of the second item is in the middle of it, reading the first one gives both. -/
theorem C72_total_counterexample (E : ZEnc) (D : ZDec) (code : Bytes → Bytes → Prop) (hE : E.Lawful code) (hD : D.Lawful code) (W B : Nat) (hB : 0 < B) (pre : Bytes) (l1 l2 : List Bytes)
    (h1 : l1.flatten.length % 2 ^ W = 0) (h2 : l2.flatten.length % 2 ^ W ≠ 0) :
    ∃ N w' q, ∀ fuel, N ≤ fuel → (zwNew E ⟨pre, pre.length⟩).items W B fuel [l1, l2] = .ok (w', [pre.length, q]) ∧
      ∃ r', ((zrNew D w'.file).skip pre.length).read B fuel (l1.flatten.length + l2.flatten.length) = .ok (l1.flatten ++ l2.flatten, r') := by
  obtain ⟨rep, lag, H⟩ := hE.get
  obtain ⟨rp, HD⟩ := hD.get
  obtain ⟨N1, w1, o1, i1, f1⟩ := zwrites_spec H hB pre l1 (zwNew E ⟨pre, pre.length⟩) [] [] (ZReady.inv H ⟨rfl, rfl, rfl, rfl⟩)
  rw [List.nil_append] at i1
  obtain ⟨N2, w2, o2, i2, f2⟩ := zwrites_spec H hB pre l2 w1 l1.flatten o1 i1
  obtain ⟨N3, w3, z, c1, c2, c3, c4⟩ := zfinish_spec H hB pre (lag w2.st) w2 (l1.flatten ++ l2.flatten) o2 false (Nat.le_refl _) i2.rep i2.file
  have ht : (l1.flatten ++ l2.flatten).length % 2 ^ W ≠ 0 := by
    rw [List.length_append, Nat.add_mod, h1, Nat.zero_add, Nat.mod_mod]; exact h2
  refine ⟨max (max N1 N2) (max N3 (z.length + (l1.flatten ++ l2.flatten).length + 1)), { w3 with st := E.init, total := 0 }, (pre ++ o1).length, fun fuel hf => ⟨?_, ?_⟩⟩
  · have s1 : w1.sync W B fuel = .ok w1 := by unfold ZW.sync wideTotal; rw [i1.total, if_pos h1]
    have p1 : w1.position W = .ok (pre ++ o1).length := by unfold ZW.position wideTotal; rw [i1.total, if_neg (fun h => h h1), i1.file]
    have p0 : (zwNew E ⟨pre, pre.length⟩).position W = .ok pre.length := by unfold ZW.position wideTotal zwNew; simp
    have s2 : w2.sync W B fuel = .ok { w3 with st := E.init, total := 0 } := by
      unfold ZW.sync; rw [if_neg (by unfold wideTotal; rw [i2.total]; exact ht), c4 fuel (by omega)]
    simp only [ZW.items, ZW.item, p0, f1 fuel (by omega), s1, p1, f2 fuel (by omega), s2]
  · have hinv := zskip_inv HD (r := zrNew D w3.file) (pre := pre) (d := l1.flatten ++ l2.flatten) (z := z) (avail := z) rfl (by simp [zrNew, c2])
    obtain ⟨out, r', c', e, k1, k2, k3⟩ := zread_spec HD hB c1 (Or.inr (List.prefix_refl z)) fuel (by omega) _ _ _ hinv (l1.flatten.length + l2.flatten.length)
    have ho := take_of_full k1.pd k2 (k3 (List.prefix_refl z))
    refine ⟨r', ?_⟩
    show ((zrNew D w3.file).skip pre.length).read B fuel _ = _
    rw [e, ho, List.length_nil, List.drop_zero, ← List.length_append, List.take_length]

/-! ### a library meeting the requirements -/

/-- the toy format: each byte is preceded by 1, the end is told by 0 -/
def toyBody (d : Bytes) : Bytes := d.flatMap fun b => [1, b]
def ToyCode (d z : Bytes) : Prop := z = toyBody d ++ [0]

def toyEncStep (st : Bytes × Bool) (a : Bytes) (room : Nat) (fin : Bool) : (Bytes × Bool) × Nat × Bytes × WRet :=
  if fin then
    let p := if st.2 then st.1 else st.1 ++ [0]
    ((p.drop room, true), 0, p.take room, if (p.drop room) = [] then .streamEnd else .ok)
  else match st.1, a with
    | [], b :: _ => (([1, b], st.2), 1, [], .ok)
    | p, _ => ((p.drop room, st.2), 0, p.take room, .ok)
def toyEnc : ZEnc := ⟨Bytes × Bool, ([], false), toyEncStep, fun _ => 3⟩

theorem toyEnc_lawful : toyEnc.Lawful ToyCode := by
  refine ⟨fun st i o f => st.2 = f ∧ o ++ st.1 = toyBody i ++ (if f then [0] else []), fun st => st.1.length + (if st.2 then 0 else 2), ⟨rfl, rfl⟩, fun _ _ _ _ _ => Nat.succ_pos 2, ?_, ?_⟩
  · rintro ⟨p, q⟩ i o a room ⟨h1, h2⟩ ha hr st' k out ret hs
    simp only at h1 h2
    subst h1
    cases p with
    | nil => cases a with
      | nil => exact absurd rfl ha
      | cons b a =>
        simp only [toyEnc, toyEncStep] at hs
        cases hs
        refine ⟨by simp, by simp, rfl, ⟨rfl, ?_⟩, (fun h => by cases h)⟩
        simp only [List.append_nil, Bool.false_eq_true, if_false] at h2 ⊢
        rw [h2]; simp [toyBody]
    | cons x p =>
      simp only [toyEnc, toyEncStep] at hs
      cases hs
      refine ⟨by simp, by simp, rfl, ⟨rfl, ?_⟩, fun _ => by simp; omega⟩
      rw [List.append_assoc, List.take_append_drop]; simpa using h2
  · rintro ⟨p, q⟩ i o f room ⟨h1, h2⟩ hr st' k out ret hs
    simp only at h1 h2
    subst h1
    have hp : ∃ p', p' = (if q then p else p ++ [0]) ∧ o ++ p' = toyBody i ++ [0] ∧ (p' ≠ [] ∨ q = true) ∧ p'.length + (if q then 0 else 1) ≤ p.length + (if q then 0 else 2) := by
      refine ⟨_, rfl, ?_, ?_, ?_⟩
      · cases q
        · simp only [Bool.false_eq_true, if_false, List.append_nil] at h2 ⊢
          rw [← List.append_assoc, h2]
        · simpa using h2
      · cases q <;> simp
      · cases q <;> simp
    obtain ⟨p', e, k1, k2, k3⟩ := hp
    simp only [toyEnc, toyEncStep, if_true, ← e] at hs
    cases hs
    refine ⟨by simp, ?_⟩
    by_cases hd : p'.drop room = []
    · left
      refine ⟨by rw [if_pos hd], ?_⟩
      unfold ToyCode
      rw [← k1]
      conv => rhs; rw [← List.take_append_drop room p', hd, List.append_nil]
    · right
      refine ⟨by rw [if_neg hd], ⟨rfl, by rw [List.append_assoc, List.take_append_drop, k1]; simp⟩, ?_⟩
      have : 0 < (p'.drop room).length := List.length_pos_iff.mpr hd
      rw [List.length_drop] at this
      cases q <;> simp at k3 ⊢ <;> omega

inductive ToyPhase where
  | tag | byte | over
def toyDecStep (st : ToyPhase) (a : Bytes) (room : Nat) : ToyPhase × Nat × Bytes × WRet := match st with
  | .over => (.over, 0, [], .streamEnd)
  | .byte => match a with
    | [] => (.byte, 0, [], .ok)
    | b :: _ => if room = 0 then (.byte, 0, [], .bufError) else (.tag, 1, [b], .ok)
  | .tag => match a with
    | [] => (.tag, 0, [], .ok)
    | 0 :: _ => (.over, 1, [], .streamEnd)
    | [1] => (.byte, 1, [], .ok)
    | 1 :: b :: _ => if room = 0 then (.tag, 0, [], .bufError) else (.tag, 2, [b], .ok)
    | _ => (.tag, 0, [], .dataError)
def toyDec : ZDec := ⟨ToyPhase, .tag, toyDecStep⟩

/-- what the phases mean -/
def toyRep (st : ToyPhase) (c p : Bytes) : Prop := match st with
  | .tag => c = toyBody p
  | .byte => c = toyBody p ++ [1]
  | .over => c = toyBody p ++ [0]

private theorem toyBody_append (a b : Bytes) : toyBody (a ++ b) = toyBody a ++ toyBody b := by simp [toyBody]
private theorem toyBody_length (a : Bytes) : (toyBody a).length = 2 * a.length := by
  induction a with
  | nil => rfl
  | cons x a ih =>
    have : toyBody (x :: a) = 1 :: x :: toyBody a := rfl
    rw [this]; simp [ih]; omega
private theorem compat_strip {c a w : Bytes} (h : c ++ a <+: c ++ w ∨ c ++ w <+: c ++ a) : a <+: w ∨ w <+: a := by
  rcases h with h | h
  · exact Or.inl ((List.prefix_append_right_inj c).mp h)
  · exact Or.inr ((List.prefix_append_right_inj c).mp h)
private theorem compat_head {x y : UInt8} {a w : Bytes} (h : x :: a <+: y :: w ∨ y :: w <+: x :: a) : x = y ∧ (a <+: w ∨ w <+: a) := by
  rcases h with h | h
  · obtain ⟨h1, h2⟩ := List.cons_prefix_cons.mp h; exact ⟨h1, Or.inl h2⟩
  · obtain ⟨h1, h2⟩ := List.cons_prefix_cons.mp h; exact ⟨h1.symm, Or.inr h2⟩

private theorem toyDec_spec {d z : Bytes} (hc : ToyCode d z) {st : ToyPhase} {c p : Bytes} (hr : toyRep st c p) (hcz : c <+: z) (hpd : p <+: d) {a : Bytes} {room : Nat}
    (hco : c ++ a <+: z ∨ z <+: c ++ a) {st' : ToyPhase} {k : Nat} {out : Bytes} {ret : WRet} (hs : toyDecStep st a room = (st', k, out, ret)) :
    k ≤ a.length ∧ out.length ≤ room ∧ toyRep st' (c ++ a.take k) (p ++ out) ∧ c ++ a.take k <+: z ∧ p ++ out <+: d ∧
      (ret = .ok ∨ ret = .streamEnd ∨ (ret = .bufError ∧ (a = [] ∨ room = 0) ∧ k = 0 ∧ out = [])) ∧
      (ret = .streamEnd → c ++ a.take k = z ∧ p ++ out = d) ∧
      (0 < room → (a ≠ [] ∨ c = z) → ret = .streamEnd ∨ 0 < k ∨ out ≠ []) ∧
      (0 < room → (ret = .ok ∨ ret = .streamEnd) ∧ (ret = .ok → out = [] → k = a.length ∧ c ++ a ≠ z)) := by
  obtain ⟨t, rfl⟩ := hpd
  unfold ToyCode at hc
  have hz : z = toyBody p ++ (toyBody t ++ [0]) := by rw [hc, toyBody_append, List.append_assoc]
  cases st with
  | over =>
    cases hs
    simp only [toyRep] at hr
    have ht : t = [] := by
      rw [hr, hz] at hcz
      have := (List.prefix_append_right_inj _).mp hcz
      cases t with
      | nil => rfl
      | cons b t =>
        have h : toyBody (b :: t) ++ [0] = 1 :: b :: (toyBody t ++ [0]) := rfl
        rw [h] at this
        exact absurd (List.cons_prefix_cons.mp this).1 (by decide)
    subst ht
    have hcz' : c = z := by rw [hr, hz]; rfl
    refine ⟨by simp, by simp, by simpa [toyRep] using hr, by simpa using hcz, by simp, Or.inr (Or.inl rfl), fun _ => by simp [hcz'], fun _ _ => Or.inl rfl, fun _ => ⟨Or.inr rfl, (fun h => by cases h)⟩⟩
  | byte =>
    simp only [toyRep] at hr
    -- the data goes on
    have ht : ∃ b t', t = b :: t' := by
      cases t with
      | nil =>
        rw [hr, hz] at hcz
        have := (List.prefix_append_right_inj _).mp hcz
        exact absurd (List.cons_prefix_cons.mp this).1 (by decide)
      | cons b t' => exact ⟨b, t', rfl⟩
    obtain ⟨b, t', rfl⟩ := ht
    have hz' : z = c ++ (b :: (toyBody t' ++ [0])) := by rw [hz, hr]; simp [toyBody]
    have hcne : c ≠ z := by
      rw [hz']; intro h; have := congrArg List.length h; simp at this
    cases a with
    | nil =>
      cases hs
      exact ⟨by simp, by simp, by simpa [toyRep] using hr, by simpa using hcz, by simp, Or.inl rfl, (fun h => by cases h),
        (fun _ h => by rcases h with h | h; exacts [absurd rfl h, absurd h hcne]), fun _ => ⟨Or.inl rfl, fun _ _ => ⟨rfl, by simpa using hcne⟩⟩⟩
    | cons x a =>
      have hx : x = b := by rw [hz'] at hco; exact (compat_head (compat_strip hco)).1
      subst hx
      simp only [toyDecStep] at hs
      by_cases hrm : room = 0
      · rw [if_pos hrm] at hs; cases hs
        exact ⟨by simp, by simp, by simpa [toyRep] using hr, by simpa using hcz, by simp, Or.inr (Or.inr ⟨rfl, Or.inr hrm, rfl, rfl⟩), (fun h => by cases h),
          (fun h => by omega), (fun h => by omega)⟩
      · rw [if_neg hrm] at hs; cases hs
        refine ⟨by simp, by simp; omega, ?_, ?_, by simp, Or.inl rfl, (fun h => by cases h), fun _ _ => Or.inr (Or.inl (by decide)), fun _ => ⟨Or.inl rfl, (fun _ h => by cases h)⟩⟩
        · simp only [toyRep]; rw [hr]; simp [toyBody]
        · rw [hz']; simp
  | tag =>
    simp only [toyRep] at hr
    have hz' : z = c ++ (toyBody t ++ [0]) := by rw [hz, hr]
    have hcne : c ≠ z := by
      rw [hz']; intro h; have := congrArg List.length h; simp at this
    cases a with
    | nil =>
      cases hs
      exact ⟨by simp, by simp, by simpa [toyRep] using hr, by simpa using hcz, by simp, Or.inl rfl, (fun h => by cases h),
        (fun _ h => by rcases h with h | h; exacts [absurd rfl h, absurd h hcne]), fun _ => ⟨Or.inl rfl, fun _ _ => ⟨rfl, by simpa using hcne⟩⟩⟩
    | cons x a =>
      rw [hz'] at hco
      have hco' := compat_strip hco
      cases t with
      | nil =>
        have hx : x = 0 := (compat_head (w := []) hco').1
        subst hx
        cases hs
        exact ⟨by simp, by simp, by simp [toyRep, hr], by rw [hz']; simp [toyBody], by simp, Or.inr (Or.inl rfl), fun _ => ⟨by rw [hz']; simp [toyBody], by simp⟩, fun _ _ => Or.inl rfl,
          fun _ => ⟨Or.inr rfl, (fun h => by cases h)⟩⟩
      | cons b t =>
        have hb : toyBody (b :: t) ++ [0] = 1 :: b :: (toyBody t ++ [0]) := rfl
        rw [hb] at hco' hz'
        obtain ⟨hx, hco2⟩ := compat_head hco'
        subst hx
        cases a with
        | nil =>
          cases hs
          refine ⟨by simp, by simp, by simp [toyRep, hr], by rw [hz']; simp, by simp, Or.inl rfl, (fun h => by cases h), fun _ _ => Or.inr (Or.inl (by decide)), fun _ => ⟨Or.inl rfl, fun _ _ => ⟨rfl, ?_⟩⟩⟩
          rw [hz']; intro h; have := congrArg List.length h; simp at this
        | cons y a =>
          have hy : y = b := (compat_head hco2).1
          subst hy
          simp only [toyDecStep] at hs
          by_cases hrm : room = 0
          · rw [if_pos hrm] at hs; cases hs
            exact ⟨by simp, by simp, by simpa [toyRep] using hr, by simpa using hcz, by simp, Or.inr (Or.inr ⟨rfl, Or.inr hrm, rfl, rfl⟩), (fun h => by cases h),
              (fun h => by omega), (fun h => by omega)⟩
          · rw [if_neg hrm] at hs; cases hs
            refine ⟨by simp, by simp; omega, ?_, by rw [hz']; simp, by simp, Or.inl rfl, (fun h => by cases h), fun _ _ => Or.inr (Or.inl (by decide)), fun _ => ⟨Or.inl rfl, (fun _ h => by cases h)⟩⟩
            simp [toyRep, hr, toyBody]

theorem toyDec_lawful : toyDec.Lawful ToyCode := by
  refine ⟨toyRep, rfl, fun d z hc st c p hr hcz hpd a room hco st' k out ret hs => ?_⟩
  obtain ⟨q1, q2, q3, q4, q5, q6, q7, q8, _⟩ := toyDec_spec hc hr hcz hpd hco hs
  exact ⟨q1, q2, q3, q4, q5, q6, q7, q8⟩
theorem toyDec_eager : toyDec.Eager ToyCode := by
  refine ⟨toyRep, rfl, fun d z hc st c p hr hcz hpd a room hco hroom st' k out ret hs => ?_⟩
  obtain ⟨q1, q2, q3, q4, q5, _, q7, _, q9⟩ := toyDec_spec hc hr hcz hpd hco hs
  exact ⟨q1, q2, q3, q4, q5, (q9 hroom).1, q7, (q9 hroom).2⟩

/-- the hypotheses of the theorems are met -/
example : toyEnc.Lawful ToyCode ∧ toyDec.Lawful ToyCode ∧ toyDec.Eager ToyCode := ⟨toyEnc_lawful, toyDec_lawful, toyDec_eager⟩
example : ((zwNew toyEnc ⟨[9], 1⟩).items 32 2 50 [[[5, 6], [7]], [[8]]]).map (fun x => (x.1.file.data, x.2)) = .ok ([9, 1, 5, 1, 6, 1, 7, 0, 1, 8, 0], [1, 8]) := by decide +kernel
example : ((zrNew toyDec ⟨[9, 1, 5, 1, 6, 1, 7, 0, 1, 8, 0], 0⟩).visits 3 50 [(8, [2]), (1, [2, 2, 2])]).map Prod.fst = .ok [[[8]], [[5, 6], [7], []]] := by decide +kernel

/-! ### where it fails -/

/-- **C72** counterexample: nothing is stored for an empty item (gzip, bzip2, xz): reading at its position gives the data of the next one. -/
theorem C72_empty_counterexample :
    ((zwNew toyEnc ⟨[], 0⟩).items 32 2 50 [[], [[5, 6]]]).map (fun x => (x.1.file.data, x.2)) = .ok ([1, 5, 1, 6, 0], [0, 0]) ∧
    ((zrNew toyDec ⟨[1, 5, 1, 6, 0], 0⟩).visits 3 50 [(0, [10])]).map Prod.fst = .ok [[[5, 6]]] := by decide +kernel

/-- **C72** counterexample: a cut stream is not told (gzip, bzip2, xz): the reading just gives less; zstd reports it. -/
theorem C72_truncated_counterexample :
    ((zrNew toyDec ⟨[1, 5, 1], 0⟩).read 3 50 10).map Prod.fst = .ok [5] ∧ ((zsrNew toyDec ⟨[1, 5, 1], 0⟩).read 4 3 50 10).map Prod.fst = .error .range := by decide +kernel

/-- **C72** counterexample: cutting the file while an item is written fails as a bug (gzip, bzip2, xz), the position being asked for before the item is completed. -/
theorem C72_truncate_counterexample (E : ZEnc) (W B fuel p : Nat) (w : ZW E) (h : w.total % 2 ^ W ≠ 0) : w.truncate W B fuel p = .error .bug := by
  unfold ZW.truncate ZW.position wideTotal
  rw [if_pos h]

/-- **C72** counterexample: zstd tells a position while it holds data of the current item; it is not the one of what is written next. -/
theorem C72_zstd_position_counterexample :
    ((zswNew toyEnc ⟨[], 0⟩).writes 4 4 50 [[5]]).map (fun w => w.position) = .ok 0 ∧
    (((zswNew toyEnc ⟨[], 0⟩).item 4 4 50 [[5], [7]]).map fun x => x.1.file.data) = .ok [1, 5, 1, 7, 0] ∧
    ((zsrNew toyDec ⟨[1, 5, 1, 7, 0], 0⟩).visits 4 4 50 [(0, [1])]).map Prod.fst = .ok [[[5]]] := by decide +kernel

/-- **C72** counterexample: suspending the compression while reading drops what the buffer holds: the bytes stored uncompressed after a stream are not found (a skip is needed first). -/
theorem C72_suspend_read_counterexample :
    (match (zrNew toyDec ⟨[1, 5, 0, 8, 9], 0⟩).read 16 50 2 with
      | .ok (a, r) => (r.suspend.read 16 50 2).map (fun x : Bytes × ZR toyDec => (a, x.1))
      | .error e => .error e) = .ok (([5] : Bytes), ([] : Bytes)) := by decide +kernel

end Dar
