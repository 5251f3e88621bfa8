import Verif.Lemmas.IsolateSig
namespace Dar

mutual
def Shown.bare (x : Shown) : Shown :=
  match x with
  | .inode n link _ => .inode n link none
  | .dir name st i l => .dir name st i (Shown.bareL l)
  | .removed name s d => .removed name s d
def Shown.bareL (l : List Shown) : List Shown :=
  match l with
  | [] => []
  | x :: l => Shown.bare x :: Shown.bareL l
end
theorem bareL_append (l m : List Shown) : Shown.bareL (l ++ m) = Shown.bareL l ++ Shown.bareL m := by
  induction l with
  | nil => simp only [Shown.bareL, List.nil_append]
  | cons x l ih => simp only [List.cons_append, Shown.bareL, ih]
mutual
theorem shown_bare (sg : Node → SigShown) (stars : Nat → Star) (e : Entry) : Shown.bareL (Entry.shown sg stars e) = Entry.shown noSigShown stars e := by
  cases e with
  | dir name st i l => simp only [Entry.shown, Shown.bareL, Shown.bare, shownL_bare sg stars l]
  | _ => simp only [Entry.shown, Shown.bareL, Shown.bare, noSigShown]
theorem shownL_bare (sg : Node → SigShown) (stars : Nat → Star) (l : List Entry) : Shown.bareL (Entry.shownL sg stars l) = Entry.shownL noSigShown stars l := by
  cases l with
  | nil => simp only [Entry.shownL, Shown.bareL]
  | cons e l => simp only [Entry.shownL, bareL_append, shown_bare sg stars e, shownL_bare sg stars l]
end

/-- what the isolation needs when the signatures are to be copied: the archive can be read, the signatures are there, none is to be computed -/
structure IsoArc.SigsReady (o : IsoOpts) (a : IsoArc) : Prop where
  noBuild : o.build = false
  readable : a.exploitable = true
  start : o.start ≠ []
  good : Entry.SigGoodL a.sigs a.stars a.cat.children

theorem isoCat_good (o : IsoOpts) (a : IsoArc) (hs : a.Sound) (hd : o.delta = true → a.SigsReady o) :
    ∃ l stars out, isoCat o a = .ok ({ a.cat with children := l }, stars, out) ∧ ({ a.cat with children := l } : Cat).Writable stars ∧ LinksCounted stars l
      ∧ Entry.shownL noSigShown stars l = Entry.shownL noSigShown a.stars a.cat.children
      ∧ (o.delta = true → Entry.shownL (sigShown (some out)) stars l = Entry.shownL (sigShown a.sigs) a.stars a.cat.children) := by
  have hw := hs.cat
  have ht := hw.tree
  simp only [Entry.Writable] at ht
  unfold isoCat
  by_cases h : o.delta = true
  · obtain ⟨h1, h2, h3, h4⟩ := hd h
    obtain ⟨l', s', g1, g2, g3, g4⟩ := xferEntries_good o h1 a.sigs a.stars [] a.cat.children ⟨o.start, [], a.stars⟩
      ⟨h3, (by intro k hk; cases hk), fun k _ => rfl⟩ h4
    obtain ⟨k1, k2⟩ := g4.same [] s'.stars (fun k hk => by rw [List.append_nil]; exact g2.seen k hk)
    rw [List.append_nil] at k1
    refine ⟨l', s'.stars, s'.out, ?_, ⟨hw.label, hw.place, hw.placeStr, ?_⟩, ?_, ?_, fun _ => k1⟩
    · rw [if_pos h, g1]; rfl
    · simp only [Entry.Writable]
      exact ⟨ht.1, ht.2.1, k2 ht.2.2⟩
    · intro k
      rw [g4.links k]
      by_cases hk : k ∈ s'.seen
      · have := g2.seen k hk
        exact ⟨this.refs.trans (hs.links k).1, this.keep.trans (hs.links k).2⟩
      · rw [g2.rest k hk]
        exact hs.links k
    · rw [← shownL_bare (sigShown (some s'.out)), k1, shownL_bare]
  · refine ⟨Entry.dropSigs a.cat.children, starsDropSig a.stars, o.start, by rw [if_neg h], ⟨hw.label, hw.place, hw.placeStr, ?_⟩, ?_, dropSigs_shown _ _, fun h' => absurd h' h⟩
    · simp only [Entry.Writable]
      exact ⟨ht.1, ht.2.1, dropSigs_writable _ _ ht.2.2⟩
    · intro k
      rw [dropSigs_links]
      exact hs.links k

theorem isoRef_good (a : IsoArc) (hs : a.Sound) : ∃ sl v t, isoRef a = .ok (sl, v, t) ∧ a.origin = (some sl, v, t) ∧ sl.AsRef ∧ v.Writable ∧ v.initialOffset ≠ 0 := by
  unfold isoRef IsoArc.origin Hdr.sliceHeader
  cases hr : a.ver.refVersion with
  | none =>
    obtain ⟨h1, h2, h3⟩ := hs.own hr
    refine ⟨a.sl, a.ver.base, a.term, ?_, rfl, h2, hs.ver.wb, h3⟩
    rw [hs.ver.wb.layout, h1]
    rfl
  | some r =>
    have := hs.ref (by rw [hr]; simp)
    cases hh : a.ver.base.refHeader with
    | none => exact absurd hh this
    | some sl =>
      refine ⟨sl, r, a.ver.refOffset, ?_, rfl, hs.ver.wb.ref sl hh, (hs.ver.wr r hr).1, (hs.ver.wr r hr).2⟩
      rw [hs.ver.wb.layout]
      rfl

theorem isoHdr_writable (o : IsoOpts) (hb : o.base.Writable) (sl : SliceHdr) (v : HdrBase) (t : Nat) (h1 : sl.AsRef) (h2 : v.Writable) (h3 : v.initialOffset ≠ 0) :
    (isoHdr o (sl, v, t)).Writable := by
  refine ⟨⟨hb.ver, hb.known, hb.line, rfl, ?_, hb.ciph, hb.nokdf, hb.kdf⟩, ?_, ?_⟩
  · intro r hr
    have : r = sl := by simpa [isoHdr, eq_comm] using hr
    rw [this]; exact h1
  · intro r hr
    have : r = v := by simpa [isoHdr, eq_comm] using hr
    rw [this]; exact ⟨h2, h3⟩
  · intro h; cases h

theorem hdrOf_write (h : Hdr) (hw : h.Writable) : ∃ b, h.write = .ok b ∧ ∃ n, hdrOf b = .ok { h with base := { h.base with initialOffset := n } }
    ∧ (h.base.initialOffset ≠ 0 → n = h.base.initialOffset) := by
  obtain ⟨b, h1, h2⟩ := C24_header h hw (fun _ => true) HdrBase.empty rfl
  refine ⟨b, h1, if h.base.initialOffset = 0 then b.length - ([] : Bytes).length else h.base.initialOffset, ?_, ?_⟩
  · unfold hdrOf
    have := h2 [] b.length
    rw [List.append_nil] at this
    rw [this]
  · intro hn
    rw [if_neg hn]

theorem lt9 (a : ArchVer) (h : 9 ≤ a.version) : a.lt ⟨9, 0⟩ = false := by
  have := (archver_gt a h).2.1
  simp only [ArchVer.lt, ArchVer.ge, decide_eq_true_eq, decide_eq_false_iff_not] at this ⊢
  omega
theorem ge8 (a : ArchVer) (h : 9 ≤ a.version) : a.ge ⟨8, 0⟩ = true := by
  have := (archver_gt a h).2.2.1
  simp only [ArchVer.lt, ArchVer.ge, decide_eq_true_eq, decide_eq_false_iff_not] at this ⊢
  omega

/-- the details of an isolation -/
theorem isolate_run (o : IsoOpts) (a : IsoArc) (hs : a.Sound) (hf : o.Fit a) (hd : o.delta = true → a.SigsReady o) :
    ∃ iso a' sl v t l stars out, opIsolate o a = .ok (iso, a') ∧ a.origin = (some sl, v, t) ∧ sl.AsRef ∧ v.Writable ∧ v.initialOffset ≠ 0
      ∧ (isoHdr o (sl, v, t)).write = .ok iso.hdr ∧ isoCat o a = .ok ({ a.cat with children := l }, stars, out) ∧ ({ a.cat with children := l } : Cat).dump stars = .ok iso.cat
      ∧ iso.sl = { o.sl with iname := o.label, dname := o.label } ∧ iso.term = o.term ∧ iso.data = out
      ∧ a' = { a with cat := { a.cat with children := l }, stars := stars } := by
  obtain ⟨sl, v, t, r1, r2, r3, r4, r5⟩ := isoRef_good a hs
  obtain ⟨l, stars, out, c1, c2, c3, _⟩ := isoCat_good o a hs hd
  obtain ⟨hb, w1, _⟩ := hdrOf_write _ (isoHdr_writable o hf.base sl v t r3 r4 r5)
  obtain ⟨cb, d1, _⟩ := reopen stars _ c2 c3 o.base.edition (lt9 _ hf.base.ver)
  refine ⟨⟨{ o.sl with iname := o.label, dname := o.label }, hb, o.term, cb, out⟩, _, sl, v, t, l, stars, out, ?_, r2, r3, r4, r5, w1, c1, d1, rfl, rfl, rfl, rfl⟩
  unfold opIsolate
  rw [if_neg, if_neg hf.label, r1]
  · show (do let h ← (isoHdr o (sl, v, t)).write
             let (c, stars, out) ← isoCat o a
             let b ← c.dump stars
             .ok (⟨{ o.sl with iname := o.label, dname := o.label }, h, o.term, b, out⟩, { a with cat := c, stars := stars }) : Res (IsoFile × IsoArc)) = _
    rw [w1]
    show (do let (c, stars, out) ← isoCat o a
             let b ← c.dump stars
             .ok (⟨{ o.sl with iname := o.label, dname := o.label }, hb, o.term, b, out⟩, { a with cat := c, stars := stars }) : Res (IsoFile × IsoArc)) = _
    rw [c1]
    show (do let b ← ({ a.cat with children := l } : Cat).dump stars
             .ok (⟨{ o.sl with iname := o.label, dname := o.label }, hb, o.term, b, out⟩, { a with cat := { a.cat with children := l }, stars := stars }) : Res (IsoFile × IsoArc)) = _
    rw [d1]
    rfl
  · intro h
    simp only [Bool.and_eq_true, Bool.not_eq_eq_eq_not, Bool.not_true] at h
    have := (hd h.2).readable
    rw [h.1] at this
    cases this

/-- **Isolation.**  Whatever the archive (or isolated catalogue) holds, its catalogue can be isolated; what is written can be opened as an archive; it shows exactly the same
entries — names, types, attributes, dates, sizes, checksums, places of the data and of the attributes, hard links, removed entries — under the same data name, and the same
delta signatures when they were asked for; and it is known to come from the same archive: same slices, same header, same position of it.  What is opened can be isolated in turn. -/
theorem C69_isolate (o : IsoOpts) (a : IsoArc) (hs : a.Sound) (hf : o.Fit a) (hd : o.delta = true → a.SigsReady o) :
    ∃ iso a' b, opIsolate o a = .ok (iso, a') ∧ openArc iso = .ok b ∧ b.Sound ∧ b.shown noSigShown = a.shown noSigShown
      ∧ (o.delta = true → b.shown (sigShown b.sigs) = a.shown (sigShown a.sigs)) ∧ b.origin = a.origin := by
  obtain ⟨iso, a', sl, v, t, l, stars, out, h1, h2, h3, h4, h5, h6, h7, h8, h9, h10, h11, h12⟩ := isolate_run o a hs hf hd
  obtain ⟨l2, stars2, out2, c1, c2, c3, c4, c5⟩ := isoCat_good o a hs hd
  rw [h7] at c1
  injection c1 with c1
  injection c1 with e1 e2
  injection e2 with e2 e3
  injection e1 with _ _ _ _ _ e1
  subst e1 e2 e3
  obtain ⟨hb, w1, n, w2, _⟩ := hdrOf_write _ (isoHdr_writable o hf.base sl v t h3 h4 h5)
  rw [h6] at w1
  injection w1 with w1
  subst w1
  obtain ⟨cb, d1, d2⟩ := reopen stars _ c2 c3 o.base.edition (lt9 _ hf.base.ver)
  rw [h8] at d1
  injection d1 with d1
  subst d1
  obtain ⟨c', stars', k1, k2, k3, k4, k5⟩ := d2 o.base.algo
  have hopen : openArc iso = .ok ⟨iso.sl, { isoHdr o (sl, v, t) with base := { (isoHdr o (sl, v, t)).base with initialOffset := n } }, iso.term, c', stars', some iso.data, true⟩ := by
    unfold openArc
    rw [w2]
    show (do let (c, stars) ← catOf o.base.edition o.base.algo iso.cat; .ok ⟨iso.sl, _, iso.term, c, stars, some iso.data, true⟩ : Res IsoArc) = _
    rw [k1]
    rfl
  have hi : (c'.inode.kept false) = a.cat.inode.kept false := by rw [k2]; exact InodeB.kept_kept _
  refine ⟨iso, a', _, h1, hopen, ?_, ?_, ?_, ?_⟩
  · refine ⟨k3, k4, ?_, (by intro h; cases h), (by intro _ h; cases h)⟩
    have := isoHdr_writable o hf.base sl v t h3 h4 h5
    exact ⟨⟨this.wb.ver, this.wb.known, this.wb.line, this.wb.layout, this.wb.ref, this.wb.ciph, this.wb.nokdf, this.wb.kdf⟩, this.wr, this.wo⟩
  · unfold IsoArc.shown
    dsimp only
    rw [k5 noSigShown (fun _ => rfl) (fun _ _ => rfl), hi, k2]
    simp only [Cat.kept, c4]
  · intro hdel
    unfold IsoArc.shown
    dsimp only
    rw [k5 (sigShown (some iso.data)) (fun _ => sigShown_kept _ _ _) (fun _ _ => rfl), hi, k2, h11]
    simp only [Cat.kept, c5 hdel]
  · rw [h2]
    rfl

/-- **An isolated catalogue is not taken for an archive.**  What an isolation produces has slices whose data name is not the name of the data its catalogue describes: restoration, comparison
and test refuse it; an archive whose slices bear the name of its data is accepted; and the slices where the files are to be found are known to be those of the archive it comes from. -/
theorem C69_not_an_archive (o : IsoOpts) (a : IsoArc) (hs : a.Sound) (hf : o.Fit a) (hd : o.delta = true → a.SigsReady o) (iso : IsoFile) (a' b : IsoArc)
    (h1 : opIsolate o a = .ok (iso, a')) (h2 : openArc iso = .ok b) :
    checkIsolation b = .error .range ∧ sliceLayoutOf b = .ok a.origin.1 ∧ b.sl.dname = o.label ∧ b.sl.iname = o.label ∧ (a.sl.dname = a.cat.label → checkIsolation a = .ok ()) := by
  obtain ⟨iso', a'', b', g1, g2, g3, g4, _, g5⟩ := C69_isolate o a hs hf hd
  rw [h1] at g1
  injection g1 with g1
  injection g1 with e1 e2
  subst e1
  rw [h2] at g2
  injection g2 with g2
  subst g2
  obtain ⟨iso', a'', sl, v, t, l, stars, out, k1, k2, k3, k4, k5, k6, k7, k8, k9, _⟩ := isolate_run o a hs hf hd
  rw [h1] at k1
  injection k1 with k1
  injection k1 with e1 e2
  subst e1
  have hsl : b.sl = iso.sl := by
    unfold openArc at h2
    cases hh : hdrOf iso.hdr with
    | error e => rw [hh] at h2; cases h2
    | ok h =>
      rw [hh] at h2
      change (do let (c, stars) ← catOf h.base.edition h.base.algo iso.cat; .ok ⟨iso.sl, h, iso.term, c, stars, some iso.data, true⟩ : Res IsoArc) = _ at h2
      cases hc : catOf h.base.edition h.base.algo iso.cat with
      | error e => rw [hc] at h2; cases h2
      | ok x =>
        rw [hc] at h2
        injection h2 with h2
        rw [← h2]
  have hl : b.cat.label = a.cat.label := congrArg Prod.fst g4
  have honly : onlyIsolated b = true := by
    unfold onlyIsolated
    rw [ge8 _ g3.ver.wb.ver, hsl, k9, hl]
    simpa using hf.label
  refine ⟨by unfold checkIsolation; rw [honly]; rfl, ?_, by rw [hsl, k9], by rw [hsl, k9], ?_⟩
  · unfold sliceLayoutOf
    rw [honly]
    simp only [if_true, Hdr.layout]
    have hr : b.ver.refVersion ≠ none ∧ b.ver.base.refHeader = a.origin.1 := by
      have : hdrOf iso.hdr = .ok b.ver := by
        unfold openArc at h2
        cases hh : hdrOf iso.hdr with
        | error e => rw [hh] at h2; cases h2
        | ok h =>
          rw [hh] at h2
          change (do let (c, stars) ← catOf h.base.edition h.base.algo iso.cat; .ok ⟨iso.sl, h, iso.term, c, stars, some iso.data, true⟩ : Res IsoArc) = _ at h2
          cases hc : catOf h.base.edition h.base.algo iso.cat with
          | error e => rw [hc] at h2; cases h2
          | ok x =>
            rw [hc] at h2
            injection h2 with h2
            rw [← h2]
      obtain ⟨hb, w1, n, w2, _⟩ := hdrOf_write _ (isoHdr_writable o hf.base sl v t k3 k4 k5)
      rw [k6] at w1
      injection w1 with w1
      subst w1
      rw [this] at w2
      injection w2 with w2
      rw [w2, k2]
      exact ⟨by simp [isoHdr], rfl⟩
    rw [hr.2, k2]
  · intro hn
    unfold checkIsolation onlyIsolated
    simp [hn]

/-- **An isolated catalogue can replace the one of its archive.**  With it, the archive is opened whatever the state of its own catalogue and headers — `f` is any archive: nothing of it is
looked at — and what is opened is the original archive: its slices, its header, its entries. -/
theorem C69_rescue (o : IsoOpts) (a : IsoArc) (hs : a.Sound) (hf : o.Fit a) (hd : o.delta = true → a.SigsReady o) (sl : SliceHdr) (v : HdrBase) (t : Nat)
    (ho : a.origin = (some sl, v, t)) (hn : sl.dname = a.cat.label) (iso : IsoFile) (a' : IsoArc) (h1 : opIsolate o a = .ok (iso, a')) (f : IsoFile) :
    ∃ w, openWith f iso false = .ok w ∧ w.sl = sl ∧ w.ver = ⟨v, none, 0⟩ ∧ w.term = t ∧ w.shown noSigShown = a.shown noSigShown ∧ checkIsolation w = .ok ()
      ∧ ∀ h, sliceTaken w h = true ↔ h.iname = sl.iname := by
  obtain ⟨iso', a'', sl', v', t', l, stars, out, k1, k2, k3, k4, k5, k6, k7, k8, k9, _⟩ := isolate_run o a hs hf hd
  rw [h1] at k1
  injection k1 with k1
  injection k1 with e1 e2
  subst e1
  rw [ho] at k2
  injection k2 with e1 e2
  injection e2 with e2 e3
  injection e1 with e1
  subst e1 e2 e3
  obtain ⟨l2, stars2, out2, c1, c2, c3, c4, c5⟩ := isoCat_good o a hs hd
  rw [k7] at c1
  injection c1 with c1
  injection c1 with e1 e2
  injection e2 with e2 e3
  injection e1 with _ _ _ _ _ e1
  subst e1 e2 e3
  obtain ⟨hb, w1, n, w2, _⟩ := hdrOf_write _ (isoHdr_writable o hf.base sl v t k3 k4 k5)
  rw [k6] at w1
  injection w1 with w1
  subst w1
  obtain ⟨cb, d1, d2⟩ := reopen stars _ c2 c3 o.base.edition (lt9 _ hf.base.ver)
  rw [k8] at d1
  injection d1 with d1
  subst d1
  obtain ⟨c', stars', j1, j2, j3, j4, j5⟩ := d2 v.algo
  have hi : (c'.inode.kept false) = a.cat.inode.kept false := by rw [j2]; exact InodeB.kept_kept _
  refine ⟨⟨sl, ⟨v, none, 0⟩, t, { c' with children := Entry.dropSigs c'.children }, starsDropSig stars', none, true⟩, ?_, rfl, rfl, rfl, ?_, ?_, ?_⟩
  · unfold openWith
    rw [w2]
    have hl : openLayers f { isoHdr o (sl, v, t) with base := { (isoHdr o (sl, v, t)).base with initialOffset := n } } false = .ok (sl, ⟨v, none, 0⟩, t) := by
      unfold openLayers externalOk
      simp only [Bool.false_eq_true, if_false, Hdr.sliceHeader, isoHdr, k3.new]
      rfl
    show (do let (sl, ver, term) ← openLayers f { isoHdr o (sl, v, t) with base := { (isoHdr o (sl, v, t)).base with initialOffset := n } } false
             let (c, stars) ← catOf o.base.edition ver.base.algo iso.cat
             if sl.dname ≠ c.label then .error .range
             else .ok ⟨sl, ver, term, { c with children := Entry.dropSigs c.children }, starsDropSig stars, none, true⟩ : Res IsoArc) = _
    rw [hl]
    show (do let (c, stars) ← catOf o.base.edition v.algo iso.cat
             if sl.dname ≠ c.label then .error .range
             else .ok ⟨sl, ⟨v, none, 0⟩, t, { c with children := Entry.dropSigs c.children }, starsDropSig stars, none, true⟩ : Res IsoArc) = _
    rw [j1]
    show (if sl.dname ≠ c'.label then .error .range else _ : Res IsoArc) = _
    rw [if_neg]
    rw [j2]
    simpa [Cat.kept] using hn
  · unfold IsoArc.shown
    dsimp only
    rw [dropSigs_shown, j5 noSigShown (fun _ => rfl) (fun _ _ => rfl), hi, j2]
    simp only [Cat.kept, c4]
  · unfold checkIsolation onlyIsolated
    have : sl.dname = c'.label := by rw [j2]; exact hn
    simp [this]
  · intro h
    unfold sliceTaken
    simp [eq_comm]

end Dar
