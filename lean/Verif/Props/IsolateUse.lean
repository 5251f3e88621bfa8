import Verif.Props.Isolate
import Verif.Spec.IsolateRef
import Verif.Lemmas.IsolateBackup
namespace Dar

/-- What the program writes at the end of a backup — any catalogue that can be stored, with its hard links counted right, any header of the current format — is opened as an archive that is in order,
shows what was saved, and is not taken for an isolated catalogue when its slices bear the name of its data. -/
theorem C69_opened (c : Cat) (stars : Nat → Star) (hw : c.Writable stars) (hc : LinksCounted stars c.children) (h : Hdr) (hh : h.Writable) (hr : h.refVersion = none)
    (hr2 : h.base.refHeader = none) (hi : h.base.initialOffset ≠ 0) (sl : SliceHdr) (hsl : sl.AsRef) (term : Nat) (data : Bytes) :
    ∃ hb cb, h.write = .ok hb ∧ c.dump stars = .ok cb ∧ ∃ a, openArc ⟨sl, hb, term, cb, data⟩ = .ok a ∧ a.Sound ∧ a.origin = (some sl, h.base, term)
      ∧ Entry.shownL (sigShown (some data)) a.stars a.cat.children = Entry.shownL (sigShown (some data)) stars c.children ∧ a.cat.label = c.label
      ∧ (sl.dname = c.label → checkIsolation a = .ok ()) := by
  obtain ⟨hb, w1, n, w2, w3⟩ := hdrOf_write h hh
  have hn := w3 hi
  subst hn
  obtain ⟨cb, d1, d2⟩ := reopen stars c hw hc h.base.edition (lt9 _ hh.wb.ver)
  obtain ⟨c', stars', k1, k2, k3, k4, k5⟩ := d2 h.base.algo
  refine ⟨hb, cb, w1, d1, ⟨sl, h, term, c', stars', some data, true⟩, ?_, ?_, ?_, ?_, by rw [k2]; rfl, ?_⟩
  · unfold openArc
    rw [w2]
    show (do let (c, stars) ← catOf h.base.edition h.base.algo cb; .ok ⟨sl, h, term, c, stars, some data, true⟩ : Res IsoArc) = _
    rw [k1]
    rfl
  · exact ⟨k3, k4, hh, fun _ => ⟨hr2, hsl, hi⟩, fun h => absurd hr h⟩
  · unfold IsoArc.origin
    rw [hr]
  · exact k5 _ (fun _ => sigShown_kept _ _ _) (fun _ _ => rfl)
  · intro he
    unfold checkIsolation onlyIsolated
    have : sl.dname = c'.label := by rw [k2]; exact he
    simp [this]

/-- **The wrong archive is refused.**  An isolated catalogue given for an archive whose slices bear another data name, the headers of this archive being used: an error. -/
theorem C69_wrong_archive (o : IsoOpts) (a : IsoArc) (hs : a.Sound) (hf : o.Fit a) (hd : o.delta = true → a.SigsReady o)
    (iso : IsoFile) (a' : IsoArc) (h1 : opIsolate o a = .ok (iso, a')) (f : IsoFile) (hn : f.sl.dname ≠ a.cat.label) : ∃ e, openWith f iso true = .error e := by
  obtain ⟨iso', a'', sl, v, t, l, stars, out, k1, k2, k3, k4, k5, k6, k7, k8, k9, _⟩ := isolate_run o a hs hf hd
  rw [h1] at k1
  injection k1 with k1
  injection k1 with e1 e2
  subst e1
  obtain ⟨l2, stars2, out2, c1, c2, c3, c4, c5⟩ := isoCat_good o a hs hd
  rw [k7] at c1
  injection c1 with c1
  injection c1 with e1 e2
  injection e2 with e2 e3
  injection e1 with _ _ _ _ _ e1
  subst e1 e2 e3
  obtain ⟨hb, w1, n, w2, _⟩ := hdrOf_write _ (isoHdr_writable o hf.base sl v t k3 k4 k5)
  rw [k6] at w1
  injection w1 with w1
  subst w1
  obtain ⟨cb, d1, d2⟩ := reopen stars _ c2 c3 o.base.edition (lt9 _ hf.base.ver)
  rw [k8] at d1
  injection d1 with d1
  subst d1
  unfold openWith
  rw [w2]
  cases hh : hdrOf f.hdr with
  | error e =>
    refine ⟨e, ?_⟩
    have : openLayers f { isoHdr o (sl, v, t) with base := { (isoHdr o (sl, v, t)).base with initialOffset := n } } true = .error e := by
      unfold openLayers
      simp only [if_true, hh]
      rfl
    show (do let (sl, ver, term) ← openLayers f { isoHdr o (sl, v, t) with base := { (isoHdr o (sl, v, t)).base with initialOffset := n } } true; _ : Res IsoArc) = _
    rw [this]
    rfl
  | ok h =>
    refine ⟨.range, ?_⟩
    obtain ⟨c', stars', j1, j2, j3, j4, j5⟩ := d2 h.base.algo
    have : openLayers f { isoHdr o (sl, v, t) with base := { (isoHdr o (sl, v, t)).base with initialOffset := n } } true = .ok (f.sl, h, f.term) := by
      unfold openLayers
      simp only [if_true, hh]
      rfl
    show (do let (sl, ver, term) ← openLayers f { isoHdr o (sl, v, t) with base := { (isoHdr o (sl, v, t)).base with initialOffset := n } } true
             let (c, stars) ← catOf o.base.edition ver.base.algo iso.cat
             if sl.dname ≠ c.label then .error .range
             else .ok ⟨sl, ver, term, { c with children := Entry.dropSigs c.children }, starsDropSig stars, none, true⟩ : Res IsoArc) = _
    rw [this]
    show (do let (c, stars) ← catOf o.base.edition h.base.algo iso.cat
             if f.sl.dname ≠ c.label then .error .range
             else .ok ⟨f.sl, h, f.term, { c with children := Entry.dropSigs c.children }, starsDropSig stars, none, true⟩ : Res IsoArc) = _
    rw [j1]
    show (if f.sl.dname ≠ c'.label then .error .range else _ : Res IsoArc) = _
    rw [if_pos]
    rw [j2]
    exact hn

/-! ### differential backups -/

mutual
theorem ref_bare (x : Shown) : Shown.ref (Shown.bare x) = (Shown.ref x).noSig := by
  cases x with
  | inode n link sig => simp only [Shown.bare, Shown.ref, BEntry.noSig, Obj.noSig, refIno, SigShown.there]
  | dir name st i l => simp only [Shown.bare, Shown.ref, BEntry.noSig, Obj.noSig, refIno, refL_bare l]
  | removed name s d => simp only [Shown.bare, Shown.ref, BEntry.noSig]
theorem refL_bare (l : List Shown) : Shown.refL (Shown.bareL l) = BEntry.noSigs (Shown.refL l) := by
  cases l with
  | nil => simp only [Shown.bareL, Shown.refL, BEntry.noSigs]
  | cons x l => simp only [Shown.bareL, Shown.refL, BEntry.noSigs, ref_bare x, refL_bare l]
end

/-- **A differential backup can be based on the isolated catalogue.**  Whatever is saved, with whatever options, the catalogue obtained and the counters are those obtained with the archive itself as reference,
provided no patch is asked for or the signatures have been put in the isolated catalogue. -/
theorem C69_differential (o : IsoOpts) (a : IsoArc) (hs : a.Sound) (hf : o.Fit a) (hd : o.delta = true → a.SigsReady o) (iso : IsoFile) (a' b : IsoArc)
    (h1 : opIsolate o a = .ok (iso, a')) (h2 : openArc iso = .ok b) (k : BkOpts) (hk : k.deltaDiff = false ∨ o.delta = true) (src : BCat) :
    backup k src b.asRef = backup k src a.asRef := by
  obtain ⟨iso', a'', b', g1, g2, g3, g4, g5, g6⟩ := C69_isolate o a hs hf hd
  rw [h1] at g1
  injection g1 with g1
  injection g1 with e1 e2
  subst e1
  rw [h2] at g2
  injection g2 with g2
  subst g2
  rcases hk with hk | hk
  · rw [← backup_noSig k hk src b.asRef, ← backup_noSig k hk src a.asRef]
    congr 1
    have e1 : Entry.shownL noSigShown b.stars b.cat.children = Entry.shownL noSigShown a.stars a.cat.children := congrArg (fun x => x.2.2.2.2.2) g4
    unfold IsoArc.asRef BCat.noSig
    dsimp only
    rw [← refL_bare, ← refL_bare, shownL_bare, shownL_bare, e1]
  · have e1 : Entry.shownL (sigShown b.sigs) b.stars b.cat.children = Entry.shownL (sigShown a.sigs) a.stars a.cat.children := congrArg (fun x => x.2.2.2.2.2) (g5 hk)
    unfold IsoArc.asRef
    rw [e1]

/-! ### findings -/

/-- the status of entries that are patches -/
theorem dropSig_delta (f : FileB) : f.dropSig .delta = f := by
  unfold FileB.dropSig FileB.clearSigOnly
  cases h : f.sig with
  | none => rfl
  | some d => simp
/-- Finding: a patch keeps its signature when the signatures are dropped, only the copy in memory is freed.  Without the option to keep signatures, the isolated catalogue says that there is a
signature at the position it had in the archive of origin: `start` is all the isolated catalogue holds, reading it fails, or worse. -/
theorem C69_dangling_counterexample (f : FileB) (d : DSig) (hf : f.sig = some d) (start : Bytes) (h1 : start.length ≤ d.offset) (h2 : d.offset ≠ 0) :
    (f.dropSig .delta).sig = some d ∧ ∃ e, sigFetch (some start) d = .error e := by
  refine ⟨by rw [dropSig_delta, hf], ?_⟩
  unfold sigFetch
  rw [if_neg h2]
  dsimp only
  rw [List.drop_eq_nil_of_le h1]
  exact ⟨.range, rfl⟩
/-- Finding: once an archive is opened with an isolated catalogue, the signatures of patches that remain lead to an object that has been deleted: asking for one, as a test of the archive
does, is undefined behaviour. -/
theorem C69_stale_counterexample (f iso : IsoFile) (ign : Bool) (w : IsoArc) (h : openWith f iso ign = .ok w) (d : DSig) (h2 : d.offset ≠ 0) :
    sigFetch w.sigs d = .error .ub := by
  have : w.sigs = none := by
    unfold openWith at h
    cases h1 : hdrOf iso.hdr with
    | error e => rw [h1] at h; cases h
    | ok ref =>
      rw [h1] at h
      change (do let (sl, ver, term) ← openLayers f ref ign; _ : Res IsoArc) = _ at h
      cases h3 : openLayers f ref ign with
      | error e => rw [h3] at h; cases h
      | ok x =>
        obtain ⟨sl, ver, term⟩ := x
        rw [h3] at h
        change (do let (c, stars) ← catOf ref.base.edition ver.base.algo iso.cat; _ : Res IsoArc) = _ at h
        cases h4 : catOf ref.base.edition ver.base.algo iso.cat with
        | error e => rw [h4] at h; cases h
        | ok y =>
          obtain ⟨c, stars⟩ := y
          rw [h4] at h
          change (if sl.dname ≠ c.label then .error .range else .ok _ : Res IsoArc) = _ at h
          by_cases hn : sl.dname ≠ c.label
          · rw [if_pos hn] at h; cases h
          · rw [if_neg hn] at h
            injection h with h
            rw [← h]
  unfold sigFetch
  rw [if_neg h2, this]
/-- Finding: when signatures are to be computed during the isolation, a plain file of the archive of which only the attributes have been saved stops it with an internal error. -/
theorem C69_inode_only_counterexample (o : IsoOpts) (data : Option Bytes) (p : List Bytes) (f : FileB) (out : Bytes) (hb : o.build = true) (hw : o.wants p f = true)
    (hs : f.sig = none) : xferFile o data p .inodeOnly f out = .error .bug := by
  unfold xferFile
  rw [hs]
  simp [hb, hw, buildSig]
/-- Finding: an isolated catalogue of a former format, which only knows how its archive is sliced, cannot be isolated again: internal error. -/
theorem C69_old_isolated_counterexample (o : IsoOpts) (a : IsoArc) (l : SliceHdr) (h1 : a.ver.refVersion = none) (h2 : a.ver.base.refHeader = some l)
    (h3 : a.ver.base.onlyLayout = true) (x : IsoFile × IsoArc) : opIsolate o a ≠ .ok x := by
  have hr : isoRef a = .ok (a.sl, a.ver.base, a.term) := by
    unfold isoRef Hdr.sliceHeader
    rw [h1, h3]
    rfl
  have hp : ∀ b, a.ver.base.plain ≠ .ok b := by
    intro b hb
    unfold HdrBase.plain HdrBase.head HdrBase.refBytes at hb
    rw [h2, h3] at hb
    dsimp only at hb
    rw [if_pos rfl] at hb
    cases hfl : a.ver.base.flags false with
    | error e => rw [hfl] at hb; cases hb
    | ok bits =>
      rw [hfl] at hb
      simp only [bind, Except.bind] at hb
      by_cases hb2 : bits &&& F_ALL ≠ bits
      · rw [if_pos hb2] at hb; cases hb
      · rw [if_neg hb2] at hb
        cases hdu : flagsDump bits with
        | error e => rw [hdu] at hb; cases hb
        | ok fl => rw [hdu] at hb; cases hb
  have hw : ∀ b, (isoHdr o (a.sl, a.ver.base, a.term)).write ≠ .ok b := by
    intro b hb
    unfold Hdr.write Hdr.body isoHdr at hb
    simp only [bind, Except.bind] at hb
    cases hh : HdrBase.head { o.base with refHeader := some a.sl, onlyLayout := false } true with
    | error e => rw [hh] at hb; cases hb
    | ok q =>
      rw [hh] at hb
      dsimp only at hb
      cases hq : a.ver.base.plain with
      | error e => rw [hq] at hb; cases hb
      | ok z => exact hp z hq
  intro h
  unfold opIsolate at h
  by_cases c1 : (!a.exploitable && o.delta) = true
  · rw [if_pos c1] at h; cases h
  · rw [if_neg c1] at h
    by_cases c2 : o.label = a.cat.label
    · rw [if_pos c2] at h; cases h
    · rw [if_neg c2, hr] at h
      simp only [bind, Except.bind] at h
      cases hh : (isoHdr o (a.sl, a.ver.base, a.term)).write with
      | error e => rw [hh] at h; cases h
      | ok z => exact hw z hh
/-- Finding: the isolation without signatures takes them away from the archive that is open: a file it had a signature for has none afterwards. -/
theorem C69_archive_changed_counterexample (o : IsoOpts) (ho : o.delta = false) (a a' : IsoArc) (iso : IsoFile) (h : opIsolate o a = .ok (iso, a')) :
    a'.cat.children = Entry.dropSigs a.cat.children := by
  unfold opIsolate at h
  rw [ho] at h
  simp only [Bool.and_false, Bool.false_eq_true, if_false] at h
  by_cases c2 : o.label = a.cat.label
  · rw [if_pos c2] at h; cases h
  · rw [if_neg c2] at h
    simp only [bind, Except.bind] at h
    cases h1 : isoRef a with
    | error e => rw [h1] at h; cases h
    | ok r =>
      rw [h1] at h
      dsimp only at h
      cases h2 : (isoHdr o r).write with
      | error e => rw [h2] at h; cases h
      | ok hb =>
        rw [h2] at h
        have hc : isoCat o a = .ok ({ a.cat with children := Entry.dropSigs a.cat.children }, starsDropSig a.stars, o.start) := by unfold isoCat; rw [ho]; rfl
        rw [hc] at h
        dsimp only at h
        cases h3 : ({ a.cat with children := Entry.dropSigs a.cat.children } : Cat).dump (starsDropSig a.stars) with
        | error e => rw [h3] at h; cases h
        | ok cb =>
          rw [h3] at h
          injection h with h
          injection h with _ h
          rw [← h]

/-! ### a concrete case -/

/-- the archive of the example of C32: a file with a signature of three bytes, hard links, a removed entry, a directory -/
def exSigBytes : Bytes := match sigPut 2048 [7, 8, 9] with | .ok b => b | .error _ => []
def exIsoFile : FileB := { exFile with sig := some ⟨.rkBlake2, 3, 1, some exCrc⟩ }
def exIsoCat : Cat := { exCat with children := .node ⟨[102], .saved, exInode, .file exIsoFile⟩ :: exCat.children.tail }
def exIsoStars (k : Nat) : Star := { exStars k with refs := if k = 7 then 2 else if k = 8 then 1 else 0 }
def exIsoArc : IsoArc := ⟨{ exSlice with dname := exCat.label }, ⟨{ exBase with refHeader := none }, none, 0⟩, 9000, exIsoCat, exIsoStars, some (5 :: exSigBytes), true⟩
def exIsoOpts : IsoOpts := ⟨true, false, fun _ => true, 0, fun _ => .error .bug, List.replicate 10 6, exBase, exSlice, [1, 2, 3], 500⟩

theorem exIso_counted : LinksCounted exIsoStars exIsoCat.children := by
  intro k
  simp only [exIsoStars, exStars, exIsoCat, exCat, List.tail_cons, Entry.linksToL, Entry.linksTo]
  refine ⟨?_, trivial⟩
  by_cases h7 : k = 7
  · subst h7; simp
  · by_cases h8 : k = 8
    · subst h8; simp
    · simp [h7, h8, Ne.symm h7, Ne.symm h8]
theorem exIso_writable : exIsoCat.Writable exIsoStars := by
  have hx := exCat_writable
  refine ⟨hx.label, hx.place, hx.placeStr, ?_⟩
  have ht := hx.tree
  have hf : exIsoFile.Writable false .saved :=
    ⟨.inr rfl, (by intro h; cases h), (by intro h; cases h), fun _ _ => ⟨exCrc, rfl, rfl, rfl⟩, (by intro _ d h; cases h; exact ⟨exCrc, rfl, rfl, rfl⟩)⟩
  have hi := exInode_writable false
  have hl : ∀ k, (exIsoStars k).node.Writable false := fun k => ⟨by simp [exIsoStars, exStars], hi, by simp [exIsoStars, exStars, Special.Writable]⟩
  simp only [exIsoCat, exCat, List.tail_cons, Entry.Writable, Entry.WritableList]
  exact ⟨by decide, hi, ⟨by simp, hi, hf⟩, ⟨by simp, hl 7⟩, ⟨by simp, trivial⟩, ⟨by simp, hi, ⟨by simp, hl 7⟩, ⟨by simp, hl 8⟩, ⟨by simp, hi, by simp [Special.Writable]⟩, trivial⟩, trivial⟩
theorem exIso_sound : exIsoArc.Sound := by
  refine ⟨exIso_writable, exIso_counted, ⟨?_, (by intro r hr; cases hr), fun _ => rfl⟩, fun _ => ⟨rfl, ?_, by decide⟩, fun h => absurd rfl h⟩
  · have := exBase_writable
    exact ⟨this.ver, this.known, this.line, this.layout, (by intro r hr; cases hr), this.ciph, this.nokdf, this.kdf⟩
  · have := exSlice_ref
    exact ⟨⟨this.new, this.mag, this.inm, rfl, by decide⟩, this.fh, this.oh, this.fs, this.os, this.both⟩
theorem exIso_ready : exIsoArc.SigsReady exIsoOpts := by
  refine ⟨rfl, rfl, by simp [exIsoOpts], ?_⟩
  have hf : Dar.SigGood (some (5 :: exSigBytes)) exIsoFile := by
    intro d hd
    injection hd with hd
    subst hd
    refine ⟨(by intro h; cases h), fun _ => ⟨2048, [7, 8, 9], ?_, by decide⟩⟩
    obtain ⟨b, h1, h2⟩ := sigPut_read 2048 [7, 8, 9] (by decide)
    have hb : exSigBytes = b := by unfold exSigBytes; rw [h1]
    unfold sigFetch
    have this : sigRead1 3 (b ++ []) = .ok ((2048, [7, 8, 9]), []) := h2 []
    rw [List.append_nil] at this
    simp only [Nat.one_ne_zero, if_false, List.drop_succ_cons, List.drop_zero, hb]
    rw [this]
  simp only [exIsoArc, exIsoCat, exCat, List.tail_cons, Entry.SigGoodL, Entry.SigGood, Node.SigGood]
  exact ⟨hf, trivial, trivial, trivial, ⟨trivial, trivial, trivial, trivial⟩, trivial⟩
/-- it meets the hypotheses of the theorems above, signatures included, and the archive can then be opened with its isolated catalogue whatever remains of it -/
example : ∃ iso a' b, opIsolate exIsoOpts exIsoArc = .ok (iso, a') ∧ openArc iso = .ok b ∧ b.shown (sigShown b.sigs) = exIsoArc.shown (sigShown exIsoArc.sigs)
    ∧ ∃ w, openWith ⟨exSlice, [], 0, [], []⟩ iso false = .ok w ∧ w.shown noSigShown = exIsoArc.shown noSigShown := by
  have hfit : exIsoOpts.Fit exIsoArc := ⟨by decide, exBase_writable⟩
  obtain ⟨iso, a', b, h1, h2, _, _, h3, _⟩ := C69_isolate exIsoOpts exIsoArc exIso_sound hfit (fun _ => exIso_ready)
  obtain ⟨w, k1, _, _, _, k2, _⟩ := C69_rescue exIsoOpts exIsoArc exIso_sound hfit (fun _ => exIso_ready) _ _ _ rfl rfl iso a' h1 ⟨exSlice, [], 0, [], []⟩
  exact ⟨iso, a', b, h1, h2, h3 rfl, w, k1, k2⟩

end Dar
