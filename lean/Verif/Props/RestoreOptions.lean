import Verif.Lemmas.RestorePreserve
import Verif.Lemmas.RestoreNames
import Verif.Lemmas.RestoreTable
/- C55: what a restoration does with the existing files, according to the filters, the options and the overwriting policy. -/
namespace Dar

theorem walk_ok {o : RsOpts} {cat : BCat} {fs0 fs' : FS} {st : Stats} (h : restore o cat fs0 = .ok (fs', st)) :
    ∃ s', walkL o cat.stars cat.root ⟨fs0, [], [], [], Stats.zero, 0⟩ = .ok s' ∧ s'.fs = fs' ∧ s'.st = st ∧ s'.stack.length = 0 := by
  rw [restore_walk] at h
  cases hw : walkL o cat.stars cat.root ⟨fs0, [], [], [], Stats.zero, 0⟩ with
  | error er => rw [hw] at h; cases h
  | ok s' =>
    rw [hw] at h
    cases h
    exact ⟨s', rfl, rfl, rfl, Nat.le_zero.1 (walkL_len _ _ _ hw)⟩

/-- C55, filters and options: what the archive does not tell, or what is excluded by the filters or by the options on deletions, is left exactly as it was, unless a
directory above it is removed or replaced by something else; so is the inode, if all its names are in this case. -/
theorem C55_outside (o : RsOpts) (cat : BCat) (fs0 fs' : FS) (st : Stats) (hd : BEntry.DistinctL cat.root) (hw : FSOk fs0) (h : restore o cat fs0 = .ok (fs', st))
    (p : List Bytes) (hp : fs0.ent p ≠ none) (ho : Outside o cat p) (hk : KeptAbove o cat p) :
    fs'.ent p = fs0.ent p ∧
    ∀ i, fs0.ent p = some (.ino i) → (∀ q, fs0.ent q = some (.ino i) → Outside o cat q ∧ KeptAbove o cat q) → fs'.ino i = fs0.ino i := by
  obtain ⟨s', h1, h2, -, h4⟩ := walk_ok h
  let U : List Bytes → Prop := fun q => Outside o cat q ∧ KeptAbove o cat q ∧ fs0.ent q ≠ none
  let C : List Bytes → BEntry → Prop := fun d e => treeAt cat.root (d ++ [e.name]) = some e ∧ BEntry.Distinct e ∧ ∀ b, b ≠ [] → b <+: d → ∃ e, treeAt cat.root b = some e ∧ Considered o b e
  have hU : ¬ U [] := by rintro ⟨⟨a, ha, hp, -⟩, -⟩; exact ha (List.prefix_nil.1 hp)
  have hC : ∀ d e, C d e → Considered o (d ++ [e.name]) e → Clear o U (d ++ [e.name]) e := by
    rintro d e ⟨c1, -, c2⟩ hcon
    have hno : ∀ b, b ≠ [] → b <+: d ++ [e.name] → ∃ e, treeAt cat.root b = some e ∧ Considered o b e := by
      intro b hb hbd
      rcases List.prefix_concat_iff.1 hbd with h5 | h5
      · rw [h5]; exact ⟨e, c1, hcon⟩
      · exact c2 b hb h5
    refine ⟨?_, ?_⟩
    · rintro q ⟨⟨a, ha, haq, hex⟩, -, -⟩ hqw
      obtain ⟨e', he', hc'⟩ := hno a ha (haq.trans hqw)
      exact hex e' he' hc'
    · rintro ⟨q, ⟨⟨a, ha, haq, hex⟩, hka, -⟩, hwq⟩
      refine hka _ _ hwq ?_ c1 hcon
      rintro rfl
      obtain ⟨e', he', hc'⟩ := hno a ha haq
      exact hex e' he' hc'
  have hb : ∀ d x c, C d (.dir x c) → o.cov (d ++ [x.name]) (.dir x c) = true → ∀ e ∈ c, C (d ++ [x.name]) e := by
    rintro d x c ⟨c1, c2, c3⟩ hcov e he
    have hdl : BEntry.DistinctL c := by unfold BEntry.Distinct at c2; exact c2
    refine ⟨?_, distinct_mem hdl he, fun b hbn hbd => ?_⟩
    · have c1' : treeAt cat.root (d ++ [x.name]) = some (.dir x c) := c1
      rw [treeAt_app _ _ _ _ (by simp), c1']
      exact findChild_mem hdl he
    · rcases List.prefix_concat_iff.1 hbd with h5 | h5
      · rw [h5]; exact ⟨_, c1, hcov, fun _ => rfl, fun _ => Or.inl rfl⟩
      · exact c3 b hbn h5
  have H := frame_inv o cat.stars U ⟨fs0, [], [], [], Stats.zero, 0⟩ hU C hC hb
  have hi : FrameSt U ⟨fs0, [], [], [], Stats.zero, 0⟩ ⟨fs0, [], [], [], Stats.zero, 0⟩ := by
    refine ⟨⟨fun _ _ => rfl, fun q r hq hr hne => hw.above q.length (by omega) hq.2.2 hr hne, fun i _ hi => ⟨rfl, hi⟩, fun k v hv => ?_, hw.ids, Nat.le_refl _⟩, rfl, hw.dirs, ?_⟩
    · simp [RsSt.label] at hv
    · rintro q hq hp
      have : q = [] := List.prefix_nil.1 hp
      exact hU (this ▸ hq)
  obtain ⟨hf, -⟩ := walkL_inv H cat.root _ s' h1 h4 (fun e he => ⟨findChild_mem hd he, distinct_mem hd he, fun b hb hbd => absurd (List.prefix_nil.1 hbd) hb⟩) hi
  rw [← h2]
  refine ⟨hf.prot.ent p ⟨ho, hk, hp⟩, fun i hpi hq => ?_⟩
  exact (hf.prot.ino i (hw.ids p i hpi) (fun q hqi => ⟨(hq q hqi).1, (hq q hqi).2, by rw [show fs0.ent q = some (.ino i) from hqi]; simp⟩)).1
where
  distinct_mem : ∀ {l : List BEntry} {e : BEntry}, BEntry.DistinctL l → e ∈ l → BEntry.Distinct e
    | [], e, _, he => by simp at he
    | a :: l, e, hd, he => by
      unfold BEntry.DistinctL at hd
      rcases List.mem_cons.1 he with rfl | he
      · exact hd.1
      · exact distinct_mem hd.2.2 he

/-- C55, preserving: when the policy is to preserve what exists, every existing file keeps its name, its content and all its attributes, every existing directory stays
with its content, and its owner, permissions and date are changed only if the archive has something in it that does not exist, or records a deletion in it (see the
examples below). -/
theorem C55_preserve (o : RsOpts) (cat : BCat) (fs0 fs' : FS) (st : Stats) (hd : BEntry.DistinctL cat.root) (hw : FSOk fs0) (hp : Preserving o) (hc : NoPatch cat)
    (h : restore o cat fs0 = .ok (fs', st)) :
    (∀ p i, fs0.ent p = some (.ino i) → fs'.ent p = some (.ino i) ∧ fs'.ino i = fs0.ino i) ∧
    (∀ p y, fs0.ent p = some (.dir y) → ∃ z, fs'.ent p = some (.dir z) ∧ SameButOwner y z ∧ (Quiet cat fs0 p → z = y)) := by
  obtain ⟨s', h1, h2, -, h4⟩ := walk_ok h
  have hi : PresInv cat fs0 ⟨fs0, [], [], [], Stats.zero, 0⟩ := by
    refine ⟨fun _ _ h => h, fun _ _ => rfl, fun p y hy => ⟨y, hy, sbo_refl y, fun _ => rfl⟩, fun p i h1 h2 => ?_, Nat.le_refl _, fun k v hv => ?_, hw.kinds, hw.ids, rfl, fun q hq hqd => ?_,
      fun a x f b hs => ?_⟩
    · rw [show fs0.ent p = some (.ino i) from h2] at h1; cases h1
    · simp [RsSt.label] at hv
    · exact absurd (List.prefix_nil.1 hqd) hq
    · cases a <;> cases hs
  obtain ⟨hf, -⟩ := walkL_inv (preserve_inv hw hp hc) cat.root _ s' h1 h4 (fun e he => ⟨findChild_mem hd he, C55_outside.distinct_mem hd he⟩) hi
  rw [← h2]
  exact ⟨fun p i hpi => ⟨hf.inos p i hpi, hf.same i (hw.ids p i hpi)⟩, hf.dirs⟩

/-- C55, names: a restoration creates only names that are in the archive and kept by the filters and the options (none when only deletions are asked for), and makes disappear only names the
archive records as deleted, those the policy says to remove, and those below them or below a directory that is replaced by something else. -/
theorem C55_names (o : RsOpts) (cat : BCat) (fs0 fs' : FS) (st : Stats) (hd : BEntry.DistinctL cat.root) (hw : FSOk fs0) (h : restore o cat fs0 = .ok (fs', st)) :
    FSOk fs' ∧ (∀ p, fs'.ent p ≠ none → fs0.ent p ≠ none ∨ MayCreate o cat p) ∧ (∀ p, fs0.ent p ≠ none → fs'.ent p ≠ none ∨ MayRemove o cat p) := by
  obtain ⟨s', h1, h2, -, h4⟩ := walk_ok h
  have hi : NamesSt o cat fs0 ⟨fs0, [], [], [], Stats.zero, 0⟩ := ⟨hw, rfl, fun p hp => Or.inl hp, fun p hp => Or.inl hp⟩
  obtain ⟨hf, -⟩ := walkL_inv (names_inv o cat fs0) cat.root _ s' h1 h4 (fun e he => ⟨findChild_mem hd he, C55_outside.distinct_mem hd he⟩) hi
  rw [← h2]
  exact ⟨hf.ok, hf.news, hf.olds⟩

/-- the moment when the restoration comes to an entry that is not a directory -/
theorem policy_turn {o : RsOpts} {cat : BCat} {fs0 fs' : FS} {st : Stats} {p : List Bytes} {e : BEntry} (hd : BEntry.DistinctL cat.root) (hw : FSOk fs0)
    (h : restore o cat fs0 = .ok (fs', st)) (he : treeAt cat.root p = some e) (hnd : e.isDir = false) (hr : RsReached o cat p) (hp : p ≠ [])
    (habove : ∀ r, r <+: p → r ≠ p → fs0.isDir r = true) :
    ∃ s1 s2 b s', FrameSt (fun q => q = p) ⟨fs0, [], [], [], Stats.zero, 0⟩ s1 ∧ s1.cdir ++ [e.name] = p ∧ rsTurn o cat.stars s1 e = .ok (s2, b) ∧
      (∀ base, FrameSt (fun q => q = p) base s2 → FrameSt (fun q => q = p) base s') ∧ s'.fs = fs' := by
  obtain ⟨s', h1, h2, -, h4⟩ := walk_ok h
  have hi : FrameSt (fun q => q = p) ⟨fs0, [], [], [], Stats.zero, 0⟩ ⟨fs0, [], [], [], Stats.zero, 0⟩ := by
    refine ⟨⟨fun _ _ => rfl, fun q r hq hr hne => habove r (hq ▸ hr) (hq ▸ hne), fun i _ hi => ⟨rfl, hi⟩, fun k v hv => ?_, hw.ids, Nat.le_refl _⟩, rfl, hw.dirs, ?_⟩
    · simp [RsSt.label] at hv
    · rintro q hq hqp
      exact hp (hq ▸ List.prefix_nil.1 hqp)
  obtain ⟨s1, s2, b, a1, a2, a3, a4⟩ := walk_at (p := p) p [] cat.root _ s' _ hp rfl rfl hd he hnd (fun q f hq hqp hne hf => hr q f hq hqp hne hf) hi h1 (by rw [h4]; rfl)
  exact ⟨s1, s2, b, s', a1, a2, a3, a4, h2⟩

/-- the single name of an inode stays so -/
theorem sole_frame {s s' : RsSt} {p : List Bytes} {j : Nat} {z : Obj} (h : Sole s p j z) (hf : FrameSt (fun q => q = p) s s') : Sole s' p j z := by
  have hi := hf.prot.ino j h.lt (fun q hq => h.names q hq)
  exact ⟨(hf.prot.ent p rfl).trans h.ent, hi.1.trans h.ino, hi.2, h.lt.trans_le hf.prot.next⟩

/-- C55, overwriting a file: what a file that exists and that is in the archive becomes, according to the policy that applies to it.  It is removed only when the policy says so and the archive
holds its data or its inode; it is unchanged when nothing can be done; else it has the data, the metadata, the extended attributes and the attributes of the filesystem the policy asks for, and
it is the same inode unless its data is replaced. -/
theorem C55_policy_file (o : RsOpts) (cat : BCat) (fs0 fs' : FS) (st : Stats) (hd : BEntry.DistinctL cat.root) (hw : FSOk fs0) (h : restore o cat fs0 = .ok (fs', st))
    (p : List Bytes) (x : Obj) (he : treeAt cat.root p = some (.node x)) (hk : x.ino.kind ≠ .dir) (hc : Considered o p (.node x)) (hr : RsReached o cat p)
    (i : Nat) (hp : fs0.ent p = some (.ino i)) (hone : ∀ q, fs0.ent q = some (.ino i) → q = p)
    (ad : OverData) (ae : OverEa) (hov : o.over (fs0.ino i) (.node x) = .ok (ad, ae))
    (le lf : Bytes → Bytes → Option Bytes) (hle : LookLaw o.eaOver le) (hlf : LookLaw o.fsaOver lf) :
    (ad = .remove ∧ InArchive x → fs'.ent p = none) ∧
    (Refused o ad x (fs0.ino i) → fs'.ent p = some (.ino i) ∧ fs'.ino i = fs0.ino i) ∧
    (¬ (ad = .remove ∧ InArchive x) → ¬ Refused o ad x (fs0.ino i) → ∃ j, fs'.ent p = some (.ino j) ∧ (∀ q, fs'.ent q = some (.ino j) → q = p) ∧
      DataOutcome o ad x (fs0.ino i) (fs'.ino j) ∧
      (∀ n, le (fs'.ino j).eas n = eaOutcome le (if ad = .remove then .preserve else ae) x (fs0.ino i) n) ∧
      (∀ n, lf (fs'.ino j).fsas n = fsaOutcome lf (if ad = .remove then .preserve else ae) (if x.ino.status = .saved ∧ Replaces ad then o.fsa0 else []) x (fs0.ino i) n) ∧
      (¬ (x.ino.status = .saved ∧ Replaces ad) → j = i)) := by
  have hpn : p ≠ [] := by rintro rfl; obtain ⟨y, hy⟩ := hw.root; rw [hy] at hp; cases hp
  obtain ⟨s1, s2, b, s', a1, a2, a3, a4, rfl⟩ := policy_turn hd hw h he rfl hr hpn (fun r hr hne => hw.above p.length (by omega) (by rw [hp]; simp) hr hne)
  have hS : Sole s1 p i (fs0.ino i) := by
    have hi := a1.prot.ino i (hw.ids p i hp) hone
    exact ⟨(a1.prot.ent p rfl).trans hp, hi.1, hi.2, (hw.ids p i hp).trans_le a1.prot.next⟩
  have hb := frame_base a1 a2 rfl (by simp) a3
  have hfin := a4 s2 hb
  have htw := turn_write (by rw [a2]; exact hc) a3
  have hwi : s1.write o cat.stars (.node x) = (do
      let (s, d) ← s1.writeOver o (.node x) x (fs0.ino i) p ad ae
      .ok (s.enter (.node x) x (some (fs0.ino i)) d, d)) := by
    show s1.writeInode o (.node x) x = _
    unfold RsSt.writeInode FS.obj
    simp only [a2, hS.ent, hS.ino, hov]
  rw [hwi] at htw
  have hon := over_node (o := o) (x := x) ad ae hle hlf hS hpn (a1.prot.dirs p _ rfl (List.dropLast_prefix p) (dropLast_ne hpn)) a1.prot.ids hk (hw.kinds p i hp)
  have gone : s2.fs.ent p = none → s'.fs.ent p = none := fun hn => (hfin.prot.ent p rfl).trans hn
  have notBoth : ad = .remove → ¬ InArchive x → ¬ (ad = .remove ∧ InArchive x) := fun _ h1 h2 => h1 h2.2
  have hex : ad = .remove → InArchive x → ¬ Refused o ad x (fs0.ino i) := by
    rintro rfl hin (hh | hh | hh)
    · exact absurd hh.2.1 (by simp [Replaces])
    · rcases hin with hx | hx <;> rw [hx] at hh <;> exact absurd hh.1 (by simp)
    · exact absurd hh.2 (by simp)
  cases hwo : s1.writeOver o (.node x) x (fs0.ino i) p ad ae with
  | ok r =>
    obtain ⟨s3, d⟩ := r
    rw [hwo] at htw hon
    change s2.fs = (s3.enter (.node x) x (some (fs0.ino i)) d).fs at htw
    have hen : (s3.enter (.node x) x (some (fs0.ino i)) d).fs = s3.fs := by unfold RsSt.enter; simp [BEntry.isDir]
    rw [hen] at htw
    rcases hon with ⟨g1, g2, g3⟩ | ⟨g1, g2, j, z, g3, g4, g5, g6, g7⟩
    · exact ⟨fun _ => gone (by rw [htw]; exact g3), fun hR => absurd hR (hex g1 g2), fun hR => absurd ⟨g1, g2⟩ hR⟩
    · refine ⟨fun hR => absurd hR g1, fun hR => absurd hR g2, fun _ _ => ⟨j, ?_⟩⟩
      have hz := sole_frame (g3.congr htw) hfin
      rw [hz.ino]
      exact ⟨hz.ent, hz.names, g4, g5, g6, g7⟩
  | error er =>
    obtain ⟨er, s3⟩ := er
    rw [hwo] at htw hon
    change er ≠ .bug ∧ s2.fs = s3.fs at htw
    rcases hon with g | ⟨g1, g2, g3⟩ | ⟨rfl, g2⟩
    · exact absurd g htw.1
    · exact ⟨fun _ => gone (by rw [htw.2]; exact g3), fun hR => absurd hR (hex g1 g2), fun hR => absurd ⟨g1, g2⟩ hR⟩
    · refine ⟨fun hR => absurd g2 (hex hR.1 hR.2), fun _ => ?_, fun _ hR => absurd g2 hR⟩
      have hz := sole_frame (hS.congr htw.2) hfin
      exact ⟨hz.ent, hz.ino⟩

/-- C55, creating a file: a file of the archive that does not exist is created, with all that the archive tells, if its data is in the archive; else nothing is created. -/
theorem C55_policy_missing (o : RsOpts) (cat : BCat) (fs0 fs' : FS) (st : Stats) (hd : BEntry.DistinctL cat.root) (hw : FSOk fs0) (h : restore o cat fs0 = .ok (fs', st))
    (p : List Bytes) (x : Obj) (he : treeAt cat.root p = some (.node x)) (hk : x.ino.kind ≠ .dir) (hc : Considered o p (.node x)) (hr : RsReached o cat p)
    (hp : fs0.ent p = none) (hpd : fs0.isDir p.dropLast = true)
    (le lf : Bytes → Bytes → Option Bytes) (hle : LookLaw o.eaOver le) (hlf : LookLaw o.fsaOver lf) :
    (x.ino.status ≠ .saved → fs'.ent p = none) ∧
    (x.ino.status = .saved → ∃ j, fs'.ent p = some (.ino j) ∧ (∀ q, fs'.ent q = some (.ino j) → q = p) ∧
      (fs'.ino j).ino.kind = x.ino.kind ∧ SameContent (fs'.ino j) x ∧ Stamped o x o.uid o.gid 448 o.now (fs'.ino j) ∧
      (∀ n, le (fs'.ino j).eas n = if x.ino.eaStatus = .full then le x.eas n else none) ∧
      (∀ n, lf (fs'.ino j).fsas n = if x.fsa = .full then (lf x.fsas n).or (lf o.fsa0 n) else lf o.fsa0 n)) := by
  have hpn : p ≠ [] := by rintro rfl; obtain ⟨y, hy⟩ := hw.root; rw [hy] at hp; cases hp
  have hab : ∀ r, r <+: p → r ≠ p → fs0.isDir r = true := by
    intro r hrp hne
    have hdl : r <+: p.dropLast := by
      obtain ⟨a, n, rfl⟩ : ∃ a n, p = a ++ [n] := ⟨p.dropLast, p.getLast hpn, (List.dropLast_concat_getLast hpn).symm⟩
      rw [List.dropLast_concat]
      exact (List.prefix_concat_iff.1 hrp).resolve_left hne
    by_cases hrd : r = p.dropLast
    · rw [hrd]; exact hpd
    · exact hw.above p.dropLast.length (by omega) (by obtain ⟨y, hy⟩ := ent_isDir hpd; rw [hy]; simp) hdl hrd
  have hod : o.onlyDeleted = false := by
    cases ho : o.onlyDeleted with
    | false => rfl
    | true => rcases hc.2.2 ho with hh | hh <;> cases hh
  obtain ⟨s1, s2, b, s', a1, a2, a3, a4, rfl⟩ := policy_turn hd hw h he rfl hr hpn hab
  have hb := frame_base a1 a2 rfl (by simp) a3
  have hfin := a4 s2 hb
  have htw := turn_write (by rw [a2]; exact hc) a3
  have hn : s1.fs.ent p = none := (a1.prot.ent p rfl).trans hp
  have hwi : s1.write o cat.stars (.node x) = if x.ino.status = .delta ∨ x.ino.status = .inodeOnly then s1.throw .range else (do
      let (s, d) ← s1.writeNew o (.node x) x p
      .ok (s.enter (.node x) x none d, d)) := by
    show s1.writeInode o (.node x) x = _
    unfold RsSt.writeInode FS.obj
    simp only [a2, hn]
  rw [hwi] at htw
  constructor
  · intro hs
    refine (hfin.prot.ent p rfl).trans ?_
    by_cases hdi : x.ino.status = .delta ∨ x.ino.status = .inodeOnly
    · rw [if_pos hdi] at htw
      rw [htw.2]; exact hn
    · rw [if_neg hdi] at htw
      have hwn : s1.writeNew o (.node x) x p = .ok (s1, .noData) := by
        unfold RsSt.writeNew
        rw [if_neg (by simp [hs, RsSt.knows, BEntry.isDir])]
      rw [hwn] at htw
      have : s2.fs = s1.fs := htw.trans (by unfold RsSt.enter; simp [BEntry.isDir])
      rw [this]; exact hn
  · intro hs
    rw [if_neg (by simp [hs])] at htw
    obtain ⟨s3, d, z, g1, g2, g3, g4, g5, g6, g7⟩ := new_node (o := o) (x := x) hle hlf hn (a1.prot.dirs p _ rfl (List.dropLast_prefix p) (dropLast_ne hpn)) a1.prot.ids hk hs hod
    rw [g1] at htw
    have hf : s2.fs = s3.fs := htw.trans (by unfold RsSt.enter; simp [BEntry.isDir])
    have hz := sole_frame (g2.congr hf) hfin
    refine ⟨_, hz.ent, hz.names, ?_⟩
    rw [hz.ino]
    exact ⟨g3, g4, g5, g6, g7⟩

/-- C55, deletions: where the archive records a deletion, what exists is removed, with all it contains, if the policy is to overwrite or to remove, and stays if the policy is to
preserve or is undefined. -/
theorem C55_policy_deleted (o : RsOpts) (cat : BCat) (fs0 fs' : FS) (st : Stats) (hd : BEntry.DistinctL cat.root) (hw : FSOk fs0) (h : restore o cat fs0 = .ok (fs', st))
    (p : List Bytes) (e : BEntry) (he : treeAt cat.root p = some e) (hdet : e.isDet = true) (hc : Considered o p e) (hr : RsReached o cat p) (hp : fs0.ent p ≠ none)
    (ad : OverData) (hov : ∀ y, ∃ ae, o.over y e = .ok (ad, ae)) :
    (ad = .overwrite ∨ ad = .overwriteMark ∨ ad = .remove → ∀ r, p <+: r → fs'.ent r = none) ∧
    (ad = .preserve ∨ ad = .preserveMark ∨ ad = .undefined → fs'.ent p = fs0.ent p) := by
  have hpn : p ≠ [] := by rintro rfl; simp [treeAt] at he
  have hnd : e.isDir = false := by cases e <;> first | rfl | cases hdet
  have hnm : ∀ n k, e ≠ .mirage n k := by rintro n k rfl; cases hdet
  obtain ⟨hok, -, -⟩ := C55_names o cat fs0 fs' st hd hw h
  obtain ⟨s1, s2, b, s', a1, a2, a3, a4, rfl⟩ := policy_turn hd hw h he hnd hr hpn (fun r hr hne => hw.above p.length (by omega) hp hr hne)
  have hb := frame_base a1 a2 hnd hnm a3
  have hfin := (a4 s2 hb).prot.ent p rfl
  have htw := turn_write (by rw [a2]; exact hc) a3
  have hent : s1.fs.ent p = fs0.ent p := a1.prot.ent p rfl
  obtain ⟨y, hy⟩ : ∃ y, s1.fs.obj p = some y := by
    unfold FS.obj
    rw [hent]
    cases hfe : fs0.ent p with
    | none => exact absurd hfe hp
    | some v => cases v <;> exact ⟨_, rfl⟩
  obtain ⟨ae, hov⟩ := hov y
  have hwi : s1.write o cat.stars e = (do
      let s ← s1.overRemove o p ad
      .ok (s.flag, .removed)) := by
    have : s1.write o cat.stars e = s1.writeDet o e := by cases e <;> first | rfl | cases hdet
    rw [this]
    unfold RsSt.writeDet
    simp only [a2, hy, hov]
  rw [hwi] at htw
  constructor
  · intro had r hpr
    have hgone : s'.fs.ent p = none := by
      rw [hfin]
      have : s1.overRemove o p ad = .ok { s1 with fs := s1.fs.remove o.now p } := by
        rcases had with rfl | rfl | rfl <;> rfl
      rw [this] at htw
      have htw' : s2.fs = _ := htw
      rw [htw', flagFs]
      exact remove_none s1.fs o.now p
    by_contra hne
    by_cases hpe : p = r
    · rw [← hpe] at hne; exact hne hgone
    · have := hok.above r.length (by omega) hne hpr hpe
      obtain ⟨y, hy⟩ := ent_isDir this
      rw [hgone] at hy; cases hy
  · intro had
    rw [hfin, ← hent]
    rcases had with rfl | rfl | rfl
    · have htw' : s2.fs = _ := htw
      rw [htw', flagFs]
    · have htw' : s2.fs = _ := htw
      rw [htw', flagFs]
    · rw [htw.2]

/-- C55, only deletions: whatever the policy of the user is, no name is created, all the recorded deletions that are reached are done, and the files that are not told to be deleted are unchanged, unless a directory
above them is deleted or is not a directory in the archive (see the counterexample). -/
theorem C55_only_deleted (o : RsOpts) (cat : BCat) (fs0 fs' : FS) (st : Stats) (hod : o.onlyDeleted = true) (hnd : o.notDeleted = false) (hd : BEntry.DistinctL cat.root) (hw : FSOk fs0)
    (h : restoreUser o cat fs0 = .ok (fs', st)) :
    (∀ p, fs'.ent p ≠ none → fs0.ent p ≠ none) ∧
    (∀ p e, treeAt cat.root p = some e → e.isDet = true → o.cov p e = true →
      (∀ q f, q ≠ [] → q <+: p → q ≠ p → treeAt cat.root q = some f → ∃ x c, f = .dir x c ∧ x.ino.kind = .dir ∧ o.cov q f = true) → ∀ r, p <+: r → fs'.ent r = none) ∧
    (∀ p, p ≠ [] → fs0.ent p ≠ none → (∀ e, treeAt cat.root p = some e → e.isDir = false ∧ e.isDet = false) →
      (∀ q f, q <+: p → q ≠ p → treeAt cat.root q = some f → ∃ x c, f = .dir x c ∧ x.ino.kind = .dir) → fs'.ent p = fs0.ent p) := by
  have heff : o.effective = { o with over := onlyDeletedOver } := by unfold RsOpts.effective; rw [if_pos hod]
  unfold restoreUser at h
  rw [heff] at h
  obtain ⟨hok, hnew, -⟩ := C55_names _ cat fs0 fs' st hd hw h
  have hold : ∀ p, fs'.ent p ≠ none → fs0.ent p ≠ none := by
    intro p hp
    rcases hnew p hp with h1 | ⟨e, -, -, h2, -⟩
    · exact h1
    · exact absurd (show o.onlyDeleted = false from h2) (by rw [hod]; simp)
  refine ⟨hold, fun p e he hdet hcov habove r hpr => ?_, fun p hpn hp hno habove => ?_⟩
  · by_cases hp : fs0.ent p = none
    · by_contra hne
      by_cases hpe : p = r
      · subst hpe; exact hold p hne hp
      · obtain ⟨y, hy⟩ := ent_isDir (hok.above r.length (by omega) hne hpr hpe)
        exact hold p (by rw [hy]; simp) hp
    · refine (C55_policy_deleted _ cat fs0 fs' st hd hw h p e he hdet ⟨hcov, fun h => absurd (show o.notDeleted = true from h) (by rw [hnd]; simp), fun _ => Or.inr hdet⟩ ?_ hp .overwrite
        (fun y => ⟨_, rfl⟩)).1 (Or.inl rfl) r hpr
      intro q f h1 h2 h3 h4
      obtain ⟨x, c, rfl, hk, hc⟩ := habove q f h1 h2 h3 h4
      exact ⟨x, c, rfl, hk, ⟨hc, fun _ => rfl, fun _ => Or.inl rfl⟩, fun y => ⟨.overwrite, .overwrite, rfl, by simp⟩⟩
  · refine (C55_outside _ cat fs0 fs' st hd hw h p hp ⟨p, hpn, List.prefix_refl _, fun e he hc => ?_⟩ ?_).1
    · obtain ⟨h1, h2⟩ := hno e he
      rcases hc.2.2 hod with h3 | h3
      · rw [h1] at h3; cases h3
      · rw [h2] at h3; cases h3
    · intro q e h1 h2 h3 _
      obtain ⟨x, c, rfl, hk⟩ := habove q e h1 h2 h3
      exact ⟨x, c, rfl, hk, fun y ad ae hov => by cases hov; simp⟩

/-! ### examples -/

private def xFile (name : Bytes) (mt : Nat) (data eas : Bytes) : Obj :=
  ⟨name, ⟨.file, 1000, 100, 420, ⟨mt, .s⟩, ⟨mt, .s⟩, .saved, data.length, false, false, false, 0, 0, [], if eas = [] then .none else .full, eas.length, eas.length⟩, .none, data, eas, []⟩
private def xDir (name : Bytes) (mt uid : Nat) : Obj := ⟨name, ⟨.dir, uid, 100, 493, ⟨mt, .s⟩, ⟨mt, .s⟩, .saved, 0, false, false, false, 0, 0, [], .none, 0, 0⟩, .none, [], [], []⟩
/-- "d" is a directory that contains "a", "b" and "z" -/
private def xFs : FS :=
  ⟨fun p => if p = [] then some (.dir (xDir [] 1 0)) else if p = [[100]] then some (.dir (xDir [100] 5 7)) else if p = [[100], [97]] then some (.ino 0) else if p = [[100], [98]] then some (.ino 1)
    else if p = [[100], [122]] then some (.ino 2) else none,
   fun i => if i = 0 then xFile [97] 3 [1] [17, 49] else if i = 1 then xFile [98] 3 [2] [] else xFile [122] 4 [3] [], 3⟩
private def xStars : Nat → Obj := fun k => xFile [] k [4] []
/-- "a" is in the archive with other data and other attributes, "c" too, that does not exist; the deletion of "b" is recorded -/
private def xCat : BCat := ⟨[.dir (xDir [100] 50 1000) [.node (xFile [97] 30 [9, 9] [18, 33]), .node (xFile [99] 31 [8] []), .detruit [98] .file ⟨40, .s⟩]], xStars⟩
/-- an attribute is a byte: name * 16 + value -/
private def xLook (l n : Bytes) : Option Bytes := (l.find? (fun b => decide (n = [UInt8.ofNat (b.toNat / 16)]))).map (fun b => [UInt8.ofNat (b.toNat % 16)])
private def xOpts (ad : OverData) (ae : OverEa) : RsOpts :=
  ⟨.all, fun _ _ => .ok (ad, ae), fun a b => b ++ a, fun a b => b ++ a, fun _ _ => .error .data, ⟨1000, .s⟩, 0, 0, [], fun _ _ => true, false, false⟩

private theorem xLaw : LookLaw (fun a b => b ++ a) xLook := by
  constructor
  · intro n; rfl
  · intro a b n
    unfold xLook
    rw [List.find?_append]
    cases List.find? (fun b => decide (n = [UInt8.ofNat (b.toNat / 16)])) b <;> simp
private theorem xFsOk : FSOk xFs := by
  have hent : ∀ p, xFs.ent p = if p = [] then some (.dir (xDir [] 1 0)) else if p = [[100]] then some (.dir (xDir [100] 5 7)) else if p = [[100], [97]] then some (.ino 0) else if p = [[100], [98]] then some (.ino 1)
    else if p = [[100], [122]] then some (.ino 2) else none := fun _ => rfl
  refine ⟨⟨_, rfl⟩, fun p hp h => ?_, fun p i h => ?_, fun p i h => ?_, fun p y hp h => ?_⟩
  · rw [hent] at h
    split at h
    · contradiction
    split at h
    · subst p; rfl
    split at h
    · subst p; rfl
    split at h
    · subst p; rfl
    split at h
    · subst p; rfl
    · contradiction
  · rw [hent] at h
    split at h
    · cases h
    split at h
    · cases h
    split at h
    · cases h; decide
    split at h
    · cases h; decide
    split at h
    · cases h; decide
    · cases h
  · rw [hent] at h
    split at h
    · cases h
    split at h
    · cases h
    split at h
    · cases h; decide
    split at h
    · cases h; decide
    split at h
    · cases h; decide
    · cases h
  · rw [hent] at h
    split at h
    · contradiction
    split at h
    · cases h; rfl
    split at h
    · cases h
    split at h
    · cases h
    split at h
    · cases h
    · cases h
private theorem xDistinct : BEntry.DistinctL xCat.root := by
  simp [xCat, BEntry.DistinctL, BEntry.Distinct, BEntry.name, xDir, xFile]
private theorem xReached (ad : OverData) (ae : OverEa) (n : Bytes) (h : ad = .preserve ∨ ad = .preserveMark ∨ ad = .overwrite ∨ ad = .overwriteMark) : RsReached (xOpts ad ae) xCat [[100], n] := by
  intro q e h1 h2 h3 h4
  have hq : q = [[100]] := by
    obtain ⟨r, hr⟩ := h2
    match q, h1, hr, h3 with
    | [a], _, hr, _ => simp at hr; rw [hr.1]
    | [a, b], _, hr, h3 => simp at hr; exact absurd (by rw [hr.1, hr.2.1]) h3
    | a :: b :: c :: l, _, hr, _ => simp at hr
  subst hq
  have he : e = .dir (xDir [100] 50 1000) [.node (xFile [97] 30 [9, 9] [18, 33]), .node (xFile [99] 31 [8] []), .detruit [98] .file ⟨40, .s⟩] := by
    have : treeAt xCat.root [[100]] = some (.dir (xDir [100] 50 1000) [.node (xFile [97] 30 [9, 9] [18, 33]), .node (xFile [99] 31 [8] []), .detruit [98] .file ⟨40, .s⟩]) := by rfl
    rw [this] at h4; cases h4; rfl
  exact ⟨_, _, he, rfl, ⟨rfl, fun h => (by cases h), fun h => (by cases h)⟩, fun y => ⟨ad, ae, rfl, h⟩⟩

/-- data, extended attributes, modification date and owner of what is at a path -/
private def seen (fs : FS) (p : List Bytes) : Option (Bytes × Bytes × Nat × Nat) := (fs.obj p).map (fun y => (y.data, y.eas, y.ino.mtime.val, y.ino.uid))
/-- what the restoration gives at the paths considered -/
private def xView (o : RsOpts) (cat : BCat) (fs : FS) (ps : List (List Bytes)) (l : List (Option (Bytes × Bytes × Nat × Nat))) (w : Stats) : Bool :=
  match restore o cat fs with
  | .ok (fs', st) => decide (ps.map (seen fs') = l ∧ st = w)
  | .error _ => false
private theorem xView_out {o : RsOpts} {cat : BCat} {fs : FS} {ps : List (List Bytes)} {l : List (Option (Bytes × Bytes × Nat × Nat))} {w : Stats} (h : xView o cat fs ps l w = true) :
    ∃ fs', restore o cat fs = .ok (fs', w) ∧ ps.map (seen fs') = l := by
  unfold xView at h
  cases hr : restore o cat fs with
  | error e => rw [hr] at h; cases h
  | ok r =>
    obtain ⟨fs', st'⟩ := r
    rw [hr] at h
    have := of_decide_eq_true h
    exact ⟨fs', by rw [this.2], this.1⟩

/-- a case meeting the hypotheses of `C55_policy_file` (at "d/a"), `C55_policy_missing` ("d/c"), `C55_policy_deleted` ("d/b") and `C55_names`: the data is overwritten, the extended attributes are
merged, those in place being kept (1 ↦ 1 and 3 ↦ 1 were there, 2 ↦ 1 is added); what is not in the archive stays; the date of the directory is the one of the archive -/
theorem C55_example_overwrite : FSOk xFs ∧ BEntry.DistinctL xCat.root ∧ LookLaw (xOpts .overwrite .mergePreserve).eaOver xLook ∧ LookLaw (xOpts .overwrite .mergePreserve).fsaOver xLook ∧
    (∀ n, RsReached (xOpts .overwrite .mergePreserve) xCat [[100], n]) ∧
    (∃ x, treeAt xCat.root [[100], [97]] = some (.node x) ∧ Considered (xOpts .overwrite .mergePreserve) [[100], [97]] (.node x)) ∧
    (∃ x, treeAt xCat.root [[100], [99]] = some (.node x) ∧ Considered (xOpts .overwrite .mergePreserve) [[100], [99]] (.node x) ∧ xFs.ent [[100], [99]] = none) ∧
    (∃ e, treeAt xCat.root [[100], [98]] = some e ∧ e.isDet = true ∧ Considered (xOpts .overwrite .mergePreserve) [[100], [98]] e) ∧
    ∃ fs', restore (xOpts .overwrite .mergePreserve) xCat xFs = .ok (fs', ⟨3, 0, 0, 0, 0, 0, 0, 1, 0, 0⟩) ∧
      [[[100]], [[100], [97]], [[100], [98]], [[100], [99]], [[100], [122]]].map (seen fs') =
        [some ([], [], 50, 1000), some ([9, 9], [17, 49, 18, 33, 17, 49, 18, 33, 17, 49], 30, 1000), none, some ([8], [], 31, 1000), some ([3], [], 4, 1000)] :=
  ⟨xFsOk, xDistinct, xLaw, xLaw, fun n => xReached _ _ n (by simp), ⟨_, rfl, rfl, fun h => (by cases h), fun h => (by cases h)⟩, ⟨_, rfl, ⟨rfl, fun h => (by cases h), fun h => (by cases h)⟩, rfl⟩,
    ⟨_, rfl, rfl, rfl, fun h => (by cases h), fun h => (by cases h)⟩, xView_out (by decide +kernel)⟩

/-- a case meeting the hypotheses of `C55_preserve` and `C55_outside` (at "d/z"): "c" is created, the others are kept ("b" too, of which the deletion is recorded).  Finding: the directory gets the date and the owner it has in the
archive although the policy is to preserve it (filesystem_restore.cpp:203-232), and the deletion is counted although nothing is removed. -/
theorem C55_example_preserve : Preserving (xOpts .preserve .preserve) ∧ NoPatch xCat ∧ Outside (xOpts .preserve .preserve) xCat [[100], [122]] ∧ KeptAbove (xOpts .preserve .preserve) xCat [[100], [122]] ∧
    ∃ fs', restore (xOpts .preserve .preserve) xCat xFs = .ok (fs', ⟨1, 0, 0, 0, 0, 2, 0, 1, 0, 0⟩) ∧
      [[[100]], [[100], [97]], [[100], [98]], [[100], [99]], [[100], [122]]].map (seen xFs) =
        [some ([], [], 5, 7), some ([1], [17, 49], 3, 1000), some ([2], [], 3, 1000), none, some ([3], [], 4, 1000)] ∧
      [[[100]], [[100], [97]], [[100], [98]], [[100], [99]], [[100], [122]]].map (seen fs') =
        [some ([], [], 50, 1000), some ([1], [17, 49], 3, 1000), some ([2], [], 3, 1000), some ([8], [], 31, 1000), some ([3], [], 4, 1000)] := by
  have tree : ∀ p e, treeAt xCat.root p = some e → (p = [[100]] ∧ e = .dir (xDir [100] 50 1000) [.node (xFile [97] 30 [9, 9] [18, 33]), .node (xFile [99] 31 [8] []), .detruit [98] .file ⟨40, .s⟩]) ∨
      (p.length = 2 ∧ p ≠ [[100], [122]] ∧ (e = .node (xFile [97] 30 [9, 9] [18, 33]) ∨ e = .node (xFile [99] 31 [8] []) ∨ e = .detruit [98] .file ⟨40, .s⟩)) := by
    intro p e h
    match p, h with
    | [], h => cases h
    | [n], h =>
      unfold treeAt xCat at h
      simp only [List.find?_cons, List.find?_nil, BEntry.name, xDir] at h
      split at h
      · rename_i hn
        cases h
        have := of_decide_eq_true hn
        subst this
        exact Or.inl ⟨rfl, rfl⟩
      · cases h
    | n :: m :: r, h =>
      unfold treeAt xCat at h
      simp only [List.find?_cons, List.find?_nil, BEntry.name, xDir] at h
      split at h
      · rename_i x c hx
        split at hx
        · rename_i hn
          cases hx
          have := of_decide_eq_true hn
          subst this
          match r, h with
          | [], h =>
            unfold treeAt at h
            simp only [List.find?_cons, List.find?_nil, BEntry.name, xFile] at h
            split at h
            · rename_i hm; cases h; have := of_decide_eq_true hm; subst this; exact Or.inr ⟨rfl, by decide, Or.inl rfl⟩
            split at h
            · rename_i hm; cases h; have := of_decide_eq_true hm; subst this; exact Or.inr ⟨rfl, by decide, Or.inr (Or.inl rfl)⟩
            split at h
            · rename_i hm; cases h; have := of_decide_eq_true hm; subst this; exact Or.inr ⟨rfl, by decide, Or.inr (Or.inr rfl)⟩
            · cases h
          | k :: r, h =>
            unfold treeAt at h
            simp only [List.find?_cons, List.find?_nil, BEntry.name, xFile] at h
            split at h
            · rename_i hm; split at hm
              · cases hm
              split at hm
              · cases hm
              split at hm
              · cases hm
              · cases hm
            · cases h
        · cases hx
      · cases h
  refine ⟨fun y e => ⟨_, _, rfl, Or.inl rfl, Or.inl rfl⟩, ⟨fun p e x h hx => ?_, fun p n k h => ?_⟩, ⟨[[100], [122]], by simp, List.prefix_refl _, fun e h => ?_⟩, fun q e h1 h2 h3 _ => ?_, ?_⟩
  · rcases tree p e h with ⟨-, rfl⟩ | ⟨-, -, rfl | rfl | rfl⟩ <;> cases hx <;> decide
  · rcases tree p _ h with ⟨-, h1⟩ | ⟨-, -, h1 | h1 | h1⟩ <;> cases h1
  · rcases tree _ e h with ⟨h1, -⟩ | ⟨-, h1, -⟩
    · exact absurd h1 (by decide)
    · exact absurd rfl h1
  · rcases tree q e h3 with ⟨-, rfl⟩ | ⟨h4, h5, -⟩
    · exact ⟨_, _, rfl, rfl, fun y ad ae h => by cases h; decide⟩
    · exact absurd (h1.eq_of_length (by rw [h4]; rfl)) h5
  · obtain ⟨fs', h1, h2⟩ := xView_out (o := xOpts .preserve .preserve) (cat := xCat) (fs := xFs) (ps := [[[100]], [[100], [97]], [[100], [98]], [[100], [99]], [[100], [122]]])
      (l := [some ([], [], 50, 1000), some ([1], [17, 49], 3, 1000), some ([2], [], 3, 1000), some ([8], [], 31, 1000), some ([3], [], 4, 1000)]) (w := ⟨1, 0, 0, 0, 0, 2, 0, 1, 0, 0⟩) (by decide +kernel)
    exact ⟨fs', h1, by decide +kernel, h2⟩

/-- a single file "a" -/
private def xFlat : FS := ⟨fun p => if p = [] then some (.dir (xDir [] 1 0)) else if p = [[97]] then some (.ino 0) else none, fun _ => xFile [97] 3 [1] [17, 49], 1⟩

/-- C55, counterexample: a binary difference is applied whatever the policy is, filesystem_restore.cpp:463-482.  The policy is to preserve what exists, or even to remove it: the file gets the new data, date and owner. -/
theorem C55_patch_counterexample : ∀ ad, ad = OverData.preserve ∨ ad = .remove → ∃ fs', restore { xOpts ad .preserve with patch := fun a _ => .ok (a ++ [9]) }
      ⟨[.node { xFile [97] 30 [9, 9] [] with ino := { (xFile [97] 30 [9, 9] []).ino with status := .delta, uid := 33 } }], xStars⟩ xFlat = .ok (fs', ⟨1, 0, 0, 0, 0, 0, 0, 0, 0, 0⟩) ∧
      [[[97]]].map (seen fs') = [some ([1, 9], [17, 49], 30, 33)] := by
  rintro ad (rfl | rfl)
  · exact xView_out (by decide +kernel)
  · exact xView_out (by decide +kernel)

/-- C55, counterexample: the policy is to remove the file; it is removed, then an error is counted, because the date of the removed file cannot be restored, filesystem_restore.cpp:555-558. -/
theorem C55_remove_counterexample : ∃ fs', restore (xOpts .remove .preserve) ⟨[.node (xFile [97] 30 [9, 9] [])], xStars⟩ xFlat = .ok (fs', ⟨0, 0, 0, 0, 0, 0, 1, 0, 0, 0⟩) ∧ [[[97]]].map (seen fs') = [none] :=
  xView_out (by decide +kernel)

/-- C55, counterexample: the policy is to remove the file; it stays, because the archive has it as unchanged since the archive of reference, filesystem_restore.cpp:457-493. -/
theorem C55_remove_unsaved_counterexample : ∃ fs', restore (xOpts .remove .preserve) ⟨[.node { xFile [97] 30 [9, 9] [] with ino := { (xFile [97] 30 [9, 9] []).ino with status := .notSaved } }], xStars⟩ xFlat =
      .ok (fs', ⟨0, 0, 1, 0, 0, 0, 0, 0, 0, 0⟩) ∧ [[[97]]].map (seen fs') = [some ([1], [17, 49], 3, 1000)] :=
  xView_out (by decide +kernel)

/-- C55, counterexample: only deletions are asked for (only_deleted), but an existing file that has the name of a directory of the archive is removed and a directory is created in its place,
filtre.cpp:207-208 and 281, filesystem_restore.cpp:455-493; the policy of the user, here to preserve, is not considered. -/
theorem C55_only_deleted_counterexample : ∃ fs', restoreUser { xOpts .preserve .preserve with onlyDeleted := true } ⟨[.dir (xDir [97] 50 1000) []], xStars⟩ xFlat = .ok (fs', ⟨1, 0, 0, 0, 0, 0, 0, 0, 0, 0⟩) ∧
      [[[97]]].map (seen fs') = [some ([], [17, 49], 50, 1000)] ∧ fs'.isDir [[97]] = true := by
  have : ∃ fs', restoreUser { xOpts .preserve .preserve with onlyDeleted := true } ⟨[.dir (xDir [97] 50 1000) []], xStars⟩ xFlat = .ok (fs', ⟨1, 0, 0, 0, 0, 0, 0, 0, 0, 0⟩) ∧
      [[[97]]].map (seen fs') = [some ([], [17, 49], 50, 1000)] := xView_out (by decide +kernel)
  obtain ⟨fs', h1, h2⟩ := this
  refine ⟨fs', h1, h2, ?_⟩
  have h3 : (match restoreUser { xOpts .preserve .preserve with onlyDeleted := true } ⟨[.dir (xDir [97] 50 1000) []], xStars⟩ xFlat with
    | .ok (fs', _) => fs'.isDir [[97]]
    | .error _ => false) = true := by decide +kernel
  rw [h1] at h3
  exact h3

/-- a case meeting the hypotheses of `C55_only_deleted`: "b" is deleted, "c" is not created, "a" keeps its content -/
theorem C55_example_only_deleted : (∃ e, treeAt xCat.root [[100], [98]] = some e ∧ e.isDet = true) ∧ (∀ e, treeAt xCat.root [[100], [97]] = some e → e.isDir = false ∧ e.isDet = false) ∧
    ∃ fs', restoreUser { xOpts .preserve .preserve with onlyDeleted := true } xCat xFs = .ok (fs', ⟨1, 0, 0, 0, 2, 0, 0, 1, 0, 0⟩) ∧
      [[[100]], [[100], [97]], [[100], [98]], [[100], [99]], [[100], [122]]].map (seen fs') =
        [some ([], [], 50, 1000), some ([1], [17, 49], 3, 1000), none, none, some ([3], [], 4, 1000)] := by
  refine ⟨⟨_, rfl, rfl⟩, fun e h => ?_, xView_out (by decide +kernel)⟩
  have : treeAt xCat.root [[100], [97]] = some (.node (xFile [97] 30 [9, 9] [18, 33])) := rfl
  rw [this] at h
  cases h
  exact ⟨rfl, rfl⟩

end Dar
