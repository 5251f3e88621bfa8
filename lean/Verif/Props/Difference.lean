import Verif.Lemmas.DifferenceTree
import Verif.Props.Restore
import Verif.Lemmas.Chain
/- C56: the comparison of an archive with a filesystem (dar -d). -/
namespace Dar

/-- C56, contents.  Two files are compared byte by byte, by blocks of any size: no difference is reported exactly when the contents are the same, and then the offset is the length and the
checksum is the one of the content; else, for files of the same length, the offset is the one of the first difference. -/
theorem C56_data (B addr : Nat) (hB : 0 < B) (me you : Bytes) (width : Nat) (hw : 0 < width) :
    (me = you → ∃ c, genericDiff B addr me you width = .ok (false, me.length, c) ∧ c.st.cyc = crcSpec width me) ∧
    (me ≠ you → ∃ k c, genericDiff B addr me you width = .ok (true, k, c) ∧ k ≤ me.length ∧ k ≤ you.length ∧
      (me.length = you.length → me.take k = you.take k ∧ me[k]? ≠ you[k]?)) := by
  unfold genericDiff crcCreate
  rw [if_neg (by omega)]
  have h := diffLoop_spec B addr hB (me.length + 1) me you 0 ⟨crcImplFor width, ⟨List.replicate width 0, 0⟩⟩ (by omega) (by simpa [CrcSt.Ok] using hw)
  simp only [Bind.bind, Except.bind]
  constructor
  · intro he
    refine ⟨_, (h.1 he).trans (by rw [Nat.zero_add]), crcFold_start width hw me⟩
  · intro he
    obtain ⟨k, c', h1, h2⟩ := h.2 he
    exact ⟨k, c', by rw [h1, Nat.zero_add], h2⟩
/-- Finding: the offset told is not the one of the first difference when the last blocks have not the same length (a file that changed since its size was compared, for instance). -/
theorem C56_offset_counterexample : ∃ c, genericDiff genericBuffer 0 [1] [2, 3] 4 = .ok (true, 1, c) := ⟨⟨.n, ⟨[0, 0, 0, 0], 0⟩⟩, by decide +kernel⟩

/-- C56, inodes.  The comparison of an inode of the archive with the one found on the filesystem reports nothing exactly when the latter agrees with what the archive tells; else it reports
a difference, and never fails in another way. -/
theorem C56_compare (o : DfOpts) (x y : Obj) (hw : Comparable o x y) : (cmpInode o x y = .ok () ∧ Agrees o x y) ∨ (cmpInode o x y = .error .range ∧ ¬ Agrees o x y) := says_inode o x y hw

theorem headWord_tell (o : DfOpts) (stars : Nat → Obj) (fs : FS) (p : List Bytes) (e : BEntry)
    (hc : ∀ x y, e.obj stars = some x → fs.obj p = some y → Comparable o x y) (w : DfWord) : w = headWord o stars fs p e ↔ ToTell o stars fs p e w := by
  unfold headWord
  have hsel : (o.subtree p && (e.isDir || o.names e.name)) = true ↔ Selected o p e := by
    unfold Selected; rw [Bool.and_eq_true, Bool.or_eq_true]
  by_cases hs : (o.subtree p && (e.isDir || o.names e.name)) = true
  · rw [if_pos hs]
    have hs' := hsel.1 hs
    cases hx : e.obj stars with
    | none => cases w <;> simp [ToTell, hs', hx]
    | some x =>
      cases hy : fs.obj p with
      | none => cases w <;> simp [ToTell, hs', hx, hy]
      | some y =>
        dsimp only [dfVerdict]
        rcases C56_compare o x y (hc x y hx hy) with ⟨h1, h2⟩ | ⟨h1, h2⟩
        · rw [h1]; cases w <;> simp [ToTell, hs', hx, hy, h2]
        · rw [h1]; cases w <;> simp [ToTell, hs', hx, hy, h2]
  · rw [if_neg hs]
    have hs' : ¬ Selected o p e := fun h => hs (hsel.2 h)
    cases w <;> simp [ToTell, hs']

/-- C56.  Comparing an archive with a filesystem, when nothing is unreadable, comes to its end and tells, of each entry of the archive whose directories above are selected by the filters and are
directories of the filesystem, whether it agrees with the filesystem ("OK"), or not ("DIFF"), or is not selected ("SKIPPED"), or says nothing for the record of a deletion; of no other
path it says anything, and of each one it says one thing; the counters are the numbers of each. -/
theorem C56_told (o : DfOpts) (cat : BCat) (fs : FS) (hr : Readable o cat fs) :
    ∃ st told, difference o cat fs = .ok (st, told) ∧
      (∀ w p, (w, p) ∈ told ↔ ∃ e, OccursIn cat.root p e ∧ OpenTo o fs p ∧ ToTell o cat.stars fs p e w) ∧
      (BEntry.DistinctL cat.root → (told.map (·.2)).Nodup) ∧
      st.treated = told.countP (fun w => decide (w.1 = .ok)) + told.countP (fun w => decide (w.1 = .silent)) ∧
      st.errored = told.countP (fun w => decide (w.1 = .diff)) ∧ st.ignored = told.countP (fun w => decide (w.1 = .skipped)) := by
  have hrun := run_list_df (o := o) (stars := cat.stars) (fs := fs) hr.fails cat.root [] ⟨[], [], Stats.zero, [], 0⟩ rfl rfl rfl (fun p f x y h1 h2 h3 => by
    rcases C56_compare o x y (hr.each p f x y h1 h2 h3) with h | h
    · exact Or.inl h.1
    · exact Or.inr h.1)
  unfold difference
  rw [hrun]
  refine ⟨_, _, rfl, fun w p => ?_, fun hd => ?_, ?_⟩
  · rw [show (DfSt.plus ⟨[], [], Stats.zero, [], 0⟩ (wordsList o cat.stars fs [] cat.root)).told = wordsList o cat.stars fs [] cat.root from List.append_nil _, List.mem_reverse, words_list]
    constructor
    · rintro ⟨q, f, h1, h2, h3, h4⟩
      rw [List.nil_append] at h1
      subst h1
      exact ⟨f, h2, fun r r1 r2 r3 => by have := h3 r r1 r2 r3; rwa [List.nil_append] at this, (headWord_tell o cat.stars fs p f (fun x y hx hy => hr.each p f x y h2 hx hy) w).1 h4⟩
    · rintro ⟨e, h1, h2, h3⟩
      exact ⟨p, e, rfl, h1, fun r r1 r2 r3 => by have := h2 r r1 r2 r3; rwa [List.nil_append], (headWord_tell o cat.stars fs p e (fun x y hx hy => hr.each p e x y h1 hx hy) w).2 h3⟩
  · rw [show (DfSt.plus ⟨[], [], Stats.zero, [], 0⟩ (wordsList o cat.stars fs [] cat.root)).told = wordsList o cat.stars fs [] cat.root from List.append_nil _, List.map_reverse]
    unfold List.Nodup
    rw [List.pairwise_reverse]
    exact List.Pairwise.imp (fun h => Ne.symm h) (words_nodup_list cat.root [] hd).1
  · have := tally_counts (wordsList o cat.stars fs [] cat.root) Stats.zero
    obtain ⟨h1, h2, h3⟩ := this
    rw [show (DfSt.plus ⟨[], [], Stats.zero, [], 0⟩ (wordsList o cat.stars fs [] cat.root)).told = wordsList o cat.stars fs [] cat.root from List.append_nil _]
    simp only [List.countP_reverse]
    refine ⟨h1.trans (Nat.zero_add _), h2.trans (Nat.zero_add _), h3.trans (Nat.zero_add _)⟩

/-- C56: the comparison ends without error exactly when all that the archive has and the filters select, in directories that are on the filesystem, agrees with what is found there. -/
theorem C56_clean (o : DfOpts) (cat : BCat) (fs : FS) (hr : Readable o cat fs) :
    ∃ st told, difference o cat fs = .ok (st, told) ∧
      (st.errored = 0 ↔ ∀ p e x, OccursIn cat.root p e → OpenTo o fs p → Selected o p e → e.obj cat.stars = some x → ∃ y, fs.obj p = some y ∧ Agrees o x y) := by
  obtain ⟨st, told, h1, h2, -, -, h3, -⟩ := C56_told o cat fs hr
  refine ⟨st, told, h1, ?_⟩
  rw [h3, List.countP_eq_zero]
  constructor
  · intro h p e x g1 g2 g3 g4
    by_contra hn
    push Not at hn
    exact h (.diff, p) ((h2 .diff p).2 ⟨e, g1, g2, g3, x, g4, fun y hy => hn y hy⟩) (by simp)
  · rintro h ⟨w, p⟩ hm hd
    have hw : w = .diff := by simpa using hd
    subst hw
    obtain ⟨e, g1, g2, g3, x, g4, g5⟩ := (h2 .diff p).1 hm
    obtain ⟨y, hy, ha⟩ := h p e x g1 g2 g3 g4
    exact g5 y hy ha

/-- The archive is sound for this inode: the checksums and the signature are those of the data, and when attributes are recorded, some of them are selected. -/
structure SoundFor (o : DfOpts) (x : Obj) : Prop where
  crc : ∀ c, o.crcOf x = some c ∨ o.patchCrc x = some c → 0 < c.st.cyc.length ∧ c.impl = crcImplFor c.st.cyc.length
  fits : ∀ c, o.crcOf x = some c → c.Fits x.data
  sig : x.ino.deltaSig = true → o.sign x x.data = o.sigOf x
  ea : (o.eaOf x.eas).Pairwise (fun a b => strLt a.1 b.1 = true)
  fsa : FsaSet (o.fsaOf x.fsas) ∧ ∀ a ∈ o.fsaOf x.fsas, a.Typed
  eaHas : x.ino.eaStatus = .full → HasEa o x
  eaOther : x.ino.eaStatus ≠ .part ∧ x.ino.eaStatus ≠ .fake
  fsaHas : x.fsa = .full → HasFsa o x ∨ ∀ f, o.scope f = false

theorem sameHours_refl (capa : TimeUnit) (hs : Nat) (a : DateT) : SameHours capa hs a a := ⟨0, Nat.zero_le _, Or.inl (by simp)⟩

/-- what has been restored agrees with the archive -/
theorem agrees_of_match {o : DfOpts} {x y : Obj} (hm : Match y x) (hc : Complete x) (hs : SoundFor o x) (hp : x.ino.kind = .symlink → o.what = .all ∨ o.what = .ignoreOwner → y.ino.perm = x.ino.perm) :
    Comparable o x y ∧ Agrees o x y := by
  have hfs : x.fsa = .full → y.fsas = x.fsas := fun h => hm.fsas (by rw [h]; simp)
  have hno : x.fsa ≠ .part := by
    rcases hc.2.2 with h | h
    · rw [h.1]; simp
    · rw [h]; simp
  constructor
  · refine ⟨hs.crc, fun h => absurd hc.1 (by rw [h]; simp), hs.ea, hs.fsa, fun h => by rw [hfs h]; exact hs.fsa, fun h _ a ha hsc => ⟨a, by rw [hfs h]; exact ha, hsc, ?_⟩⟩
    have := (lt_key a a).not.2 (Nat.lt_irrefl _)
    simpa using this
  · refine ⟨hm.kind, fun _ => ⟨hm.uid, hm.gid⟩, fun h => ?_, fun _ _ => by rw [hm.mtime]; exact sameHours_refl _ _ _, fun h => ?_, fun h _ => hm.content.2.1 h, fun h _ => hm.content.2.2 h,
      fun h => ⟨?_, fun _ k v _ hv => by rw [hm.eas]; exact hv⟩, fun h => ?_, fun h => ?_, fun h => absurd h hno⟩
    · by_cases hk : x.ino.kind = .symlink
      · exact hp hk h
      · exact hm.perm hk
    · obtain ⟨hd, hsz⟩ := hm.content.1 h
      refine ⟨hsz, by rw [hm.mtime]; exact sameHours_refl _ _ _, ?_⟩
      have hfit : ∀ c, o.crcOf x = some c → c.Fits y.data := by rw [hd]; exact hs.fits
      split
      · exact ⟨hd, hfit⟩
      · split
        · next h' => rw [hd]; exact hs.sig h'
        · rw [if_neg (by rw [hc.1]; simp)]; exact hfit
    · obtain ⟨k, v, h1, h2⟩ := hs.eaHas h
      exact ⟨k, v, h1, by rw [hm.eas]; exact h2⟩
    · rcases h with h | h
      · exact absurd h hs.eaOther.1
      · exact absurd h hs.eaOther.2
    · have hy : HasFsa o y ↔ HasFsa o x := by unfold HasFsa; rw [hfs h]
      by_cases hf : HasFsa o x
      · exact Or.inl ⟨hy.2 hf, fun _ a ha _ => by rw [hfs h]; exact ha⟩
      · exact Or.inr ⟨fun hh => hf (hy.1 hh), (hs.fsaHas h).resolve_left hf⟩

/-- C56: a filesystem that is the tree of a full backup (what its restoration gives, C36) is found without difference by the comparison, whatever the filters and the fields to compare are. -/
theorem C56_restored (o : DfOpts) (t : BCat) (fs : FS) (ht : SameTree fs t) (hf : FullArchive t) (hfail : ∀ p, o.fails p = none)
    (hs : ∀ p e x, treeAt t.root p = some e → e.obj t.stars = some x → SoundFor o x)
    (hp : ∀ p e x y, treeAt t.root p = some e → e.obj t.stars = some x → fs.obj p = some y → x.ino.kind = .symlink → o.what = .all ∨ o.what = .ignoreOwner → y.ino.perm = x.ino.perm) :
    ∃ st told, difference o t fs = .ok (st, told) ∧ st.errored = 0 := by
  have key : ∀ p e x, OccursIn t.root p e → e.obj t.stars = some x → ∃ y, fs.obj p = some y ∧ Comparable o x y ∧ Agrees o x y := by
    intro p e x h1 h2
    have h3 := occurs_tree hf.distinct h1
    have h4 := hf.entries p e h3
    have h5 := ht.names p (df_mem_head h1)
    rw [h3] at h5
    have h6 := hs p e x h3 h2
    have h7 := hp p e x
    cases e with
    | node z =>
      cases h2
      obtain ⟨i, g1, g2⟩ := h5
      have g3 : fs.obj p = some (fs.ino i) := by unfold FS.obj; rw [g1]
      exact ⟨_, g3, agrees_of_match g2 h4.2 h6 (h7 _ h3 rfl g3)⟩
    | dir z c =>
      cases h2
      obtain ⟨y, g1, g2⟩ := h5
      have g3 : fs.obj p = some y := by unfold FS.obj; rw [g1]
      exact ⟨_, g3, agrees_of_match g2 h4.2 h6 (h7 _ h3 rfl g3)⟩
    | mirage n k =>
      cases h2
      obtain ⟨i, g1, g2⟩ := h5
      have g3 : fs.obj p = some (fs.ino i) := by unfold FS.obj; rw [g1]
      exact ⟨_, g3, agrees_of_match ⟨g2.kind, g2.uid, g2.gid, g2.perm, g2.mtime, g2.content, g2.eas, g2.fsas⟩ h4.2 h6 (h7 _ h3 rfl g3)⟩
    | detruit n k d => exact absurd h4 id
    | ignored n => exact absurd h4 id
    | ignoredDir z => exact absurd h4 id
  have hr : Readable o t fs := ⟨hfail, fun p e x y h1 h2 h3 => by
    obtain ⟨z, g1, g2, -⟩ := key p e x h1 h2
    rw [g1] at h3; cases h3; exact g2⟩
  obtain ⟨st, told, h1, h2⟩ := C56_clean o t fs hr
  refine ⟨st, told, h1, h2.2 (fun p e x g1 _ _ g2 => ?_)⟩
  obtain ⟨y, a, -, b⟩ := key p e x g1 g2
  exact ⟨y, a, b⟩

/-- C56: after the restoration of a full backup in an empty directory, the comparison of the archive with it finds no difference.  (The archive has no symbolic link, or their
permissions, that a restoration does not set, are not compared.) -/
theorem C56_restore_then_compare (ro : RsOpts) (o : DfOpts) (t : BCat) (fs0 : FS) (hp : Plain ro) (he : EmptyFS fs0) (hf : FullArchive t) (hfail : ∀ p, o.fails p = none)
    (hs : ∀ p e x, treeAt t.root p = some e → e.obj t.stars = some x → SoundFor o x)
    (hl : (o.what ≠ .all ∧ o.what ≠ .ignoreOwner) ∨ ∀ p e x, treeAt t.root p = some e → e.obj t.stars = some x → x.ino.kind ≠ .symlink) :
    ∃ fs st0 st told, restore ro t fs0 = .ok (fs, st0) ∧ st0.errored = 0 ∧ difference o t fs = .ok (st, told) ∧ st.errored = 0 := by
  obtain ⟨fs, st0, h1, h2, h3⟩ := C36_full ro t fs0 hp he hf
  obtain ⟨st, told, h4, h5⟩ := C56_restored o t fs h3 hf hfail hs (fun p e x y g1 g2 _ g3 g4 => by
    rcases hl with hl | hl
    · rcases g4 with g4 | g4
      · exact absurd g4 hl.1
      · exact absurd g4 hl.2
    · exact absurd g3 (hl p e x g1 g2))
  exact ⟨fs, st0, st, told, h1, h2, h4, h5⟩

end Dar
