import Verif.Lemmas.Restore3
/- C35, C36: restoration of one archive. -/
namespace Dar

theorem rinv_start (cat : BCat) (fs0 : FS) (hw : FSWf fs0) : RInv cat fs0 (fun _ => False) [] ⟨fs0, [], [], [], Stats.zero, 0⟩ := by
  refine ⟨rfl, rfl, rfl, ?_, fun q _ _ _ => ⟨rfl, fun _ _ => rfl⟩, fun q h => absurd h id, fun q h => absurd h id, rfl, fun q i hi => hw.ids q i hi, Nat.le_refl _,
    fun p q i hp hq => Or.inl (hw.single p q i hp hq), fun k v hv => ?_, fun p n k h => absurd h id⟩
  · obtain ⟨y, hy⟩ := hw.root
    show fs0.isDir [] = true
    unfold FS.isDir; rw [hy]
  · simp [RsSt.label] at hv

/-- C35 and C36, one archive.  On any filesystem, an archive that tells enough about what it has (everything for a full backup on an empty directory; what changed
for a differential one, see `Restorable`) is restored without error, and the result is the tree of the archive: the same names with the same types, owners,
permissions, dates, contents and attributes, nothing else in its directories, and two names are the same inode exactly when they were hard links. -/
theorem C35_restore (o : RsOpts) (cat : BCat) (fs0 : FS) (hp : Plain o) (hw : FSWf fs0) (hr : Restorable o fs0 cat) :
    ∃ fs' st, restore o cat fs0 = .ok (fs', st) ∧ st.errored = 0 ∧ SameTree fs' cat ∧ (∃ y, fs'.ent [] = some (.dir y)) ∧
      (∀ p i, fs'.ent p = some (.ino i) → i < fs'.next) := by
  obtain ⟨s, h1, h2⟩ := run_list hp hw hr cat.root _ [] _ (rinv_start cat fs0 hw) (fun q _ h => h) (fun e he => findChild_mem hr.distinct he) hr.distinct
  refine ⟨s.fs, s.st, ?_, h2.err, ⟨?_, ?_, ?_⟩, ?_, fun p i hi => h2.ids p i hi⟩
  · unfold restore
    rw [h1]
    rfl
  · intro p hne
    cases p with
    | nil => exact absurd rfl hne
    | cons m r =>
      by_cases hZ : ∃ e ∈ cat.root, [] ++ [e.name] <+: m :: r
      · exact h2.done (m :: r) (Or.inr hZ)
      · have hno : findChild cat.root m = none := by
          cases hfc : findChild cat.root m with
          | none => rfl
          | some e =>
            exfalso
            refine hZ ⟨e, List.mem_of_find?_eq_some hfc, ?_⟩
            rw [findChild_name hfc]; exact ⟨r, by simp⟩
        have htn : ∀ r, treeAt cat.root (m :: r) = none := by
          intro r
          cases r with
          | nil => exact hno
          | cons m' r => rw [treeAt_more, subOf, hno]; rfl
        rw [htn]
        show s.fs.ent _ = none
        rw [(h2.todo (m :: r) (by simp) (by rintro (h | h); exacts [h, hZ h]) (by intro hc; have := hc.length_le; simp at this)).1]
        have h0 : fs0.ent [m] = none := by
          cases hv : fs0.ent [m] with
          | none => rfl
          | some v => exact absurd (htn []) (hr.complete [] m (by rw [List.nil_append, hv]; simp) (Or.inl rfl))
        cases r with
        | nil => exact h0
        | cons m' r => exact hw.below (p := [m]) (by unfold FS.isDir; rw [h0]) (m' :: r) (by simp)
  · intro p q i hi hj
    rcases h2.uniq p q i hi hj with h | ⟨-, -, h⟩
    · exact Or.inl h
    · exact Or.inr h
  · intro p q m n k ht1 ht2
    have key : ∀ p m, treeAt cat.root p = some (.mirage m k) → ∃ v, s.label k = some v ∧ s.fs.ent p = s.fs.ent v.1 := by
      intro p m ht
      refine h2.labels p m k (Or.inr ?_) ht
      cases p with
      | nil => cases ht
      | cons a r =>
        obtain ⟨e, he, hn⟩ := treeAt_head ht
        exact ⟨e, he, r, by rw [hn]; rfl⟩
    obtain ⟨v, a1, a2⟩ := key p m ht1
    obtain ⟨w, b1, b2⟩ := key q n ht2
    rw [a1] at b1
    cases b1
    rw [a2, b2]
  · have := h2.root
    unfold FS.isDir at this
    cases hv : s.fs.ent [] with
    | none => rw [hv] at this; cases this
    | some v =>
      cases v with
      | dir y => exact ⟨y, rfl⟩
      | ino i => rw [hv] at this; cases this

/-- An empty filesystem: nothing but the root. -/
def EmptyFS (fs : FS) : Prop := (∃ y, fs.ent [] = some (.dir y)) ∧ ∀ p, p ≠ [] → fs.ent p = none
theorem EmptyFS.wf {fs : FS} (h : EmptyFS fs) : FSWf fs := by
  obtain ⟨⟨y, h1⟩, h3⟩ := h
  have hnot : ∀ p i, fs.ent p ≠ some (.ino i) := by
    intro p i hp
    by_cases hpe : p = []
    · rw [hpe, h1] at hp; cases hp
    · rw [h3 p hpe] at hp; cases hp
  refine ⟨⟨y, h1⟩, fun p hp hne => absurd (h3 p hp) hne, fun p i hp => absurd hp (hnot p i), fun p i hp => absurd hp (hnot p i), fun p z hne hp => ?_,
    fun p q i hp => absurd hp (hnot p i)⟩
  rw [h3 p hne] at hp; cases hp

/-- All is stored for an inode. -/
def Complete (x : Obj) : Prop := x.ino.status = .saved ∧ (x.ino.eaStatus = .full ∨ x.eas = []) ∧ (x.fsa = .full ∧ x.fsas ≠ [] ∨ x.fsa = .none)
/-- A full backup of a tree: inodes, directories and hard links, all that concerns them being stored. -/
structure FullArchive (cat : BCat) : Prop where
  distinct : BEntry.DistinctL cat.root
  entries : ∀ p e, treeAt cat.root p = some e → match e with
    | .node x => x.ino.kind ≠ .dir ∧ Complete x
    | .dir x _ => x.ino.kind = .dir ∧ Complete x
    | .mirage _ k => (cat.stars k).ino.kind ≠ .dir ∧ Complete (cat.stars k)
    | _ => False

/-- C36: the restoration of a full backup in an empty directory gives the tree back, hard links included. -/
theorem C36_full (o : RsOpts) (cat : BCat) (fs0 : FS) (hp : Plain o) (he : EmptyFS fs0) (hf : FullArchive cat) :
    ∃ fs' st, restore o cat fs0 = .ok (fs', st) ∧ st.errored = 0 ∧ SameTree fs' cat := by
  have hr : Restorable o fs0 cat := by
    refine ⟨hf.distinct, fun p e ht => ?_, fun p n h => absurd (he.2 (p ++ [n]) (by simp)) h⟩
    have hpe : p ≠ [] := by rintro rfl; cases ht
    have hno := he.2 p hpe
    have hob : fs0.obj p = none := by unfold FS.obj; rw [hno]
    have := hf.entries p e ht
    cases e with
    | node x => exact ⟨this.1, by rw [hob]; exact this.2⟩
    | dir x c => exact ⟨this.1, by rw [hob]; exact this.2⟩
    | mirage n k => exact ⟨this.1, hno, this.2⟩
    | detruit n k t => exact absurd this id
    | ignored n => exact absurd this id
    | ignoredDir x => exact absurd this id
  obtain ⟨fs', st, h1, h2, h3, -⟩ := C35_restore o cat fs0 hp he.wf hr
  exact ⟨fs', st, h1, h2, h3⟩

end Dar
