import Verif.Model.Criterium
import Verif.Props.Datetime
/- Property theorems C28 (overwriting policies). -/
namespace Dar

/-! ### Specification, after the manual page of dar, overwriting policy option -/

/-- Documented kinds: a door counts as a plain file. -/
def Ino.docKind (i : Ino) : InoKind := if i.kind = .door then .file else i.kind

/-- date `a` is more recent than or same as `b`, two dates being the same when they differ by a whole number of hours
up to `hs` (after rounding to the accuracy they share). -/
def NotOlder (capa : TimeUnit) (hs : Nat) (a b : DateT) : Prop :=
  b.instant ≤ a.instant ∨
    let n := (looseUnit capa a b).nanos
    ∃ h, h ≤ hs ∧ (a.instant / n * n = b.instant / n * n + h * 3600 * 1000000000 ∨
      b.instant / n * n = a.instant / n * n + h * 3600 * 1000000000)

/-- EA exist on the filesystem for this inode. -/
def Ino.hasEa (i : Ino) : Prop := i.eaStatus ≠ .none ∧ i.eaStatus ≠ .removed

/-- Number and size of the EA stored in the archive for this entry. -/
def storedEa (f : Ino → Nat) (x : CEntry) (n : Nat) : Prop :=
  (∃ i, x.getInode = some i ∧ i.eaStatus = .full ∧ n = f i) ∨
  ((∀ i, x.getInode = some i → i.eaStatus ≠ .full) ∧ n = 0)

/-- Same type and same inode information (condition E). -/
def SameInode (i j : Ino) : Prop :=
  i.docKind = j.docKind ∧ i.uid = j.uid ∧ i.gid = j.gid ∧ i.perm = j.perm ∧ i.mtime.instant = j.mtime.instant ∧
  (i.docKind = .file → i.size = j.size) ∧
  (i.kind = .chardev ∨ i.kind = .blockdev → i.status = .saved → j.status = .saved → i.major = j.major ∧ i.minor = j.minor) ∧
  (i.kind = .symlink → i.status = .saved → j.status = .saved → i.target = j.target)

/-- What the manual says of each condition: `x` is the entry in place, `y` the one to be added. -/
def Crit.Doc (capa : TimeUnit) : Crit → CEntry → CEntry → Prop
  | .isInode, x, _ => ∃ i, x.getInode = some i
  | .isDir, x, _ => ∃ i, x.getInode = some i ∧ i.kind = .dir
  | .isFile, x, _ => ∃ i, x.getInode = some i ∧ i.kind = .file
  | .isHardlinked, x, _ => ∃ i f, x = .mirage i f
  | .isNewHardlinked, x, _ => ∃ i, x = .mirage i true
  | .dataMoreRecent hs, x, y => ∀ i j, x.getInode = some i → y.getInode = some j → NotOlder capa hs i.mtime j.mtime
  | .dataMoreRecentThan d hs, x, _ => ∀ i, x.getInode = some i → NotOlder capa hs i.mtime ⟨d, .s⟩
  | .dataBigger, x, y => ∀ i j, x.getInode = some i → y.getInode = some j → i.docKind = .file → j.docKind = .file → j.size ≤ i.size
  | .dataSaved, x, _ => ∀ i, x.getInode = some i → i.status = .saved
  | .dataDirty, x, _ => ∃ i, x.getInode = some i ∧ i.docKind = .file ∧ i.dirty = true
  | .dataSparse, x, _ => ∃ i, x.getInode = some i ∧ i.docKind = .file ∧ i.sparse = true
  | .hasDeltaSig, x, _ => ∃ i, x.getInode = some i ∧ i.docKind = .file ∧ i.deltaSig = true
  | .isBinaryPatch, x, _ => ∃ i, x.getInode = some i ∧ i.docKind = .file ∧ i.status = .delta
  | .sameInodeData, x, y => ∃ i j, x.getInode = some i ∧ y.getInode = some j ∧ SameInode i j
  | .eaPresent, x, _ => ∃ i, x.getInode = some i ∧ i.hasEa
  | .eaMoreRecent hs, x, y => ∀ j, y.getInode = some j → j.hasEa →
      (∃ i, x.getInode = some i ∧ i.hasEa ∧ NotOlder capa hs i.ctime j.ctime) ∨
      ((∀ i, x.getInode = some i → ¬ i.hasEa) ∧ NotOlder capa hs ⟨0, .s⟩ j.ctime)
  | .eaMoreRecentThan d hs, x, _ =>
      (∃ i, x.getInode = some i ∧ i.hasEa ∧ NotOlder capa hs i.ctime ⟨d, .s⟩) ∨
      ((∀ i, x.getInode = some i → ¬ i.hasEa) ∧ NotOlder capa hs ⟨0, .s⟩ ⟨d, .s⟩)
  | .moreEa, x, y => ∃ m n, storedEa Ino.eaCount x m ∧ storedEa Ino.eaCount y n ∧ n ≤ m
  | .eaBigger, x, y => ∃ m n, storedEa Ino.eaSize x m ∧ storedEa Ino.eaSize y n ∧ n ≤ m
  | .eaSaved, x, _ => ∃ i, x.getInode = some i ∧ i.eaStatus = .full
  | .sameType, x, y => (x = .detruit ∧ y = .detruit) ∨ ∃ i j, x.getInode = some i ∧ y.getInode = some j ∧ i.docKind = j.docKind
  | .not c, x, y => ¬ c.Doc capa x y
  | .and l, x, y => ∀ c, (h : c ∈ l) → c.Doc capa x y
  | .or l, x, y => ∃ c, ∃ (_ : c ∈ l), c.Doc capa x y
  | .invert c, x, y => c.Doc capa y x

/-- No AND or OR without operand; condition `e` (EA present) not used when `noE`. -/
inductive Crit.Good (noE : Bool) : Crit → Prop
  | isInode : Good noE .isInode
  | isDir : Good noE .isDir
  | isFile : Good noE .isFile
  | isHardlinked : Good noE .isHardlinked
  | isNewHardlinked : Good noE .isNewHardlinked
  | dataMoreRecent {h} : Good noE (.dataMoreRecent h)
  | dataMoreRecentThan {d h} : Good noE (.dataMoreRecentThan d h)
  | dataBigger : Good noE .dataBigger
  | dataSaved : Good noE .dataSaved
  | dataDirty : Good noE .dataDirty
  | dataSparse : Good noE .dataSparse
  | hasDeltaSig : Good noE .hasDeltaSig
  | isBinaryPatch : Good noE .isBinaryPatch
  | sameInodeData : Good noE .sameInodeData
  | eaPresent : noE = false → Good noE .eaPresent
  | eaMoreRecent {h} : Good noE (.eaMoreRecent h)
  | eaMoreRecentThan {d h} : Good noE (.eaMoreRecentThan d h)
  | moreEa : Good noE .moreEa
  | eaBigger : Good noE .eaBigger
  | eaSaved : Good noE .eaSaved
  | sameType : Good noE .sameType
  | not {c} : Good noE c → Good noE (.not c)
  | and {l} : l ≠ [] → (∀ c ∈ l, Good noE c) → Good noE (.and l)
  | or {l} : l ≠ [] → (∀ c ∈ l, Good noE c) → Good noE (.or l)
  | invert {c} : Good noE c → Good noE (.invert c)

/-- Entries as libdar makes them: dates in canonical form, no hard link to a directory. -/
def CEntry.Wf (x : CEntry) : Prop :=
  (∀ i, x.getInode = some i → i.mtime.Canonical ∧ i.ctime.Canonical) ∧ ∀ i f, x = .mirage i f → i.kind ≠ .dir

/-! ### Proofs -/

theorem dateGeShift_spec (capa : TimeUnit) (hs : Nat) (a b : DateT) :
    ∃ r, dateGeShift capa hs a b = .ok r ∧ (r = true ↔ NotOlder capa hs a b) := by
  obtain ⟨g, hg, h1⟩ := C22_ge a b
  obtain ⟨r, hr, h2⟩ := C22_hourshift capa hs a b
  unfold dateGeShift NotOlder
  rw [hg]
  cases g with
  | true => exact ⟨true, rfl, iff_of_true rfl (Or.inl (h1.mp rfl))⟩
  | false =>
    refine ⟨r, hr, h2.trans ?_⟩
    have : ¬ b.instant ≤ a.instant := fun h => by have := h1.mpr h; cases this
    simp only [this, false_or]

theorem isFile_iff (i : Ino) : i.isFile = true ↔ i.docKind = .file := by
  unfold Ino.isFile Ino.docKind
  cases i.kind <;> simp

theorem sameType_spec (x y : CEntry) : sameTypeEval x y = true ↔
    (x = .detruit ∧ y = .detruit) ∨ ∃ i j, x.getInode = some i ∧ y.getInode = some j ∧ i.docKind = j.docKind := by
  have key : ∀ i j : Ino, ((i.isFile && j.isFile) || (decide (i.kind = .symlink) && decide (j.kind = .symlink)) ||
      (decide (i.kind = .dir) && decide (j.kind = .dir)) || (decide (i.kind = .chardev) && decide (j.kind = .chardev)) ||
      (decide (i.kind = .blockdev) && decide (j.kind = .blockdev)) || (decide (i.kind = .pipe) && decide (j.kind = .pipe)) ||
      (decide (i.kind = .socket) && decide (j.kind = .socket))) = true ↔ i.docKind = j.docKind := by
    intro i j
    unfold Ino.isFile Ino.docKind
    cases i.kind <;> cases j.kind <;> simp
  cases x with
  | detruit => cases y <;> simp [sameTypeEval, CEntry.getInode]
  | inode i =>
    cases y with
    | detruit => simp [sameTypeEval, CEntry.getInode]
    | inode j => have := key i j; simp only [sameTypeEval, CEntry.getInode]; simp; simpa using this
    | mirage j f => have := key i j; simp only [sameTypeEval, CEntry.getInode]; simp; simpa using this
  | mirage i g =>
    cases y with
    | detruit => simp [sameTypeEval, CEntry.getInode]
    | inode j => have := key i j; simp only [sameTypeEval, CEntry.getInode]; simp; simpa using this
    | mirage j f => have := key i j; simp only [sameTypeEval, CEntry.getInode]; simp; simpa using this

theorem docKind_file (i : Ino) (k : InoKind) (hk : k ≠ .file) (hd : k ≠ .door) : i.docKind = k ↔ i.kind = k := by
  unfold Ino.docKind
  revert hk hd
  cases i.kind <;> cases k <;> simp

theorem sameInode_spec (x y : CEntry) (hx : x.Wf) (hy : y.Wf) : ∃ b, sameInodeEval x y = .ok b ∧
    (b = true ↔ ∃ i j, x.getInode = some i ∧ y.getInode = some j ∧ SameInode i j) := by
  unfold sameInodeEval
  by_cases hst : sameTypeEval x y = false
  · rw [if_pos hst]
    refine ⟨false, rfl, iff_of_false (by simp) ?_⟩
    rintro ⟨i, j, h1, h2, h3⟩
    have := (sameType_spec x y).mpr (Or.inr ⟨i, j, h1, h2, h3.1⟩)
    rw [this] at hst; cases hst
  · rw [if_neg hst]
    have hst' := (sameType_spec x y).mp (by simpa using hst)
    by_cases hxd : x = .detruit
    · rw [if_pos hxd]
      refine ⟨false, rfl, iff_of_false (by simp) ?_⟩
      rintro ⟨i, j, h1, h2, h3⟩
      subst hxd; simp [CEntry.getInode] at h1
    · rw [if_neg hxd]
      rcases hst' with ⟨h, _⟩ | ⟨i, j, hi, hj, hk⟩
      · exact absurd h hxd
      · rw [hi, hj]
        simp only
        have hred : (∃ i' j', some i = some i' ∧ some j = some j' ∧ SameInode i' j') ↔ SameInode i j := by
          constructor
          · rintro ⟨i', j', h1, h2, h3⟩
            injection h1 with h1; injection h2 with h2; subst h1; subst h2; exact h3
          · intro h; exact ⟨i, j, rfl, rfl, h⟩
        rw [hred]
        have no : ∀ {P : Prop}, ¬ P → (false = true ↔ P) := fun h => iff_of_false (by simp) h
        unfold SameInode
        have hmt := C22_eq i.mtime j.mtime (hx.1 i hi).1 (hy.1 j hj).1
        by_cases h1 : i.uid = j.uid
        swap
        · exact ⟨false, by rw [if_pos h1], no (fun h => h1 h.2.1)⟩
        by_cases h2 : i.gid = j.gid
        swap
        · exact ⟨false, by rw [if_neg (not_not.mpr h1), if_pos h2], no (fun h => h2 h.2.2.1)⟩
        by_cases h3 : i.perm = j.perm
        swap
        · exact ⟨false, by rw [if_neg (not_not.mpr h1), if_neg (not_not.mpr h2), if_pos h3], no (fun h => h3 h.2.2.2.1)⟩
        by_cases h4 : i.mtime.eq j.mtime = false
        · refine ⟨false, by rw [if_neg (not_not.mpr h1), if_neg (not_not.mpr h2), if_neg (not_not.mpr h3), if_pos h4], no (fun h => ?_)⟩
          have := hmt.mpr h.2.2.2.2.1
          rw [this] at h4; cases h4
        have h4' := hmt.mp (by simpa using h4)
        rw [if_neg (not_not.mpr h1), if_neg (not_not.mpr h2), if_neg (not_not.mpr h3), if_neg h4]
        have hff : i.isFile = true ↔ j.isFile = true := by rw [isFile_iff, isFile_iff, hk]
        rw [if_neg (fun hc => hc.2 (hff.mp hc.1))]
        by_cases h5 : i.isFile = true ∧ i.size ≠ j.size
        · refine ⟨false, by rw [if_pos h5], no (fun h => h5.2 (h.2.2.2.2.2.1 ((isFile_iff i).mp h5.1)))⟩
        rw [if_neg h5]
        have h5' : i.docKind = .file → i.size = j.size := fun hd => by
          by_contra hne; exact h5 ⟨(isFile_iff i).mpr hd, hne⟩
        by_cases h6 : i.isDevice = true ∧ i.status = .saved
        · rw [if_pos h6]
          have hdev : j.isDevice = true := by
            have := h6.1
            revert this hk
            unfold Ino.isDevice Ino.docKind
            cases i.kind <;> cases j.kind <;> simp
          have hkd : i.kind = .chardev ∨ i.kind = .blockdev := by
            have := h6.1; unfold Ino.isDevice at this; simpa using this
          have hns : i.kind ≠ .symlink := by rcases hkd with h | h <;> rw [h] <;> simp
          rw [if_neg (not_not.mpr hdev)]
          by_cases h7 : j.status = .saved
          · rw [if_neg (not_not.mpr h7)]
            by_cases h8 : i.major = j.major
            · rw [if_neg (not_not.mpr h8)]
              by_cases h9 : i.minor = j.minor
              · rw [if_neg (not_not.mpr h9)]
                exact ⟨true, rfl, iff_of_true rfl ⟨hk, h1, h2, h3, h4', h5', fun _ _ _ => ⟨h8, h9⟩, fun h => absurd h hns⟩⟩
              · rw [if_pos h9]
                exact ⟨false, rfl, no (fun h => h9 (h.2.2.2.2.2.2.1 hkd h6.2 h7).2)⟩
            · rw [if_pos h8]
              exact ⟨false, rfl, no (fun h => h8 (h.2.2.2.2.2.2.1 hkd h6.2 h7).1)⟩
          · rw [if_pos h7]
            exact ⟨true, rfl, iff_of_true rfl ⟨hk, h1, h2, h3, h4', h5', fun _ _ h => absurd h h7, fun h => absurd h hns⟩⟩
        · rw [if_neg h6]
          have h6' : i.kind = .chardev ∨ i.kind = .blockdev → i.status = .saved → False := by
            intro hkd hs
            exact h6 ⟨by unfold Ino.isDevice; simpa using hkd, hs⟩
          by_cases h7 : i.kind = .symlink ∧ i.status = .saved
          · rw [if_pos h7]
            have hjl : j.kind = .symlink := by
              have := h7.1
              revert this hk
              unfold Ino.docKind
              cases i.kind <;> cases j.kind <;> simp
            rw [if_neg (not_not.mpr hjl)]
            by_cases h8 : j.status = .saved
            · rw [if_neg (not_not.mpr h8)]
              by_cases h9 : i.target = j.target
              · rw [if_neg (not_not.mpr h9)]
                exact ⟨true, rfl, iff_of_true rfl ⟨hk, h1, h2, h3, h4', h5', fun h h' => (h6' h h').elim, fun _ _ _ => h9⟩⟩
              · rw [if_pos h9]
                exact ⟨false, rfl, no (fun h => h9 (h.2.2.2.2.2.2.2 h7.1 h7.2 h8))⟩
            · rw [if_pos h8]
              exact ⟨true, rfl, iff_of_true rfl ⟨hk, h1, h2, h3, h4', h5', fun h h' => (h6' h h').elim, fun _ _ h => absurd h h8⟩⟩
          · rw [if_neg h7]
            exact ⟨true, rfl, iff_of_true rfl ⟨hk, h1, h2, h3, h4', h5', fun h h' => (h6' h h').elim, fun h h' => absurd ⟨h, h'⟩ h7⟩⟩

theorem eaMeasure_spec (f : Ino → Nat) (x : CEntry) (n : Nat) : storedEa f x n ↔ n = eaMeasure f x := by
  unfold storedEa eaMeasure
  cases x.getInode with
  | none => simp
  | some i => by_cases h : i.eaStatus = .full <;> simp [h]

theorem onFile_spec (x : CEntry) (f : Ino → Bool) : onFile x f = true ↔ ∃ i, x.getInode = some i ∧ i.docKind = .file ∧ f i = true := by
  unfold onFile
  cases x.getInode with
  | none => simp
  | some i => simp [isFile_iff]

theorem evalAll_spec (capa : TimeUnit) (l : List Crit) (x y : CEntry) (P : Crit → Prop)
    (h : ∀ c ∈ l, ∃ b, c.eval capa x y = .ok b ∧ (b = true ↔ P c)) :
    ∃ b, Crit.evalAll capa l x y = .ok b ∧ (b = true ↔ ∀ c ∈ l, P c) := by
  induction l with
  | nil => exact ⟨true, by simp [Crit.evalAll], by simp⟩
  | cons c l ih =>
    obtain ⟨b, hb, hp⟩ := h c (by simp)
    obtain ⟨b', hb', hp'⟩ := ih (fun c hc => h c (by simp [hc]))
    rw [Crit.evalAll, hb]
    cases b with
    | true => exact ⟨b', by simp [hb'], by rw [hp']; simp [hp.mp rfl]⟩
    | false =>
      refine ⟨false, rfl, iff_of_false (by simp) (fun hc => ?_)⟩
      have := hp.mpr (hc c (by simp)); cases this

theorem evalAny_spec (capa : TimeUnit) (l : List Crit) (x y : CEntry) (P : Crit → Prop)
    (h : ∀ c ∈ l, ∃ b, c.eval capa x y = .ok b ∧ (b = true ↔ P c)) :
    ∃ b, Crit.evalAny capa l x y = .ok b ∧ (b = true ↔ ∃ c ∈ l, P c) := by
  induction l with
  | nil => exact ⟨false, by simp [Crit.evalAny], by simp⟩
  | cons c l ih =>
    obtain ⟨b, hb, hp⟩ := h c (by simp)
    obtain ⟨b', hb', hp'⟩ := ih (fun c hc => h c (by simp [hc]))
    rw [Crit.evalAny, hb]
    cases b with
    | true => exact ⟨true, rfl, iff_of_true rfl ⟨c, by simp, hp.mp rfl⟩⟩
    | false =>
      refine ⟨b', by simp [hb'], hp'.trans ?_⟩
      have : ¬ P c := fun hc => by have := hp.mpr hc; cases this
      simp [this]

/-- Every condition answers what the manual says, for every pair of entries; condition `e` excepted when one of the two
is a hard link (see the counterexample below). -/
theorem C28_condition (capa : TimeUnit) (c : Crit) (noE : Bool) (hc : c.Good noE) (x y : CEntry) (hx : x.Wf) (hy : y.Wf)
    (he : noE = false → (∀ i f, x ≠ .mirage i f) ∧ ∀ i f, y ≠ .mirage i f) :
    ∃ b, c.eval capa x y = .ok b ∧ (b = true ↔ c.Doc capa x y) := by
  induction hc generalizing x y with
  | isInode => exact ⟨_, by rw [Crit.eval], by cases x <;> simp [Crit.Doc, CEntry.getInode, CEntry.isInodeB]⟩
  | isDir =>
    refine ⟨_, by rw [Crit.eval], ?_⟩
    cases x with
    | inode i => simp [Crit.Doc, CEntry.getInode, CEntry.isDirB]
    | detruit => simp [Crit.Doc, CEntry.getInode, CEntry.isDirB]
    | mirage i f => simp [Crit.Doc, CEntry.getInode, hx.2 i f rfl, CEntry.isDirB]
  | isFile =>
    refine ⟨_, by rw [Crit.eval], ?_⟩
    unfold Crit.Doc CEntry.isFileB
    cases x.getInode with
    | none => simp
    | some i => unfold Ino.isFile; cases hk : i.kind <;> simp [hk]
  | isHardlinked => exact ⟨_, by rw [Crit.eval], by cases x <;> simp [Crit.Doc, CEntry.isMirageB]⟩
  | isNewHardlinked => exact ⟨_, by rw [Crit.eval], by cases x <;> simp [Crit.Doc, CEntry.isFirstMirageB]⟩
  | @dataMoreRecent hs =>
    rw [Crit.eval]; unfold Crit.Doc
    cases hxi : x.getInode with
    | none => exact ⟨true, rfl, by simp⟩
    | some i =>
      simp only
      cases hyi : y.getInode with
      | none =>
        obtain ⟨r, hr, h⟩ := dateGeShift_spec capa hs i.mtime ⟨0, .s⟩
        refine ⟨r, hr, h.trans ?_⟩
        simp [NotOlder, DateT.instant]
      | some j =>
        obtain ⟨r, hr, h⟩ := dateGeShift_spec capa hs i.mtime j.mtime
        exact ⟨r, hr, h.trans (by simp)⟩
  | @dataMoreRecentThan d hs =>
    rw [Crit.eval]; unfold Crit.Doc
    cases hxi : x.getInode with
    | none => exact ⟨true, rfl, by simp⟩
    | some i =>
      obtain ⟨r, hr, h⟩ := dateGeShift_spec capa hs i.mtime ⟨d, .s⟩
      exact ⟨r, hr, h.trans (by simp)⟩
  | dataBigger =>
    refine ⟨_, by rw [Crit.eval], ?_⟩
    unfold Crit.Doc
    cases x.getInode with
    | none => simp
    | some i =>
      cases y.getInode with
      | none => simp
      | some j =>
        simp only [isFile_iff, Option.some.injEq]
        by_cases h : i.docKind = .file ∧ j.docKind = .file
        · simp [h]
        · simp only [h, if_false, true_iff]
          rintro i' j' rfl rfl h1 h2; exact absurd ⟨h1, h2⟩ h
  | dataSaved =>
    refine ⟨_, by rw [Crit.eval], ?_⟩
    unfold Crit.Doc
    cases x.getInode <;> simp
  | dataDirty => exact ⟨_, by rw [Crit.eval], by rw [Crit.Doc]; exact onFile_spec _ _⟩
  | dataSparse => exact ⟨_, by rw [Crit.eval], by rw [Crit.Doc]; exact onFile_spec _ _⟩
  | hasDeltaSig => exact ⟨_, by rw [Crit.eval], by rw [Crit.Doc]; exact onFile_spec _ _⟩
  | isBinaryPatch =>
    refine ⟨_, by rw [Crit.eval], (onFile_spec _ _).trans ?_⟩
    simp [Crit.Doc]
  | sameInodeData => rw [Crit.eval, Crit.Doc]; exact sameInode_spec x y hx hy
  | eaPresent h =>
    refine ⟨_, by rw [Crit.eval], ?_⟩
    unfold Crit.Doc
    cases x with
    | inode i => simp [CEntry.getInode, Ino.hasEa, CEntry.eaPresentB]
    | detruit => simp [CEntry.getInode, CEntry.eaPresentB]
    | mirage i f => exact absurd rfl ((he h).1 i f)
  | @eaMoreRecent hs =>
    rw [Crit.eval]; unfold Crit.Doc
    cases hyi : y.getInode with
    | none => exact ⟨true, rfl, by simp⟩
    | some j =>
      simp only
      by_cases hj : j.eaStatus = .none ∨ j.eaStatus = .removed
      · rw [if_pos hj]
        refine ⟨true, rfl, iff_of_true rfl ?_⟩
        intro j' h hh
        injection h with h; subst h
        rcases hj with hj | hj
        · exact absurd hj hh.1
        · exact absurd hj hh.2
      · rw [if_neg hj]
        have hje : j.hasEa := ⟨fun h => hj (Or.inl h), fun h => hj (Or.inr h)⟩
        obtain ⟨r, hr, h⟩ := dateGeShift_spec capa hs (eaDate x) j.ctime
        refine ⟨r, hr, h.trans ?_⟩
        unfold eaDate
        cases x.getInode with
        | none => simp [hje]
        | some i =>
          by_cases hi : i.eaStatus = .none ∨ i.eaStatus = .removed
          · have : ¬ i.hasEa := fun h => by rcases hi with hi | hi; exacts [h.1 hi, h.2 hi]
            simp [hi, this, hje]
          · have : i.hasEa := ⟨fun h => hi (Or.inl h), fun h => hi (Or.inr h)⟩
            simp [hi, this, hje]
  | @eaMoreRecentThan d hs =>
    rw [Crit.eval]; unfold Crit.Doc
    obtain ⟨r, hr, h⟩ := dateGeShift_spec capa hs (eaDate x) ⟨d, .s⟩
    refine ⟨r, hr, h.trans ?_⟩
    unfold eaDate
    cases x.getInode with
    | none => simp
    | some i =>
      by_cases hi : i.eaStatus = .none ∨ i.eaStatus = .removed
      · have : ¬ i.hasEa := fun h => by rcases hi with hi | hi; exacts [h.1 hi, h.2 hi]
        simp [hi, this]
      · have : i.hasEa := ⟨fun h => hi (Or.inl h), fun h => hi (Or.inr h)⟩
        simp [hi, this]
  | moreEa =>
    refine ⟨_, by rw [Crit.eval], ?_⟩
    unfold Crit.Doc
    simp [eaMeasure_spec]
  | eaBigger =>
    refine ⟨_, by rw [Crit.eval], ?_⟩
    unfold Crit.Doc
    simp [eaMeasure_spec]
  | eaSaved =>
    refine ⟨_, by rw [Crit.eval], ?_⟩
    unfold Crit.Doc
    cases x.getInode <;> simp
  | sameType => exact ⟨_, by rw [Crit.eval], by rw [Crit.Doc]; exact sameType_spec x y⟩
  | not _ ih =>
    obtain ⟨b, hb, h⟩ := ih x y hx hy he
    refine ⟨!b, by rw [Crit.eval, hb]; rfl, ?_⟩
    unfold Crit.Doc
    rw [← h]; simp
  | @and l hne _ ih =>
    obtain ⟨b, hb, h⟩ := evalAll_spec capa l x y (fun c => c.Doc capa x y) (fun c hc => ih c hc x y hx hy he)
    refine ⟨b, by rw [Crit.eval, if_neg (by simpa using hne)]; exact hb, h.trans ?_⟩
    rw [Crit.Doc]
  | @or l hne _ ih =>
    obtain ⟨b, hb, h⟩ := evalAny_spec capa l x y (fun c => c.Doc capa x y) (fun c hc => ih c hc x y hx hy he)
    refine ⟨b, by rw [Crit.eval, if_neg (by simpa using hne)]; exact hb, h.trans ?_⟩
    rw [Crit.Doc]; simp
  | invert _ ih =>
    obtain ⟨b, hb, h⟩ := ih y x hy hx (fun h => ⟨(he h).2, (he h).1⟩)
    exact ⟨b, by rw [Crit.eval]; exact hb, by rw [Crit.Doc]; exact h⟩

/-- Finding: condition `e` ("the entry in place has EA") is false of a hard-linked entry that has EA. -/
theorem C28_ea_present_counterexample (capa : TimeUnit) (i : Ino) (f : Bool) (y : CEntry) (hi : i.hasEa) :
    Crit.eval capa .eaPresent (.mirage i f) y = .ok false ∧ Crit.Doc capa .eaPresent (.mirage i f) y := by
  exact ⟨by rw [Crit.eval]; rfl, by unfold Crit.Doc; exact ⟨i, rfl, hi⟩⟩

/-- Finding: the manual gives a virtual date of zero to an entry that is not an inode for condition R(date); the code
answers true whatever the date. -/
theorem C28_date_counterexample (capa : TimeUnit) (d hs : Nat) (y : CEntry) :
    Crit.eval capa (.dataMoreRecentThan d hs) .detruit y = .ok true := by
  rw [Crit.eval]; rfl

/-! ### Actions and chains -/

/-- The last defined action of a list. -/
def lastDefined {α : Type} [DecidableEq α] (undef : α) (l : List α) : α := ((l.filter (· ≠ undef)).getLast?).getD undef

/-- Documented result of a chain given the results of its expressions: they are evaluated in turn up to the point where
both actions are defined; a defined action can be replaced by a later one of the evaluated expressions, not by
"undefined". -/
structure ChainDoc (rs : List (OverData × OverEa)) (r : OverData × OverEa) (evaluated : Nat) : Prop where
  le : evaluated ≤ rs.length
  data : r.1 = lastDefined .undefined ((rs.take evaluated).map Prod.fst)
  ea : r.2 = lastDefined .undefined ((rs.take evaluated).map Prod.snd)
  stop : evaluated = rs.length ∨ (r.1 ≠ .undefined ∧ r.2 ≠ .undefined)
  needed : ∀ k < evaluated, lastDefined .undefined ((rs.take k).map Prod.fst) = .undefined ∨
    lastDefined .undefined ((rs.take k).map Prod.snd) = .undefined

theorem lastDefined_concat {α : Type} [DecidableEq α] (u : α) (l : List α) (a : α) :
    lastDefined u (l ++ [a]) = if a = u then lastDefined u l else a := by
  unfold lastDefined
  rw [List.filter_append]
  by_cases h : a = u <;> simp [h]

theorem chainGet_spec (capa : TimeUnit) (x y : CEntry) : ∀ (l : List Action) (pre rs : List (OverData × OverEa)),
    rs.length = l.length →
    (∀ (k : Nat) (h : k < l.length) (h' : k < rs.length), (l[k]).get capa x y = .ok (rs[k])) →
    (∀ k ≤ pre.length, k < pre.length → lastDefined .undefined ((pre.take k).map Prod.fst) = .undefined ∨
      lastDefined .undefined ((pre.take k).map Prod.snd) = .undefined) →
    ∃ r n, Action.chainGet capa l x y (lastDefined .undefined (pre.map Prod.fst)) (lastDefined .undefined (pre.map Prod.snd)) = .ok r ∧
      ChainDoc (pre ++ rs) r n := by
  intro l
  induction l with
  | nil =>
    intro pre rs hlen _ hpre
    have : rs = [] := List.length_eq_zero_iff.mp hlen
    subst this
    exact ⟨_, pre.length, by rw [Action.chainGet], ⟨by simp, by simp, by simp, by simp, fun k hk => by simpa using hpre k (by omega) hk⟩⟩
  | cons a l ih =>
    intro pre rs hlen hget hpre
    cases rs with
    | nil => simp at hlen
    | cons r0 rs =>
      rw [Action.chainGet]
      by_cases hu : lastDefined .undefined (pre.map Prod.fst) = OverData.undefined ∨ lastDefined .undefined (pre.map Prod.snd) = OverEa.undefined
      · rw [if_pos hu]
        have h0 := hget 0 (by simp) (by simp)
        simp only [List.getElem_cons_zero] at h0
        rw [h0]
        obtain ⟨td, te⟩ := r0
        simp only
        have e1 : (if lastDefined .undefined (pre.map Prod.fst) = OverData.undefined ∨ td ≠ .undefined then td else
            lastDefined .undefined (pre.map Prod.fst)) = lastDefined .undefined ((pre ++ [(td, te)]).map Prod.fst) := by
          rw [List.map_append, List.map_singleton, lastDefined_concat]
          by_cases htd : td = .undefined
          · by_cases hl : lastDefined .undefined (pre.map Prod.fst) = OverData.undefined
            · simp [htd, hl]
            · simp [htd, hl]
          · simp [htd]
        have e2 : (if lastDefined .undefined (pre.map Prod.snd) = OverEa.undefined ∨ te ≠ .undefined then te else
            lastDefined .undefined (pre.map Prod.snd)) = lastDefined .undefined ((pre ++ [(td, te)]).map Prod.snd) := by
          rw [List.map_append, List.map_singleton, lastDefined_concat]
          by_cases htd : te = .undefined
          · by_cases hl : lastDefined .undefined (pre.map Prod.snd) = OverEa.undefined
            · simp [htd, hl]
            · simp [htd, hl]
          · simp [htd]
        rw [e1, e2]
        obtain ⟨r, n, h1, h2⟩ := ih (pre ++ [(td, te)]) rs (by simpa using hlen)
          (fun k h h' => by have := hget (k + 1) (by simp; omega) (by simp; omega); simpa using this) (by
            intro k _ hk
            simp only [List.length_append, List.length_singleton] at hk
            rw [List.take_append_of_le_length (by omega)]
            by_cases hkp : k = pre.length
            · subst hkp; simpa using hu
            · exact hpre k (by omega) (by omega))
        exact ⟨r, n, h1, by simpa using h2⟩
      · rw [if_neg hu]
        push Not at hu
        refine ⟨_, pre.length, rfl, ⟨by simp, by simp, by simp, Or.inr hu, fun k hk => ?_⟩⟩
        rw [List.take_append_of_le_length (by omega)]
        exact hpre k (by omega) hk

/-- Result of a chain: the documented one. -/
theorem C28_chain (capa : TimeUnit) (x y : CEntry) (l : List Action) (hl : l ≠ []) (rs : List (OverData × OverEa))
    (hlen : rs.length = l.length) (hget : ∀ (k : Nat) (h : k < l.length) (h' : k < rs.length), (l[k]).get capa x y = .ok (rs[k])) :
    ∃ r n, (Action.chain l).get capa x y = .ok r ∧ ChainDoc rs r n := by
  obtain ⟨r, n, h1, h2⟩ := chainGet_spec capa x y l [] rs hlen hget (by simp)
  rw [Action.get, if_neg (by simpa using hl)]
  exact ⟨r, n, h1, h2⟩

/-- The documented result is unique: the chain decides deterministically. -/
theorem C28_chain_unique (rs : List (OverData × OverEa)) (r r' : OverData × OverEa) (n n' : Nat)
    (h : ChainDoc rs r n) (h' : ChainDoc rs r' n') : r = r' ∧ n = n' := by
  have key : ∀ {r r' n n'}, ChainDoc rs r n → ChainDoc rs r' n' → ¬ n < n' := by
    intro r r' n n' h h' hlt
    have h1 := h'.needed n hlt
    rcases h.stop with hs | ⟨hd, he⟩
    · have := h'.le; omega
    · rw [← h.data, ← h.ea] at h1
      rcases h1 with h1 | h1
      · exact hd h1
      · exact he h1
  have hn : n = n' := by
    have := key h h'
    have := key h' h
    omega
  subst hn
  exact ⟨Prod.ext (h.data.trans h'.data.symm) (h.ea.trans h'.ea.symm), rfl⟩

/-- A conditional action behaves as the branch its condition designates. -/
theorem C28_test (capa : TimeUnit) (c : Crit) (noE : Bool) (hc : c.Good noE) (t f : Action) (x y : CEntry) (hx : x.Wf) (hy : y.Wf)
    (he : noE = false → (∀ i f, x ≠ .mirage i f) ∧ ∀ i f, y ≠ .mirage i f) :
    (c.Doc capa x y → (Action.test c t f).get capa x y = t.get capa x y) ∧
    (¬ c.Doc capa x y → (Action.test c t f).get capa x y = f.get capa x y) := by
  obtain ⟨b, hb, h⟩ := C28_condition capa c noE hc x y hx hy he
  rw [Action.get, hb]
  cases b with
  | true => exact ⟨fun _ => by simp, fun hn => absurd (h.mp rfl) hn⟩
  | false => exact ⟨fun hd => (by have := h.mpr hd; cases this), fun _ => by simp⟩

/-- Well-formed policies: no empty chain, no empty AND/OR. -/
inductive Action.Good (noE : Bool) : Action → Prop
  | const {d e} : Good noE (.const d e)
  | test {c t f} : c.Good noE → Good noE t → Good noE f → Good noE (.test c t f)
  | chain {l} : l ≠ [] → (∀ a ∈ l, Good noE a) → Good noE (.chain l)

/-- Every well-formed policy gives a result for every pair of entries. -/
theorem C28_total (capa : TimeUnit) (a : Action) (noE : Bool) (ha : a.Good noE) (x y : CEntry) (hx : x.Wf) (hy : y.Wf)
    (he : noE = false → (∀ i f, x ≠ .mirage i f) ∧ ∀ i f, y ≠ .mirage i f) :
    ∃ r, a.get capa x y = .ok r := by
  induction ha with
  | const => exact ⟨_, by rw [Action.get]⟩
  | @test c t f hc _ _ iht ihf =>
    by_cases h : c.Doc capa x y
    · rw [(C28_test capa c noE hc t f x y hx hy he).1 h]; exact iht
    · rw [(C28_test capa c noE hc t f x y hx hy he).2 h]; exact ihf
  | @chain l hl _ ih =>
    have : ∃ rs : List (OverData × OverEa), rs.length = l.length ∧ ∀ (k : Nat) (h : k < l.length) (h' : k < rs.length), (l[k]).get capa x y = .ok (rs[k]) := by
      clear hl
      induction l with
      | nil => exact ⟨[], rfl, by simp⟩
      | cons a l ihl =>
        obtain ⟨r0, h0⟩ := ih a (by simp)
        obtain ⟨rs, h1, h2⟩ := ihl (fun a ha => by rename_i h; exact h a (by simp [ha])) (fun a ha => ih a (by simp [ha]))
        refine ⟨r0 :: rs, by simp [h1], ?_⟩
        intro k h h'
        cases k with
        | zero => exact h0
        | succ k => simpa using h2 k (by simpa using h) (by simpa using h')
    obtain ⟨rs, h1, h2⟩ := this
    obtain ⟨r, n, h3, _⟩ := C28_chain capa x y l hl rs h1 h2
    exact ⟨r, h3⟩

/-- A chain whose last expression is a constant with both actions defined always decides both. -/
theorem C28_final_constant (capa : TimeUnit) (l : List Action) (d : OverData) (e : OverEa) (hd : d ≠ .undefined) (he' : e ≠ .undefined)
    (noE : Bool) (hl : ∀ a ∈ l, a.Good noE) (x y : CEntry) (hx : x.Wf) (hy : y.Wf)
    (he : noE = false → (∀ i f, x ≠ .mirage i f) ∧ ∀ i f, y ≠ .mirage i f) :
    ∃ r, (Action.chain (l ++ [.const d e])).get capa x y = .ok r ∧ r.1 ≠ .undefined ∧ r.2 ≠ .undefined := by
  have : ∀ l : List Action, (∀ a ∈ l, a.Good noE) → ∃ rs : List (OverData × OverEa), rs.length = l.length ∧
      ∀ (k : Nat) (h : k < l.length) (h' : k < rs.length), (l[k]).get capa x y = .ok (rs[k]) := by
    intro l hl
    induction l with
    | nil => exact ⟨[], rfl, by simp⟩
    | cons a l ihl =>
      obtain ⟨r0, h0⟩ := C28_total capa a noE (hl a (by simp)) x y hx hy he
      obtain ⟨rs, h1, h2⟩ := ihl (fun a ha => hl a (by simp [ha]))
      refine ⟨r0 :: rs, by simp [h1], ?_⟩
      intro k h h'
      cases k with
      | zero => exact h0
      | succ k => simpa using h2 k (by simpa using h) (by simpa using h')
  obtain ⟨rs, h1, h2⟩ := this l hl
  obtain ⟨r, n, h3, h4⟩ := C28_chain capa x y (l ++ [.const d e]) (by simp) (rs ++ [(d, e)]) (by simp [h1]) (by
    intro k h h'
    by_cases hk : k < l.length
    · rw [List.getElem_append_left hk, List.getElem_append_left (by omega)]
      exact h2 k hk (by omega)
    · have : k = l.length := by simp at h; omega
      subst this
      rw [List.getElem_append_right (by omega), List.getElem_append_right (by omega)]
      simp [Action.get])
  refine ⟨r, h3, ?_⟩
  rcases h4.stop with hs | hs
  · have h5 := h4.data
    have h6 := h4.ea
    rw [hs, List.take_length, List.map_append, List.map_singleton, lastDefined_concat] at h5 h6
    simp only [hd, if_false] at h5
    simp only [he', if_false] at h6
    exact ⟨by rw [h5]; exact hd, by rw [h6]; exact he'⟩
  · exact hs

/-! Instances: a file and a hard link, the documented example `{T}[P*] O* ; {r}[*p] *o`. -/
def exIno : Ino := ⟨.file, 0, 0, 420, ⟨10, .s⟩, ⟨12, .s⟩, .saved, 5, false, false, false, 0, 0, [], .full, 1, 20⟩
example : (CEntry.inode exIno).Wf ∧ (CEntry.mirage exIno true).Wf := by
  refine ⟨⟨?_, by simp⟩, ⟨?_, ?_⟩⟩
  · intro i h; simp [CEntry.getInode] at h; subst h; exact ⟨trivial, trivial⟩
  · intro i h; simp [CEntry.getInode] at h; subst h; exact ⟨trivial, trivial⟩
  · intro i f h; injection h with h _; subst h; decide
def exPolicy : Action := .chain [.test .sameType (.const .preserve .undefined) (.const .overwrite .undefined),
  .test (.eaMoreRecent 0) (.const .undefined .preserve) (.const .undefined .overwrite), .const .remove .clear]
example : exPolicy.Good true := by
  refine .chain (by simp) ?_
  intro a ha
  simp at ha
  rcases ha with rfl | rfl | rfl
  · exact .test .sameType .const .const
  · exact .test .eaMoreRecent .const .const
  · exact .const
example : exPolicy.get .ns (.inode exIno) (.mirage exIno true) = .ok (.preserve, .preserve) := by
  simp [exPolicy, Action.get, Action.chainGet, Crit.eval, sameTypeEval, CEntry.getInode, exIno, Ino.isFile, eaDate]
  decide

end Dar
