import Verif.Spec.Restore
import Verif.Props.Absent
/- The steps of a restoration, computed. -/
namespace Dar

/-- the object found at `p` is `z` -/
def FS.setAt (fs : FS) (p : List Bytes) (z : Obj) : FS := fs.upd p (fun _ => z)

theorem FS.setAt_ent (fs : FS) (p : List Bytes) (z : Obj) (q : List Bytes) :
    (fs.setAt p z).ent q = if q = p then (match fs.ent p with | some (.dir _) => some (.dir z) | v => v) else fs.ent q := by
  unfold FS.setAt FS.upd
  cases h : fs.ent p with
  | none => dsimp only; split <;> simp_all
  | some v => cases v <;> dsimp only <;> split <;> simp_all

theorem FS.upd_setAt (fs : FS) (p : List Bytes) (z : Obj) (f : Obj → Obj) (h : fs.ent p ≠ none) : (fs.setAt p z).upd p f = fs.setAt p (f z) := by
  unfold FS.setAt FS.upd
  cases hp : fs.ent p with
  | none => exact absurd hp h
  | some v =>
    cases v with
    | dir o => simp; funext q; split <;> simp_all
    | ino i => simp [hp]; funext j; split <;> simp_all

theorem FS.setAt_self (fs : FS) (p : List Bytes) (z : Obj) (h : fs.obj p = some z) : fs.setAt p z = fs := by
  unfold FS.setAt FS.upd
  unfold FS.obj at h
  cases hp : fs.ent p with
  | none => simp [hp] at h
  | some v =>
    cases v with
    | dir o =>
      simp [hp] at h; subst h
      simp
      obtain ⟨ent, ino, next⟩ := fs
      simp at hp ⊢
      funext q; split <;> simp_all
    | ino i =>
      simp [hp] at h; subst h
      obtain ⟨ent, ino, next⟩ := fs
      simp at hp ⊢
      funext q; split <;> simp_all

theorem FS.setAt_ne (fs : FS) (p : List Bytes) (z : Obj) (h : fs.ent p ≠ none) : (fs.setAt p z).ent p ≠ none := by
  rw [FS.setAt_ent, if_pos rfl]
  cases hp : fs.ent p with
  | none => exact absurd hp h
  | some v => cases v <;> simp

theorem flag_fs (s : RsSt) (fs : FS) : ({ s with fs := fs } : RsSt).flag = { s.flag with fs := fs } := by
  obtain ⟨a, b, stack, c, d, e⟩ := s
  cases stack <;> rfl

/-- the entry is not a hard link -/
def BEntry.isMirage : BEntry → Bool
  | .mirage _ _ => true
  | _ => false

theorem setEa_at (o : RsOpts) (s : RsSt) (e : BEntry) (ea : Bytes) (p : List Bytes) (fs : FS) (z : Obj) (he : e.isMirage = false) (h : fs.ent p ≠ none) :
    ({ s with fs := fs.setAt p z } : RsSt).setEa o e ea p = ({ s with fs := fs.setAt p { z with eas := o.eaOver z.eas ea } }, true) := by
  cases e with
  | mirage n k => cases he
  | _ => simp [RsSt.setEa, FS.upd_setAt fs p z _ h]
theorem clearEa_at (s : RsSt) (e : BEntry) (p : List Bytes) (fs : FS) (z : Obj) (he : e.isMirage = false) (h : fs.ent p ≠ none) :
    ({ s with fs := fs.setAt p z } : RsSt).clearEa e p = ({ s with fs := fs.setAt p { z with eas := [] } }, true) := by
  cases e with
  | mirage n k => cases he
  | _ => simp [RsSt.clearEa, FS.upd_setAt fs p z _ h]
theorem setFsa_at (o : RsOpts) (s : RsSt) (fsa : Bytes) (p : List Bytes) (fs : FS) (z : Obj) (h : fs.ent p ≠ none) :
    ({ s with fs := fs.setAt p z } : RsSt).setFsa o fsa p = { s with fs := fs.setAt p { z with fsas := o.fsaOver z.fsas fsa } } := by
  simp [RsSt.setFsa, FS.upd_setAt fs p z _ h]
theorem setDate_at (o : RsOpts) (s : RsSt) (x : Obj) (p : List Bytes) (fs : FS) (z : Obj) (h : fs.ent p ≠ none) :
    ({ s with fs := fs.setAt p z } : RsSt).setDate o x p = .ok { s with fs := fs.setAt p (o.date x z) } := by
  have := FS.setAt_ne fs p z h
  unfold RsSt.setDate
  dsimp only
  cases hp : (fs.setAt p z).ent p with
  | none => exact absurd hp this
  | some v => simp [FS.upd_setAt fs p z _ h]
theorem setOwner_at (o : RsOpts) (s : RsSt) (x : Obj) (p : List Bytes) (fs : FS) (z : Obj) (h : fs.ent p ≠ none) :
    ({ s with fs := fs.setAt p z } : RsSt).setOwner o x p = { s with fs := fs.setAt p (o.ownerPerm x z) } := by
  simp [RsSt.setOwner, FS.upd_setAt fs p z _ h]

/-- the filesystem with a new inode for `x` -/
def FS.newIno (o : RsOpts) (fs : FS) (p : List Bytes) (x : Obj) : FS :=
  { (fs.put o.now p (.ino fs.next)) with ino := fun j => if j = fs.next then o.blank x else fs.ino j, next := fs.next + 1 }
/-- the filesystem with a new directory for `x` -/
def FS.newDir (o : RsOpts) (fs : FS) (p : List Bytes) (x : Obj) : FS := fs.put o.now p (.dir (o.blank x))
/-- either -/
def FS.newObj (o : RsOpts) (fs : FS) (p : List Bytes) (x : Obj) : FS := if x.ino.kind = .dir then fs.newDir o p x else fs.newIno o p x

theorem newObj_obj (o : RsOpts) (fs : FS) (p : List Bytes) (x : Obj) : (fs.newObj o p x).obj p = some (o.blank x) := by
  unfold FS.newObj FS.newIno FS.newDir FS.put FS.obj
  by_cases h : x.ino.kind = .dir
  · simp [h]
  · simp [h]
theorem newObj_ne (o : RsOpts) (fs : FS) (p : List Bytes) (x : Obj) : (fs.newObj o p x).ent p ≠ none := by
  unfold FS.newObj FS.newIno FS.newDir FS.put
  split <;> simp

theorem create_eq (o : RsOpts) (s : RsSt) (p : List Bytes) (x : Obj) (h : s.fs.isDir p.dropLast = true) :
    s.create o p x = .ok { s with fs := (s.fs.newObj o p x).setAt p (o.blank x) } := by
  rw [FS.setAt_self _ _ _ (newObj_obj o s.fs p x)]
  unfold RsSt.create FS.newObj FS.newIno FS.newDir
  rw [if_pos h]
  split <;> simp [FS.put]

theorem makeFile_eq (o : RsOpts) (s : RsSt) (e : BEntry) (p : List Bytes) (x : Obj) (he : e.isMirage = false) (h : s.fs.isDir p.dropLast = true) :
    s.makeFile o e x p = .ok { s with fs := (s.fs.newObj o p x).setAt p (o.blank x) } := by
  cases e with
  | mirage n k => cases he
  | _ => exact create_eq o s p x h

/-- what writeNew makes of the new inode -/
def RsOpts.finish (o : RsOpts) (isDir : Bool) (x : Obj) (z : Obj) : Obj :=
  let z := if x.eaSaved then { z with eas := o.eaOver z.eas x.getEa } else z
  let z := if x.fsa = .full then { z with fsas := o.fsaOver z.fsas x.fsas } else z
  let z := if isDir then z else o.ownerPerm x (o.date x z)
  if x.eaSaved then { z with eas := o.eaOver z.eas x.getEa } else z

theorem writeNew_eq (o : RsOpts) (hd : o.onlyDeleted = false) (s : RsSt) (e : BEntry) (p : List Bytes) (x : Obj) (he : e.isMirage = false)
    (h : s.fs.isDir p.dropLast = true) (hs : x.ino.status = .saved) :
    s.writeNew o e x p = .ok ({ s.flag with fs := (s.fs.newObj o p x).setAt p (o.finish e.isDir x (o.blank x)) }, .restored) := by
  have hne := newObj_ne o s.fs p x
  unfold RsSt.writeNew
  rw [if_pos ⟨Or.inl hs, hd⟩, makeFile_eq o s e p x he h]
  unfold RsOpts.finish
  simp only [bind, Except.bind, flag_fs]
  cases hea : x.eaSaved <;> by_cases hf : x.fsa = .full <;> cases hdir : e.isDir <;>
    simp [hf, setEa_at _ _ _ _ _ _ _ he hne, setFsa_at _ _ _ _ _ _ hne, setDate_at _ _ _ _ _ _ hne, setOwner_at _ _ _ _ _ _ hne]

theorem overEa_at (o : RsOpts) (s : RsSt) (e : BEntry) (x y : Obj) (p : List Bytes) (fs : FS) (z : Obj) (he : e.isMirage = false) (h : fs.ent p ≠ none) :
    ({ s with fs := fs.setAt p z } : RsSt).overEa o e x y p .overwrite = .ok ({ s with fs := fs.setAt p { z with eas := o.eaOver [] x.getEa } }, true) := by
  unfold RsSt.overEa
  simp [clearEa_at s e p fs z he h, setEa_at o s e _ p fs _ he h]
theorem knows_not (s : RsSt) (e : BEntry) (he : e.isMirage = false) : s.knows e = false := by
  cases e with
  | mirage n k => cases he
  | _ => rfl
theorem overFsa_at (o : RsOpts) (s : RsSt) (e : BEntry) (x y : Obj) (p : List Bytes) (fs : FS) (z : Obj) (he : e.isMirage = false) (h : fs.ent p ≠ none) :
    ({ s with fs := fs.setAt p z } : RsSt).overFsa o e x y p .overwrite = .ok ({ s with fs := fs.setAt p { z with fsas := o.fsaOver z.fsas x.fsas } }, true) := by
  unfold RsSt.overFsa
  simp [knows_not _ e he, setFsa_at o s _ p fs _ h]

/-- what is done to an existing inode after its content -/
def RsOpts.overRest (o : RsOpts) (x y : Obj) (d : RsDone) (z : Obj) : Obj :=
  let z := if x.eaSaved then { z with eas := o.eaOver [] x.getEa } else z
  let z := if x.fsa = .full then { z with fsas := o.fsaOver z.fsas x.fsas } else z
  let z := if x.fsa = .full ∨ x.eaSaved = true ∨ x.ino.status = .delta ∨ x.ino.status = .saved ∨ x.ino.status = .inodeOnly then
      if d = .restored then if y.ino.kind = .dir then z else o.ownerPerm x (o.date x z) else o.date y z
    else z
  if x.eaSaved then { z with eas := o.eaOver [] x.getEa } else z

theorem writeOver_eq (o : RsOpts) (s : RsSt) (e : BEntry) (x y : Obj) (p : List Bytes) (fs : FS) (z : Obj) (d : RsDone) (he : e.isMirage = false) (h : fs.ent p ≠ none)
    (hc : s.overContent o e x y p .overwrite = .ok ({ s with fs := fs.setAt p z }, d)) :
    s.writeOver o e x y p .overwrite .overwrite =
      .ok ({ (if d = .restored then s.flag else s) with fs := fs.setAt p (o.overRest x y d z) }, d) := by
  unfold RsSt.writeOver RsOpts.overRest
  rw [hc]
  simp only [bind, Except.bind]
  by_cases hd : d = .restored <;> cases hea : x.eaSaved <;> by_cases hf : x.fsa = .full <;> by_cases hk : y.ino.kind = .dir <;>
    by_cases hst : x.ino.status = .delta ∨ x.ino.status = .saved ∨ x.ino.status = .inodeOnly <;>
    simp [hd, hf, hk, hst, overEa_at _ _ _ _ _ _ _ _ he h, overFsa_at _ _ _ _ _ _ _ _ he h, setDate_at _ _ _ _ _ _ h, setOwner_at _ _ _ _ _ _ h, caught, flag_fs]

/-- what the end of a directory does not restore -/
structure SemiMatch (y x : Obj) : Prop where
  kind : y.ino.kind = x.ino.kind
  eas : y.eas = x.eas
  fsas : x.fsa ≠ .none → y.fsas = x.fsas
theorem Match.semi {y x : Obj} (h : Match y x) : SemiMatch y x := ⟨h.kind, h.eas, h.fsas⟩

theorem sameContent_refl (x : Obj) (y : Obj) (h1 : y.data = x.data) (h2 : y.ino.size = x.ino.size) (h3 : y.ino.target = x.ino.target)
    (h4 : y.ino.major = x.ino.major) (h5 : y.ino.minor = x.ino.minor) : SameContent y x := ⟨fun _ => ⟨h1, h2⟩, fun _ => h3, fun _ => ⟨h4, h5⟩⟩

/-- setting dates, owner and permissions -/
theorem meta_match {o : RsOpts} (hp : Plain o) {x z : Obj} (hs : SemiMatch z x) (hc : SameContent z x) : Match (o.ownerPerm x (o.date x z)) x := by
  unfold RsOpts.ownerPerm RsOpts.date
  rw [hp.what]
  by_cases hk : x.ino.kind = .symlink
  · simp [hk]
    exact ⟨hs.kind, rfl, rfl, fun h => absurd hk h, rfl, hc, hs.eas, hs.fsas⟩
  · simp [hk]
    exact ⟨hs.kind, rfl, rfl, fun _ => rfl, rfl, hc, hs.eas, hs.fsas⟩

theorem ownerPerm_eas (o : RsOpts) (x z : Obj) : (o.ownerPerm x z).eas = z.eas := by
  unfold RsOpts.ownerPerm; dsimp only; split <;> split <;> rfl
theorem date_eas (o : RsOpts) (x z : Obj) : (o.date x z).eas = z.eas := by
  unfold RsOpts.date; split <;> rfl
theorem eas_self (z : Obj) (v : Bytes) (h : z.eas = v) : { z with eas := v } = z := by subst h; rfl

theorem finish_match {o : RsOpts} (hp : Plain o) {x : Obj} (b : Bool) (h : Enough o none x) :
    SemiMatch (o.finish b x (o.blank x)) x ∧ (b = false → Match (o.finish b x (o.blank x)) x) := by
  obtain ⟨h1, h2, h3⟩ := h
  -- the attributes
  have hz : SemiMatch (let z := if x.eaSaved then { o.blank x with eas := o.eaOver (o.blank x).eas x.getEa } else o.blank x
      if x.fsa = .full then { z with fsas := o.fsaOver z.fsas x.fsas } else z) x ∧ SameContent (let z := if x.eaSaved then { o.blank x with eas := o.eaOver (o.blank x).eas x.getEa } else o.blank x
      if x.fsa = .full then { z with fsas := o.fsaOver z.fsas x.fsas } else z) x := by
    dsimp only
    cases hea : x.eaSaved with
    | false =>
      have hn : x.eas = [] := by
        rcases h2 with h2 | h2
        · rw [Obj.eaSaved, h2] at hea; simp at hea
        · exact h2
      rcases h3 with ⟨h3, h4⟩ | h3
      · rw [if_pos h3]
        exact ⟨⟨rfl, hn.symm, fun _ => hp.fsaNew _ _ h4⟩, sameContent_refl _ _ rfl rfl rfl rfl rfl⟩
      · rw [if_neg (by rw [h3]; simp)]
        exact ⟨⟨rfl, hn.symm, fun h => absurd h3 h⟩, sameContent_refl _ _ rfl rfl rfl rfl rfl⟩
    | true =>
      have hn : o.eaOver [] x.getEa = x.eas := by
        rw [hp.eaNew]
        unfold Obj.getEa
        rcases h2 with h2 | h2
        · rw [if_pos h2]
        · rw [h2]; split <;> rfl
      rcases h3 with ⟨h3, h4⟩ | h3
      · rw [if_pos h3]
        exact ⟨⟨rfl, hn, fun _ => hp.fsaNew _ _ h4⟩, sameContent_refl _ _ rfl rfl rfl rfl rfl⟩
      · rw [if_neg (by rw [h3]; simp)]
        exact ⟨⟨rfl, hn, fun h => absurd h3 h⟩, sameContent_refl _ _ rfl rfl rfl rfl rfl⟩
  have hg : x.eaSaved = true → x.getEa = x.eas := by
    intro hea
    unfold Obj.getEa
    rcases h2 with h2 | h2
    · rw [if_pos h2]
    · rw [h2]; split <;> rfl
  unfold RsOpts.finish
  dsimp only at hz ⊢
  generalize (if x.fsa = .full then _ else _ : Obj) = z at hz ⊢
  obtain ⟨hz, hc⟩ := hz
  -- setting the extended attributes again
  have again : ∀ w : Obj, w.eas = x.eas → (if x.eaSaved = true then { w with eas := o.eaOver w.eas x.getEa } else w) = w := by
    intro w hw
    split
    · rename_i hea
      exact eas_self _ _ (by rw [hg hea, hw, hp.eaSame])
    · rfl
  cases b with
  | true =>
    refine ⟨?_, by simp⟩
    rw [if_pos rfl, again _ hz.eas]
    exact hz
  | false =>
    simp only [Bool.false_eq_true, if_false]
    rw [again _ (by rw [ownerPerm_eas, date_eas]; exact hz.eas)]
    exact ⟨(meta_match hp hz hc).semi, fun _ => meta_match hp hz hc⟩

/-- the content of an existing inode and what follows: `z` is the inode after its content has been treated -/
theorem overRest_match {o : RsOpts} (hp : Plain o) {x y z : Obj} {d : RsDone} (h : Enough o (some y) x)
    (hk : z.ino.kind = x.ino.kind) (hc : SameContent z x) (he : z.eas = y.eas) (hf : z.fsas = y.fsas ∨ y.fsas = [])
    (hd : d = .restored ∨ d = .noData ∧ z = y ∧ x.ino.status = .notSaved) :
    SemiMatch (o.overRest x y d z) x ∧ (d = .noData ∨ y.ino.kind ≠ .dir ∧ (x.ino.status = .delta ∨ x.ino.status = .saved ∨ x.ino.status = .inodeOnly) →
      Match (o.overRest x y d z) x) := by
  obtain ⟨h1, h2, h3⟩ := h
  have hw : ∃ w, w = (let z := if x.eaSaved then { z with eas := o.eaOver [] x.getEa } else z
      if x.fsa = .full then { z with fsas := o.fsaOver z.fsas x.fsas } else z) ∧ SemiMatch w x ∧ SameContent w x ∧ w.ino = z.ino := by
    refine ⟨_, rfl, ?_⟩
    dsimp only
    have hea : (if x.eaSaved then { z with eas := o.eaOver [] x.getEa } else z).eas = x.eas := by
      unfold Obj.eaSaved Obj.getEa
      cases hs : x.ino.eaStatus <;> rw [hs] at h2 <;> simp [hp.eaNew] <;> simp at h2 <;> first | rw [he, h2] | rw [h2] | skip
    generalize hw : (if x.eaSaved then { z with eas := o.eaOver [] x.getEa } else z) = w at hea
    have hwi : w.ino = z.ino ∧ w.data = z.data ∧ w.fsas = z.fsas := by
      subst hw; split <;> simp
    have hcw : SameContent w x := by
      obtain ⟨a, b, c⟩ := hc
      refine ⟨?_, ?_, ?_⟩ <;> rw [hwi.1] <;> try assumption
      rw [hwi.2.1]; exact a
    cases hfs : x.fsa with
    | full =>
      rw [hfs] at h3
      simp only at h3 ⊢
      rw [if_pos trivial]
      exact ⟨⟨by show w.ino.kind = _; rw [hwi.1]; exact hk, hea, fun _ => hp.fsaNew _ _ h3⟩, hcw, hwi.1⟩
    | part =>
      rw [hfs] at h3
      simp only at h3
      rw [if_neg (by simp)]
      refine ⟨⟨by rw [hwi.1]; exact hk, hea, fun _ => ?_⟩, hcw, hwi.1⟩
      rcases hf with hf | hf
      · rw [hwi.2.2, hf, h3.1]
      · rw [hf] at h3; exact absurd h3.1.symm h3.2
    | none =>
      rw [if_neg (by simp)]
      exact ⟨⟨by rw [hwi.1]; exact hk, hea, fun h => absurd hfs h⟩, hcw, hwi.1⟩
  obtain ⟨w, hweq, hs, hcw, hwi⟩ := hw
  unfold RsOpts.overRest
  dsimp only at hweq ⊢
  rw [← hweq]
  have hget : x.eaSaved = true → o.eaOver [] x.getEa = x.eas := by
    intro hea
    rw [hp.eaNew]
    unfold Obj.eaSaved at hea
    unfold Obj.getEa
    cases hs : x.ino.eaStatus <;> rw [hs] at h2 hea <;> simp at hea h2 ⊢
    exact h2
  have again : ∀ v : Obj, v.eas = x.eas → (if x.eaSaved = true then { v with eas := o.eaOver [] x.getEa } else v) = v := by
    intro v hv
    split
    · rename_i hea
      exact eas_self _ _ (by rw [hget hea, hv])
    · rfl
  rcases hd with rfl | ⟨rfl, rfl, hns⟩
  · by_cases hcond : x.fsa = .full ∨ x.eaSaved = true ∨ x.ino.status = .delta ∨ x.ino.status = .saved ∨ x.ino.status = .inodeOnly
    · rw [if_pos hcond, if_pos rfl]
      by_cases hkd : y.ino.kind = .dir
      · rw [if_pos hkd, again _ hs.eas]
        refine ⟨hs, fun h => ?_⟩
        rcases h with h | ⟨h, -⟩
        · cases h
        · exact absurd hkd h
      · rw [if_neg hkd, again _ (by rw [ownerPerm_eas, date_eas]; exact hs.eas)]
        exact ⟨(meta_match hp hs hcw).semi, fun _ => meta_match hp hs hcw⟩
    · rw [if_neg hcond, again _ hs.eas]
      refine ⟨hs, fun h => ?_⟩
      rcases h with h | ⟨-, h⟩
      · cases h
      · exact absurd (Or.inr (Or.inr h)) hcond
  · rw [if_neg (show ¬ RsDone.noData = RsDone.restored by simp)]
    have hdate : ∀ c : Prop, [Decidable c] → (if c then o.date z w else w) = w := by
      intro c _
      split
      · unfold RsOpts.date
        rw [hp.what]
        simp only [true_or, if_true]
        obtain ⟨a, i, b, c, d, e⟩ := w
        dsimp only at hwi
        subst hwi
        rfl
      · rfl
    rw [hdate, again _ hs.eas]
    refine ⟨hs, fun _ => ?_⟩
    rw [hns] at h1
    obtain ⟨-, -, h4, h5, h6, h7⟩ := h1
    exact ⟨hs.kind, by rw [hwi]; exact h4, by rw [hwi]; exact h5, fun h => by rw [hwi]; exact h6 h, by rw [hwi]; exact h7, hcw, hs.eas, hs.fsas⟩

/-- how the filesystem is changed, the inode at `p` put aside -/
inductive Based (o : RsOpts) (fs : FS) (p : List Bytes) (x : Obj) : FS → RsDone → Prop
  | keep (y : Obj) (d : RsDone) : fs.obj p = some y → y.ino.kind = x.ino.kind → Based o fs p x fs d
  | fresh : fs.ent p = none → Based o fs p x (fs.newObj o p x) .restored
  | replaced (y : Obj) : fs.obj p = some y → y.ino.kind ≠ .dir → Based o fs p x ((fs.remove o.now p).newObj o p x) .restored

theorem Based.ne {o : RsOpts} {fs base : FS} {p : List Bytes} {x : Obj} {d : RsDone} (h : Based o fs p x base d) : base.ent p ≠ none := by
  cases h with
  | keep y d h _ => intro h2; rw [FS.obj, h2] at h; cases h
  | fresh h => exact newObj_ne _ _ _ _
  | replaced y h _ => exact newObj_ne _ _ _ _

theorem sameContent_dir {x : Obj} (z : Obj) (h : x.ino.kind = .dir) : SameContent z x := by
  refine ⟨?_, ?_, ?_⟩ <;> simp [Ino.isFile, Ino.isDevice, h]

theorem remove_isDir (fs : FS) (now : DateT) (d : List Bytes) (n : Bytes) (h : fs.isDir d = true) : (fs.remove now (d ++ [n])).isDir d = true := by
  unfold FS.isDir FS.remove at *
  have h1 : (d ++ [n]).isPrefixOf d = false := by
    cases hb : (d ++ [n]).isPrefixOf d with
    | false => rfl
    | true =>
      have := (List.isPrefixOf_iff_prefix.1 hb).length_le
      simp at this
  simp only [h1, List.dropLast_concat]
  cases hd : fs.ent d with
  | none => rw [hd] at h; cases h
  | some v =>
    rw [hd] at h
    cases v with
    | dir o => rfl
    | ino i => cases h

/-- an entry that is not a hard link -/
theorem writeInode_ok {o : RsOpts} (hp : Plain o) (s : RsSt) (e : BEntry) (x : Obj) (he : e.isMirage = false) (hn : x.name = e.name)
    (hk : e.isDir = decide (x.ino.kind = .dir)) (hpar : s.fs.isDir s.cdir = true) (hen : Enough o (s.fs.obj (s.cdir ++ [e.name])) x) :
    ∃ base z d, s.writeInode o e x = .ok ((({ (if d = .restored then s.flag else s) with fs := base.setAt (s.cdir ++ [e.name]) z } : RsSt).enter e x
        (s.fs.obj (s.cdir ++ [e.name])) d), d) ∧ Based o s.fs (s.cdir ++ [e.name]) x base d ∧ (d = .restored ∨ d = .noData) ∧ SemiMatch z x ∧
      (x.ino.kind ≠ .dir ∨ d = .noData → Match z x) := by
  generalize hpp : s.cdir ++ [e.name] = p at *
  have hpd : p.dropLast = s.cdir := by rw [← hpp]; simp
  unfold RsSt.writeInode
  rw [hpp]
  dsimp only
  cases ho : s.fs.obj p with
  | none =>
    rw [ho] at hen
    obtain ⟨h1, h2⟩ := finish_match hp e.isDir hen
    refine ⟨s.fs.newObj o p x, o.finish e.isDir x (o.blank x), .restored, ?_, .fresh ?_, Or.inl rfl, h1, fun h => ?_⟩
    · rw [if_neg (by rw [hen.1]; simp), writeNew_eq o hp.onlyDeleted s e p x he (by rw [hpd]; exact hpar) hen.1]
      rfl
    · unfold FS.obj at ho
      cases hv : s.fs.ent p with
      | none => rfl
      | some v => rw [hv] at ho; cases v <;> cases ho
    · rcases h with h | h
      · exact h2 (by rw [hk]; simp [h])
      · cases h
  | some y =>
    rw [ho] at hen
    simp only [hp.over]
    have key : ∀ (base : FS) (z : Obj) (d : RsDone), s.overContent o e x y p .overwrite = .ok ({ s with fs := base.setAt p z }, d) →
        Based o s.fs p x base d → z.ino.kind = x.ino.kind → SameContent z x → z.eas = y.eas → (z.fsas = y.fsas ∨ y.fsas = []) →
        (d = .restored ∧ (x.ino.status = .delta ∨ x.ino.status = .saved ∨ x.ino.status = .inodeOnly) ∨ d = .noData ∧ z = y ∧ x.ino.status = .notSaved) →
        (x.ino.kind ≠ .dir ∨ d = .noData → d = .noData ∨ y.ino.kind ≠ .dir) →
        ∃ base z d, (do
          let (s, d) ← s.writeOver o e x y p .overwrite .overwrite
          (.ok (s.enter e x (some y) d, d) : RsM (RsSt × RsDone))) = .ok ((({ (if d = .restored then s.flag else s) with fs := base.setAt p z } : RsSt).enter e x (some y) d), d) ∧
          Based o s.fs p x base d ∧ (d = .restored ∨ d = .noData) ∧ SemiMatch z x ∧ (x.ino.kind ≠ .dir ∨ d = .noData → Match z x) := by
      intro base z d h1 h2 h3 h4 h5 h6 h7 h8
      obtain ⟨m1, m2⟩ := overRest_match hp hen (d := d) h3 h4 h5 h6 (by
        rcases h7 with h7 | h7
        · exact Or.inl h7.1
        · exact Or.inr h7)
      refine ⟨base, o.overRest x y d z, d, ?_, h2, ?_, m1, fun h => m2 ?_⟩
      · rw [writeOver_eq o s e x y p base z d he h2.ne h1]
        rfl
      · rcases h7 with h7 | h7
        · exact Or.inl h7.1
        · exact Or.inr h7.1
      · rcases h8 h with h8 | h8
        · exact Or.inl h8
        · rcases h7 with h7 | h7
          · exact Or.inr ⟨h8, h7.2⟩
          · exact Or.inl h7.1
    have hself := FS.setAt_self s.fs p y ho
    have hne : s.fs.ent p ≠ none := by intro h2; rw [FS.obj, h2] at ho; cases ho
    obtain ⟨e1, e2, e3⟩ := hen
    cases hst : x.ino.status with
    | fake => rw [hst] at e1; exact absurd e1 id
    | notSaved =>
      rw [hst] at e1
      obtain ⟨k1, k2, -⟩ := e1
      refine key s.fs y .noData ?_ (.keep y _ ho k1) k1 k2 rfl (Or.inl rfl) (Or.inr ⟨rfl, rfl, hst⟩) (fun _ => Or.inl rfl)
      unfold RsSt.overContent
      rw [hst, hself]
      simp
      cases e with
      | mirage n k => cases he
      | _ => rfl
    | delta =>
      rw [hst] at e1
      obtain ⟨k1, k2, k3⟩ := e1
      have hyf : y.ino.isFile = true := by unfold Ino.isFile at *; rw [k1]; exact k2
      have hxd : x.ino.kind ≠ .dir := by intro h; simp [Ino.isFile, h] at k2
      refine key s.fs { y with data := x.data, ino := { y.ino with size := x.ino.size, mtime := o.now } } .restored ?_ (.keep y _ ho k1) k1 ?_ rfl (Or.inl rfl)
        (Or.inl ⟨rfl, Or.inl hst⟩) (fun _ => Or.inr (by rw [k1]; exact hxd))
      · unfold RsSt.overContent
        rw [hst, if_neg (by simp), if_pos rfl, if_pos hyf, k3]
        dsimp only
        have := FS.upd_setAt s.fs p y (fun z => { z with data := x.data, ino := { z.ino with size := x.ino.size, mtime := o.now } }) hne
        rw [hself] at this
        rw [this]
      · refine ⟨fun _ => ⟨rfl, rfl⟩, fun h => ?_, fun h => ?_⟩
        · simp [Ino.isFile, h] at k2
        · unfold Ino.isFile at k2; unfold Ino.isDevice at h
          simp at h k2
          rcases k2 with k2 | k2 <;> simp [k2] at h
    | inodeOnly =>
      rw [hst] at e1
      obtain ⟨k1, k2⟩ := e1
      have hsame : sameInPlace x y = true := by unfold sameInPlace; simp [hn, k1]
      have hwf : (o.widen x y).ino.kind = y.ino.kind ∧ (o.widen x y).data = y.data ∧ (o.widen x y).ino.size = y.ino.size ∧ (o.widen x y).ino.target = y.ino.target ∧
          (o.widen x y).ino.major = y.ino.major ∧ (o.widen x y).ino.minor = y.ino.minor ∧ (o.widen x y).eas = y.eas ∧ (o.widen x y).fsas = y.fsas := by
        unfold RsOpts.widen; split <;> simp
      obtain ⟨w1, w2, w3, w4, w5, w6, w7, w8⟩ := hwf
      refine key s.fs (o.widen x y) .restored ?_ (.keep y _ ho k1) (by rw [w1, k1]) ?_ w7 (Or.inl w8) (Or.inl ⟨rfl, Or.inr (Or.inr hst)⟩) ?_
      · unfold RsSt.overContent RsSt.overData
        rw [hst, if_pos (by simp), hsame]
        have := FS.upd_setAt s.fs p y (o.widen x) hne
        rw [hself] at this
        simp [this]
      · refine ⟨fun h => ?_, fun h => ?_, fun h => ?_⟩
        · rw [w2, w3]; exact k2.1 h
        · rw [w4]; exact k2.2.1 h
        · rw [w5, w6]; exact k2.2.2 h
      · rintro (h | h)
        · exact Or.inr (by rw [k1]; exact h)
        · cases h
    | saved =>
      rw [hst] at e1
      by_cases hdd : y.ino.kind = .dir
      · have hxd := e1 hdd
        have hsame : sameInPlace x y = true := by unfold sameInPlace; simp [hn, hdd, hxd]
        have hed : e.isDir = true := by rw [hk]; simp [hxd]
        have hwf : (o.widen x y).ino.kind = y.ino.kind ∧ (o.widen x y).eas = y.eas ∧ (o.widen x y).fsas = y.fsas := by
          unfold RsOpts.widen; split <;> simp
        obtain ⟨w1, w7, w8⟩ := hwf
        refine key s.fs (o.widen x y) .restored ?_ (.keep y _ ho (by rw [hdd, hxd])) (by rw [w1, hdd, hxd]) (sameContent_dir _ hxd) w7 (Or.inl w8)
          (Or.inl ⟨rfl, Or.inr (Or.inl hst)⟩) ?_
        · unfold RsSt.overContent RsSt.overData
          rw [hst, if_pos (by simp), hsame, hed]
          have := FS.upd_setAt s.fs p y (o.widen x) hne
          rw [hself] at this
          simp [this]
        · rintro (h | h)
          · exact absurd hxd h
          · cases h
      · refine key ((s.fs.remove o.now p).newObj o p x)
          { o.blank x with eas := y.eas, fsas := o.fsaOver o.fsa0 y.fsas } .restored ?_ (.replaced y ho hdd) rfl (sameContent_refl _ _ rfl rfl rfl rfl rfl) rfl ?_
          (Or.inl ⟨rfl, Or.inr (Or.inl hst)⟩) (fun _ => Or.inr hdd)
        · have hnot : ((e.isDir || decide (x.ino.status = .inodeOnly)) && sameInPlace x y) = false := by
            rw [hst, hk]
            unfold sameInPlace
            by_cases hx : x.ino.kind = .dir
            · have : ¬ x.ino.kind = y.ino.kind := by rw [hx]; exact fun h => hdd h.symm
              simp [this]
            · simp [hx]
          unfold RsSt.overContent RsSt.overData RsSt.replace
          rw [hst] at hnot ⊢
          rw [if_pos (by simp)]
          dsimp only
          rw [hnot]
          simp only [Bool.false_eq_true, if_false]
          rw [if_neg (by simp), makeFile_eq o _ e p x he (by
            rw [hpd]
            show (s.fs.remove o.now p).isDir s.cdir = true
            rw [← hpp]
            exact remove_isDir _ _ _ _ hpar)]
          have hne2 := newObj_ne o (s.fs.remove o.now p) p x
          simp only [bind, Except.bind]
          by_cases hye : y.eas = []
          · rw [if_pos hye]
            have := setFsa_at o s y.fsas p ((s.fs.remove o.now p).newObj o p x) (o.blank x) hne2
            rw [this]
            rw [hye]
            rfl
          · rw [if_neg hye]
            have h1 := FS.upd_setAt ((s.fs.remove o.now p).newObj o p x) p (o.blank x) (fun z => { z with eas := o.eaOver z.eas y.eas }) hne2
            have h2 := setFsa_at o s y.fsas p ((s.fs.remove o.now p).newObj o p x) { o.blank x with eas := o.eaOver [] y.eas } hne2
            rw [show (o.blank x).eas = [] from rfl] at h1
            rw [h1, h2, hp.eaNew]
            rfl
        · by_cases h : y.fsas = []
          · exact Or.inr h
          · exact Or.inl (hp.fsaNew _ _ h)

end Dar
