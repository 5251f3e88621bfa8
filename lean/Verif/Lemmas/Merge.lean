import Verif.Spec.Merge
import Verif.Lemmas.Chain
/- The inode that results from a conflict. -/
namespace Dar

theorem efsa_same {o : MgOpts} {act : OverEa} {p a z : Obj} (h : efsa o act p a = .ok z) : SameButAttr z p := by
  unfold efsa at h
  cases act <;> simp only [Except.ok.injEq, reduceCtorEq] at h
  all_goals subst h
  all_goals simp only [eaOver, fsaOver, eaOverMark, fsaOverMark, eaMerge, fsaMerge]
  all_goals (repeat' split) <;> rfl

theorem same_refl (x : Obj) : SameButAttr x x := rfl
theorem dropData_eq (x : Obj) : x.dropData = x.asAlreadySaved := rfl
theorem patched_eq (o : MgOpts) (x y : Obj) : patched o x y = Obj.newer o x y := rfl

theorem drop_attr (x : Obj) : x.dropData.ino.eaStatus = x.ino.eaStatus ∧ x.dropData.fsa = x.fsa ∧ x.dropData.ino.ctime = x.ino.ctime ∧
    x.dropData.eaSet = x.eaSet ∧ x.dropData.fsas = x.fsas ∧ x.dropData.name = x.name ∧ x.dropData.ino.eaCount = x.ino.eaCount ∧
    x.dropData.ino.eaSize = x.ino.eaSize ∧ x.dropData.eas = x.eas := by
  unfold Obj.dropData
  split <;> exact ⟨rfl, rfl, rfl, rfl, rfl, rfl, rfl, rfl, rfl⟩
theorem patched_attr (o : MgOpts) (w x : Obj) : (patched o w x).ino.eaStatus = x.ino.eaStatus ∧ (patched o w x).fsa = x.fsa ∧ (patched o w x).ino.ctime = x.ino.ctime ∧
    (patched o w x).eaSet = x.eaSet ∧ (patched o w x).fsas = x.fsas ∧ (patched o w x).name = x.name ∧ (patched o w x).ino.eaCount = x.ino.eaCount ∧
    (patched o w x).ino.eaSize = x.ino.eaSize ∧ (patched o w x).eas = x.eas := by
  unfold patched
  split <;> exact ⟨rfl, rfl, rfl, rfl, rfl, rfl, rfl, rfl, rfl⟩

/-- two inodes with the same attributes -/
def SameAttr (x y : Obj) : Prop :=
  x.ino.eaStatus = y.ino.eaStatus ∧ x.fsa = y.fsa ∧ x.ino.ctime = y.ino.ctime ∧ x.eaSet = y.eaSet ∧ x.fsas = y.fsas ∧ x.name = y.name ∧
  x.ino.eaCount = y.ino.eaCount ∧ x.ino.eaSize = y.ino.eaSize ∧ x.eas = y.eas

theorem EaOf.congr {s s' z : Obj} (h : SameAttr s s') (h1 : EaOf s z) : EaOf s' z := by
  obtain ⟨a, b, c, d, e, f, g, i, j⟩ := h
  unfold EaOf at *
  rw [← a, ← g, ← i, ← j]; exact h1
theorem FsaOf.congr {s s' z : Obj} (h : SameAttr s s') (h1 : FsaOf s z) : FsaOf s' z := by
  obtain ⟨a, b, c, d, e, f, g, i, j⟩ := h
  unfold FsaOf at *
  rw [← b, ← e]; exact h1
theorem EaMarked.congr {s s' z : Obj} (h : SameAttr s s') (h1 : EaMarked s z) : EaMarked s' z := by
  unfold EaMarked at *
  rw [← h.1]; exact h1
theorem FsaMarked.congr {s s' z : Obj} (h : SameAttr s s') (h1 : FsaMarked s z) : FsaMarked s' z := by
  unfold FsaMarked at *
  rw [← h.2.1]; exact h1
theorem EaUnion.congr {o : MgOpts} {w w' l l' z : Obj} (h : SameAttr w w') (h' : SameAttr l l') (h1 : EaUnion o w l z) : EaUnion o w' l' z := by
  unfold EaUnion at *
  rw [← h.1, ← h'.1, ← h.2.2.2.1, ← h'.2.2.2.1]; exact h1
theorem FsaUnion.congr {o : MgOpts} {w w' l l' z : Obj} (h : SameAttr w w') (h' : SameAttr l l') (h1 : FsaUnion o w l z) : FsaUnion o w' l' z := by
  unfold FsaUnion at *
  rw [← h.2.1, ← h'.2.1, ← h.2.2.2.2.1, ← h'.2.2.2.2.1]; exact h1

theorem EaOf.self (z : Obj) : EaOf z z := by
  unfold EaOf
  cases z.ino.eaStatus <;> simp
theorem FsaOf.self (z : Obj) : FsaOf z z := by
  unfold FsaOf
  cases z.fsa <;> simp
theorem AttrsOf.congr {o : MgOpts} {a : OverEa} {x x' y y' z : Obj} (h : SameAttr x x') (h' : SameAttr y y') (h1 : AttrsOf o a x y z) : AttrsOf o a x' y' z := by
  cases a
  case preserve => exact ⟨h1.1.trans h.2.2.1, h1.2.1.congr h, h1.2.2.congr h⟩
  case overwrite => exact ⟨h1.1.trans h'.2.2.1, h1.2.1.congr h', h1.2.2.congr h'⟩
  case clear => exact h1
  case preserveMark => exact ⟨h1.1.trans h.2.2.1, h1.2.1.congr h, h1.2.2.congr h⟩
  case overwriteMark => exact ⟨h1.1.trans h'.2.2.1, h1.2.1.congr h', h1.2.2.congr h'⟩
  case mergePreserve => exact ⟨h1.1.trans h.2.2.1, h1.2.1.congr h h', h1.2.2.congr h h'⟩
  case mergeOverwrite => exact ⟨h1.1.trans h'.2.2.1, h1.2.1.congr h' h, h1.2.2.congr h' h⟩
  case undefined => exact ⟨h1.1.trans h.2.2.1, h1.2.1.congr h, h1.2.2.congr h⟩
  case ask => exact h1

theorem eaOver_spec (p a : Obj) : EaOf a (fsaOver (eaOver (p.setCtime a.ino.ctime) a) a) ∧ FsaOf a (fsaOver (eaOver (p.setCtime a.ino.ctime) a) a) ∧
    (fsaOver (eaOver (p.setCtime a.ino.ctime) a) a).ino.ctime = a.ino.ctime := by
  unfold EaOf FsaOf eaOver fsaOver
  cases h1 : a.ino.eaStatus <;> cases h2 : a.fsa <;>
    simp [Obj.setEaSt, Obj.attachEa, Obj.setFsaSt, Obj.attachFsa, Obj.setCtime, Obj.eaSet]
theorem eaOverMark_spec (p a : Obj) : EaMarked a (fsaOverMark (eaOverMark (p.setCtime a.ino.ctime) a) a) ∧
    FsaMarked a (fsaOverMark (eaOverMark (p.setCtime a.ino.ctime) a) a) ∧ (fsaOverMark (eaOverMark (p.setCtime a.ino.ctime) a) a).ino.ctime = a.ino.ctime := by
  unfold EaMarked FsaMarked eaOverMark fsaOverMark
  cases h1 : a.ino.eaStatus <;> cases h2 : a.fsa <;>
    simp [Obj.setEaSt, Obj.setFsaSt, Obj.setCtime]
theorem eaMerge_spec (o : MgOpts) (p a : Obj) (d : DateT) :
    EaUnion o p a (fsaMerge (fun x y => o.plusFsa y x) (eaMerge o.mergeEa p a) a) ∧ FsaUnion o p a (fsaMerge (fun x y => o.plusFsa y x) (eaMerge o.mergeEa p a) a) ∧
    (fsaMerge (fun x y => o.plusFsa y x) (eaMerge o.mergeEa p a) a).ino.ctime = p.ino.ctime := by
  unfold EaUnion FsaUnion eaMerge fsaMerge
  by_cases h1 : a.ino.eaStatus = .full <;> by_cases h2 : a.fsa = .full <;> by_cases h3 : p.ino.eaStatus = .full <;> by_cases h4 : p.fsa = .full <;>
    simp [h1, h2, h3, h4, Obj.attachEa, Obj.attachFsa, Obj.eaSet]
theorem eaMerge_spec' (o : MgOpts) (p a : Obj) :
    EaUnion o a p (fsaMerge o.plusFsa (eaMerge (fun x y => o.mergeEa y x) (p.setCtime a.ino.ctime) a) a) ∧
    FsaUnion o a p (fsaMerge o.plusFsa (eaMerge (fun x y => o.mergeEa y x) (p.setCtime a.ino.ctime) a) a) ∧
    (fsaMerge o.plusFsa (eaMerge (fun x y => o.mergeEa y x) (p.setCtime a.ino.ctime) a) a).ino.ctime = a.ino.ctime := by
  unfold EaUnion FsaUnion eaMerge fsaMerge
  by_cases h1 : a.ino.eaStatus = .full <;> by_cases h2 : a.fsa = .full <;> by_cases h3 : p.ino.eaStatus = .full <;> by_cases h4 : p.fsa = .full <;>
    simp [h1, h2, h3, h4, Obj.attachEa, Obj.attachFsa, Obj.eaSet, Obj.setCtime]
theorem keepMark_spec (x : Obj) : EaMarked x (keepAttrMark x) ∧ FsaMarked x (keepAttrMark x) ∧ (keepAttrMark x).ino.ctime = x.ino.ctime ∧
    SameButAttr (keepAttrMark x) x := by
  refine ⟨?_, ?_, ?_, ?_⟩
  · unfold EaMarked keepAttrMark
    cases h1 : x.ino.eaStatus <;> cases h2 : x.fsa <;> simp [h1, h2, Obj.setEaSt, Obj.setFsaSt]
  · unfold FsaMarked keepAttrMark
    cases h1 : x.ino.eaStatus <;> cases h2 : x.fsa <;> simp [h1, h2, Obj.setEaSt, Obj.setFsaSt]
  · unfold keepAttrMark
    cases h1 : x.ino.eaStatus <;> cases h2 : x.fsa <;> simp [h2, Obj.setEaSt, Obj.setFsaSt]
  · unfold keepAttrMark
    dsimp only
    (repeat' split) <;> rfl
theorem takeMark_spec (x : Obj) : EaMarked x (takeMark x) ∧ FsaOf x (takeMark x) ∧ (takeMark x).ino.ctime = x.ino.ctime ∧ SameButAttr (takeMark x) x := by
  refine ⟨?_, ?_, ?_, ?_⟩
  · unfold EaMarked takeMark
    cases h1 : x.ino.eaStatus <;> simp [h1, Obj.setEaSt]
  · unfold FsaOf takeMark
    cases h1 : x.ino.eaStatus <;> cases h2 : x.fsa <;> simp [h2, Obj.setEaSt]
  · unfold takeMark
    split <;> rfl
  · unfold takeMark
    split <;> rfl
theorem clear_same (x : Obj) : SameButAttr (keepAttrClear x) x := rfl
theorem SameButAttr.name {z x : Obj} (h : SameButAttr z x) : z.name = x.name := by rw [h]
theorem SameButAttr.kind {z x : Obj} (h : SameButAttr z x) : z.ino.kind = x.ino.kind := by rw [h]

theorem map_ok {α β : Type} {r : Res α} {f : α → β} {b : β} (h : Except.map f r = .ok b) : ∃ a, r = .ok a ∧ b = f a := by
  cases r with
  | error e => cases h
  | ok a => cases h; exact ⟨a, rfl, rfl⟩

theorem takes_not_keeps {d : OverData} (h : KeepsOld d) : ¬ TakesNew d := by
  intro ht
  rcases h with rfl | rfl | rfl <;> rcases ht with h | h <;> cases h

/-- first category, two inodes -/
theorem keep_both {o : MgOpts} {d : OverData} {a : OverEa} {x y : Obj} {z : Option Obj} (hd : KeepsOld d)
    (h : keepAttr o a (keepMark d (some x)) (some y) = .ok z) : ∃ w, z = some w ∧ InodeOf o d a x y w := by
  have hm : ∃ x', keepMark d (some x) = some x' ∧ SameAttr x' x ∧ x' = retained o d x y := by
    rcases hd with rfl | rfl | rfl
    · exact ⟨x, rfl, ⟨rfl, rfl, rfl, rfl, rfl, rfl, rfl, rfl, rfl⟩, rfl⟩
    · exact ⟨x.dropData, rfl, drop_attr x, rfl⟩
    · exact ⟨x, rfl, ⟨rfl, rfl, rfl, rfl, rfl, rfl, rfl, rfl, rfl⟩, rfl⟩
  obtain ⟨x', hx, hs, hr⟩ := hm
  have hy : SameAttr y y := ⟨rfl, rfl, rfl, rfl, rfl, rfl, rfl, rfl, rfl⟩
  rw [hx] at h
  have done : ∀ w, SameButAttr w x' → AttrsOf o a x' y w → (a = .preserve ∨ a = .undefined ∨ a = .preserveMark →
      w = { x' with ino := { x'.ino with eaStatus := w.ino.eaStatus }, fsa := w.fsa }) → InodeOf o d a x y w :=
    fun w h1 h2 h3 => ⟨hr ▸ h1, fun _ => h2.congr hs hy, fun _ h => hr ▸ h3 h⟩
  cases a <;> simp only [keepAttr, efsaOpt] at h
  case ask => cases h
  case preserve => cases h; exact ⟨_, rfl, done _ rfl ⟨rfl, EaOf.self _, FsaOf.self _⟩ (fun _ => rfl)⟩
  case undefined => cases h; exact ⟨_, rfl, done _ rfl ⟨rfl, EaOf.self _, FsaOf.self _⟩ (fun _ => rfl)⟩
  case clear => cases h; exact ⟨_, rfl, done _ (clear_same _) ⟨rfl, rfl⟩ (fun h => by simp at h)⟩
  case preserveMark =>
    cases h
    have := keepMark_spec x'
    exact ⟨_, rfl, done _ this.2.2.2 ⟨this.2.2.1, this.1, this.2.1⟩ (fun _ => by unfold keepAttrMark; dsimp only; (repeat' split) <;> rfl)⟩
  all_goals
    obtain ⟨w, hw, rfl⟩ := map_ok h
    refine ⟨w, rfl, done _ (efsa_same hw) ?_ (fun h => by simp at h)⟩
    cases hw
  case overwrite => have := eaOver_spec x' y; exact ⟨this.2.2, this.1, this.2.1⟩
  case overwriteMark => have := eaOverMark_spec x' y; exact ⟨this.2.2, this.1, this.2.1⟩
  case mergePreserve => have := eaMerge_spec o x' y ⟨0, .s⟩; exact ⟨this.2.2, this.1, this.2.1⟩
  case mergeOverwrite => have := eaMerge_spec' o x' y; exact ⟨this.2.2, this.1, this.2.1⟩

/-- first category, the entry to add is not an inode -/
theorem keep_lone {o : MgOpts} {d : OverData} {a : OverEa} {x : Obj} {z : Option Obj} (hd : KeepsOld d)
    (h : keepAttr o a (keepMark d (some x)) none = .ok z) : ∃ w, z = some w ∧ LoneInode d a x w := by
  have hm : ∃ x', keepMark d (some x) = some x' ∧ SameAttr x' x ∧ x' = (if d = .preserveMark ∨ d = .overwriteMark then x.asAlreadySaved else x) := by
    rcases hd with rfl | rfl | rfl
    · exact ⟨x, rfl, ⟨rfl, rfl, rfl, rfl, rfl, rfl, rfl, rfl, rfl⟩, rfl⟩
    · exact ⟨x.dropData, rfl, drop_attr x, rfl⟩
    · exact ⟨x, rfl, ⟨rfl, rfl, rfl, rfl, rfl, rfl, rfl, rfl, rfl⟩, rfl⟩
  obtain ⟨x', hx, hs, hr⟩ := hm
  rw [hx] at h
  unfold LoneInode
  dsimp only
  rw [← hr]
  have hnt := takes_not_keeps hd
  have hk : d = .preserve ∨ d = .preserveMark ∨ d = .undefined := hd
  cases a <;> simp only [keepAttr, efsaOpt] at h
  case ask => cases h
  case clear =>
    cases h
    exact ⟨_, rfl, fun _ _ => ⟨clear_same _, rfl, rfl⟩, (fun _ h => by cases h), (fun h => absurd h hnt), fun h => absurd ⟨hd, Or.inl rfl⟩ h⟩
  case preserveMark =>
    cases h
    have := keepMark_spec x'
    exact ⟨_, rfl, (fun _ h => by cases h), fun _ _ => ⟨this.2.2.2, this.2.2.1.trans hs.2.2.1, this.1.congr hs, this.2.1.congr hs⟩,
      (fun h => absurd h hnt), fun h => absurd ⟨hd, Or.inr rfl⟩ h⟩
  all_goals
    cases h
    exact ⟨_, rfl, (fun _ h => by cases h), (fun _ h => by cases h), (fun h => absurd h hnt), fun _ _ => rfl⟩

theorem keep_none {o : MgOpts} {d : OverData} {a : OverEa} {y : Option Obj} {z : Option Obj}
    (h : keepAttr o a (keepMark d none) y = .ok z) : z = none := by
  have : keepMark d none = none := by unfold keepMark; split <;> rfl
  rw [this] at h
  cases a <;> simp only [keepAttr, efsaOpt] at h <;> cases h <;> rfl

/-- second category, two inodes -/
theorem take_both {o : MgOpts} {d : OverData} {a : OverEa} {x y : Obj} {z : Option Obj} (hd : TakesNew d)
    (h : takeAttr o a (some x) (takeData o d (some x) (some y)) = .ok z) : ∃ w, z = some w ∧ InodeOf o d a x y w := by
  have hm : ∃ y', takeData o d (some x) (some y) = some y' ∧ SameAttr y' y ∧ y' = retained o d x y := by
    rcases hd with rfl | rfl
    · exact ⟨patched o x y, rfl, patched_attr o x y, rfl⟩
    · refine ⟨(patched o x y).dropData, rfl, ?_, rfl⟩
      have h1 := drop_attr (patched o x y)
      have h2 := patched_attr o x y
      exact ⟨h1.1.trans h2.1, h1.2.1.trans h2.2.1, h1.2.2.1.trans h2.2.2.1, h1.2.2.2.1.trans h2.2.2.2.1, h1.2.2.2.2.1.trans h2.2.2.2.2.1,
        h1.2.2.2.2.2.1.trans h2.2.2.2.2.2.1, h1.2.2.2.2.2.2.1.trans h2.2.2.2.2.2.2.1, h1.2.2.2.2.2.2.2.1.trans h2.2.2.2.2.2.2.2.1,
        h1.2.2.2.2.2.2.2.2.trans h2.2.2.2.2.2.2.2.2⟩
  obtain ⟨y', hy, hs, hr⟩ := hm
  have hx : SameAttr x x := ⟨rfl, rfl, rfl, rfl, rfl, rfl, rfl, rfl, rfl⟩
  rw [hy] at h
  have done : ∀ w, SameButAttr w y' → AttrsOf o a x y' w → InodeOf o d a x y w :=
    fun w h1 h2 => ⟨hr ▸ h1, fun _ => h2.congr hx hs, fun hk => absurd hd (takes_not_keeps hk)⟩
  cases a <;> simp only [takeAttr, efsaOpt] at h
  case ask => cases h
  case overwrite => cases h; exact ⟨_, rfl, done _ rfl ⟨rfl, EaOf.self _, FsaOf.self _⟩⟩
  case clear =>
    cases h
    refine ⟨_, rfl, ?_, fun h => absurd ⟨hd, Or.inl rfl⟩ h, fun hk => absurd hd (takes_not_keeps hk)⟩
    rw [← hr]
    split <;> rfl
  case overwriteMark =>
    cases h
    exact ⟨_, rfl, hr ▸ (takeMark_spec y').2.2.2, fun h => absurd ⟨hd, Or.inr rfl⟩ h, fun hk => absurd hd (takes_not_keeps hk)⟩
  all_goals
    obtain ⟨w, hw, rfl⟩ := map_ok h
    refine ⟨w, rfl, done _ (efsa_same hw) ?_⟩
    cases hw
  case preserve => have := eaOver_spec y' x; exact ⟨this.2.2, this.1, this.2.1⟩
  case undefined => have := eaOver_spec y' x; exact ⟨this.2.2, this.1, this.2.1⟩
  case preserveMark => have := eaOverMark_spec y' x; exact ⟨this.2.2, this.1, this.2.1⟩
  case mergeOverwrite => have := eaMerge_spec o y' x ⟨0, .s⟩; exact ⟨this.2.2, this.1, this.2.1⟩
  case mergePreserve => have := eaMerge_spec' o y' x; exact ⟨this.2.2, this.1, this.2.1⟩

theorem keeps_not_takes {d : OverData} (h : TakesNew d) : ¬ KeepsOld d := fun hk => takes_not_keeps hk h

/-- second category, the entry in place is not an inode -/
theorem take_lone {o : MgOpts} {d : OverData} {a : OverEa} {y : Obj} {z : Option Obj} (hd : TakesNew d)
    (h : takeAttr o a none (takeData o d none (some y)) = .ok z) : ∃ w, z = some w ∧ LoneInode d a y w := by
  have hm : ∃ x', takeData o d none (some y) = some x' ∧ SameAttr x' y ∧ x' = (if d = .preserveMark ∨ d = .overwriteMark then y.asAlreadySaved else y) := by
    rcases hd with rfl | rfl
    · exact ⟨y, rfl, ⟨rfl, rfl, rfl, rfl, rfl, rfl, rfl, rfl, rfl⟩, rfl⟩
    · exact ⟨y.dropData, rfl, drop_attr y, rfl⟩
  obtain ⟨y', hy, hs, hr⟩ := hm
  rw [hy] at h
  unfold LoneInode
  dsimp only
  rw [← hr]
  have hnk := keeps_not_takes hd
  cases a <;> simp only [takeAttr, efsaOpt, takeClear] at h
  case ask => cases h
  case clear => cases h
  case overwriteMark =>
    cases h
    have := takeMark_spec y'
    exact ⟨_, rfl, (fun _ h => by cases h), (fun _ h => by cases h),
      fun _ _ => ⟨this.2.2.2, this.2.2.1.trans hs.2.2.1, this.1.congr hs, this.2.1.congr hs⟩, fun _ h => absurd ⟨hd, rfl⟩ h⟩
  all_goals
    cases h
    exact ⟨_, rfl, (fun h => absurd h hnk), (fun h => absurd h hnk), (fun _ h => by cases h), fun _ _ => rfl⟩

theorem take_none {o : MgOpts} {d : OverData} {a : OverEa} {x : Option Obj} {z : Option Obj}
    (h : takeAttr o a x (takeData o d x none) = .ok z) : z = none := by
  have : takeData o d x none = none := by cases x <;> (unfold takeData patchedOpt; dsimp only; split <;> rfl)
  rw [this] at h
  cases a <;> simp only [takeAttr, efsaOpt] at h
  case clear => 
    unfold takeClear at h
    cases x with
    | none => cases h
    | some x => dsimp only at h; split at h <;> cases h; rfl
  all_goals cases h <;> rfl

end Dar
