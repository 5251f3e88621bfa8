import Verif.Lemmas.RestoreFrame
/- The names created and removed by a restoration. -/
namespace Dar

variable {o : RsOpts} {stars : Nat → Obj} {s s' : RsSt} {e : BEntry} {p w : List Bytes} {hard : Bool} {cat : BCat} {fs0 : FS}

theorem ent_isDir {fs : FS} {p : List Bytes} (h : fs.isDir p = true) : ∃ y, fs.ent p = some (.dir y) := by
  unfold FS.isDir at h
  cases hv : fs.ent p with
  | none => rw [hv] at h; cases h
  | some v =>
    cases v with
    | dir y => exact ⟨y, rfl⟩
    | ino i => rw [hv] at h; cases h
theorem isDir_ent {fs : FS} {p : List Bytes} {y : Obj} (h : fs.ent p = some (.dir y)) : fs.isDir p = true := by unfold FS.isDir; rw [h]
theorem dropLast_ne {w : List Bytes} (h : w ≠ []) : w.dropLast ≠ w := fun hc => by
  have := congrArg List.length hc
  rw [List.length_dropLast] at this
  have := List.length_pos_iff.2 h
  omega

theorem upd_some (fs : FS) (p : List Bytes) (f : Obj → Obj) (q : List Bytes) : (fs.upd p f).ent q = none ↔ fs.ent q = none := by
  by_cases hq : q = p
  · subst hq
    unfold FS.upd
    split <;> simp [*]
  · rw [upd_ent fs p f q hq]
theorem newObj_isDir {fs : FS} {x : Obj} {r : List Bytes} (hn : fs.ent w = none) (h : fs.isDir r = true) : (fs.newObj o w x).isDir r = true := by
  obtain ⟨y, hy⟩ := ent_isDir h
  have hrw : r ≠ w := by rintro rfl; rw [hn] at hy; cases hy
  unfold FS.isDir at h ⊢
  rw [newObj_ent _ _ _ _ _ hrw]
  by_cases hrd : r = w.dropLast
  · rw [if_pos hrd]; exact (isDir_touch _ _).trans h
  · rw [if_neg hrd]; exact h
theorem put_isDir {fs : FS} {now : DateT} {v : FEnt} {r : List Bytes} (hn : fs.ent w = none) (h : fs.isDir r = true) : (fs.put now w v).isDir r = true := by
  obtain ⟨y, hy⟩ := ent_isDir h
  have hrw : r ≠ w := by rintro rfl; rw [hn] at hy; cases hy
  unfold FS.isDir at h ⊢
  rw [put_ent, if_neg hrw]
  by_cases hrd : r = w.dropLast
  · rw [if_pos hrd]; exact (isDir_touch _ _).trans h
  · rw [if_neg hrd]; exact h
theorem touch_none (now : DateT) (v : Option FEnt) : v.map (FEnt.touch now) = none ↔ v = none := by cases v <;> simp
theorem remove_ent (fs : FS) (now : DateT) (p q : List Bytes) (h : ¬ p <+: q) : (fs.remove now p).ent q = if q = p.dropLast then (fs.ent q).map (FEnt.touch now) else fs.ent q := by
  show (if p.isPrefixOf q then none else _) = _
  rw [prefix_bool, decide_eq_false h]; rfl
theorem remove_below (fs : FS) (now : DateT) (p q : List Bytes) (h : p <+: q) : (fs.remove now p).ent q = none := remove_here now fs p q h

/-- the filesystem stays a filesystem -/
theorem FSOk.prim {a b : RsSt} (h : FSOk a.fs) (hp : Prim o e w hard a b) (hw : w ≠ []) : FSOk b.fs := by
  cases hp with
  | make x hh hn hd =>
    refine ⟨?_, fun q hq hne => ?_, fun q i hqi => ?_, fun q i hqi => ?_, fun q y hq hy => ?_⟩
    · obtain ⟨y, hy⟩ := h.root
      exact ent_isDir (newObj_isDir hn (isDir_ent hy))
    · by_cases hqw : q = w
      · subst hqw; exact newObj_isDir hn hd
      · refine newObj_isDir hn (h.parent q hq fun hc => hne ?_)
        show (a.fs.newObj o w x).ent q = none
        rw [newObj_ent _ _ _ _ _ hqw, hc]; simp
    · rcases newObj_names _ _ _ _ _ _ hqi with h3 | ⟨-, h3, h4⟩
      · exact (h.ids q i h3.1).trans_le (newObj_nextLe ..)
      · show i < (a.fs.newObj o w x).next; rw [h4]; omega
    · rcases newObj_names _ _ _ _ _ _ hqi with h3 | ⟨h4, h3, -⟩
      · have := h.kinds q i h3.1
        rwa [newObj_ino _ _ _ _ _ (Nat.ne_of_lt (h.ids q i h3.1))]
      · subst h3; subst h4
        unfold FS.newObj FS.newDir FS.newIno at hqi ⊢
        split at hqi
        · simp [FS.put] at hqi
        · rename_i hk; rw [if_neg hk]; simpa [RsOpts.blank] using hk
    · rcases newObj_dir _ _ _ _ _ _ hy with ⟨-, h1⟩ | ⟨-, z, h1, h2⟩
      · exact h1
      · rw [h2]; exact h.dirs q z hq h1
  | link m k j v hh he hl hi hn hd =>
    refine ⟨?_, fun q hq hne => ?_, fun q i hqi => ?_, fun q i hqi => ?_, fun q y hq hy => ?_⟩
    · obtain ⟨y, hy⟩ := h.root
      exact ent_isDir (put_isDir hn (isDir_ent hy))
    · by_cases hqw : q = w
      · subst hqw; exact put_isDir hn hd
      · refine put_isDir hn (h.parent q hq fun hc => hne ?_)
        show (a.fs.put o.now w (.ino j)).ent q = none
        rw [put_ent, if_neg hqw, hc]; simp
    · rcases put_names _ _ _ _ _ _ hqi with h3 | ⟨-, h3⟩
      · exact h.ids q i h3.1
      · rw [h3]; exact h.ids _ _ hi
    · rcases put_names _ _ _ _ _ _ hqi with h3 | ⟨-, h3⟩
      · exact h.kinds q i h3.1
      · rw [h3]; exact h.kinds _ _ hi
    · have hy' : (a.fs.put o.now w (.ino j)).ent q = some (.dir y) := hy
      rw [put_ent] at hy'
      split at hy'
      · cases hy'
      · split at hy'
        · obtain ⟨z, h1, rfl⟩ := touch_dir _ _ _ hy'; exact h.dirs q z hq h1
        · exact h.dirs q y hq hy'
  | remove hh =>
    have hsome : ∀ q, (a.fs.remove o.now w).ent q ≠ none → ¬ w <+: q ∧ a.fs.ent q ≠ none := by
      intro q hq
      have h1 : ¬ w <+: q := fun hc => hq (remove_below _ _ _ _ hc)
      refine ⟨h1, fun hc => hq ?_⟩
      rw [remove_ent _ _ _ _ h1, hc]; simp
    refine ⟨?_, fun q hq hne => ?_, fun q i hqi => h.ids q i (remove_names _ _ _ _ _ hqi), fun q i hqi => h.kinds q i (remove_names _ _ _ _ _ hqi), fun q y hq hy => ?_⟩
    · obtain ⟨y, hy⟩ := h.root
      have : (a.fs.remove o.now w).isDir [] = true := by
        rw [remove_keeps _ _ _ _ (fun hc => hw (List.prefix_nil.1 hc))]; exact isDir_ent hy
      exact ent_isDir this
    · obtain ⟨h1, h2⟩ := hsome q hne
      show (a.fs.remove o.now w).isDir _ = true
      rw [remove_keeps _ _ _ _ (fun hc => h1 (hc.trans (List.dropLast_prefix _)))]
      exact h.parent q hq h2
    · have hy' : (a.fs.remove o.now w).ent q = some (.dir y) := hy
      obtain ⟨h1, h2⟩ := hsome q (by rw [hy']; simp)
      rw [remove_ent _ _ _ _ h1] at hy'
      split at hy'
      · obtain ⟨z, h1, rfl⟩ := touch_dir _ _ _ hy'; exact h.dirs q z hq h1
      · exact h.dirs q y hq hy'
  | update f hk =>
    refine ⟨?_, fun q hq hne => ?_, fun q i hqi => ?_, fun q i hqi => ?_, fun q y hq hy => ?_⟩
    · obtain ⟨y, hy⟩ := h.root
      have : (a.fs.upd w f).isDir [] = true := by rw [upd_isDir]; exact isDir_ent hy
      exact ent_isDir this
    · show (a.fs.upd w f).isDir _ = true
      rw [upd_isDir]
      exact h.parent q hq fun hc => hne ((upd_some _ _ _ _).2 hc)
    · show i < (a.fs.upd w f).next
      rw [upd_next]; exact h.ids q i ((upd_ino_ent _ _ _ _ _).1 hqi)
    · have hqi' := (upd_ino_ent _ _ _ _ _).1 hqi
      have hk' : ((a.fs.upd w f).ino i).ino.kind = (a.fs.ino i).ino.kind := by
        unfold FS.upd
        split
        · rfl
        · rfl
        · dsimp only
          split
          · rw [hk]; rename_i h; rw [h]
          · rfl
      show ((a.fs.upd w f).ino i).ino.kind ≠ _
      rw [hk']; exact h.kinds q i hqi'
    · obtain ⟨z, h1, h2⟩ := upd_dir _ _ _ _ _ hy
      rcases h2 with rfl | rfl
      · exact h.dirs q y hq h1
      · rw [hk]; exact h.dirs q z hq h1
  | record m k q b he hq => exact h
  | forget k => exact h
  | flag => rw [flag_eq]; exact h

theorem FSOk.prims {a b : RsSt} (h : FSOk a.fs) (hp : Prims o e w hard a b) (hw : w ≠ []) : FSOk b.fs := hp.inv (I := fun s => FSOk s.fs) (fun _ _ hi hq => hi.prim hq hw) h

/-- the names after elementary changes -/
theorem prims_names {a b : RsSt} (hp : Prims o e w hard a b) : ∀ q, b.fs.ent q ≠ none → a.fs.ent q ≠ none ∨ q = w := by
  refine hp.inv (I := fun b => ∀ q, b.fs.ent q ≠ none → a.fs.ent q ≠ none ∨ q = w) ?_ (fun q h => Or.inl h)
  intro c d hi hcd q hq
  cases hcd with
  | make x hh hn hd =>
    by_cases hqw : q = w
    · exact Or.inr hqw
    · refine hi q fun hc => hq ?_
      show (c.fs.newObj o w x).ent q = none
      rw [newObj_ent _ _ _ _ _ hqw, hc]; simp
  | link m k j v hh he hl hi' hn hd =>
    by_cases hqw : q = w
    · exact Or.inr hqw
    · refine hi q fun hc => hq ?_
      show (c.fs.put o.now w (.ino j)).ent q = none
      rw [put_ent, if_neg hqw, hc]; simp
  | remove hh =>
    refine hi q fun hc => hq ?_
    show (c.fs.remove o.now w).ent q = none
    by_cases h1 : w <+: q
    · exact remove_below _ _ _ _ h1
    · rw [remove_ent _ _ _ _ h1, hc]; simp
  | update f hk => exact hi q fun hc => hq ((upd_some _ _ _ _).2 hc)
  | record m k q' b he hq' => exact hi q hq
  | forget k => exact hi q hq
  | flag => rw [flag_eq] at hq; exact hi q hq

/-- the names that stay -/
theorem prims_stay {a b : RsSt} (hp : Prims o e w hard a b) (q : List Bytes) (hq : hard = true → ¬ w <+: q) (h : a.fs.ent q ≠ none) : b.fs.ent q ≠ none := by
  refine hp.inv (I := fun b => b.fs.ent q ≠ none) ?_ h
  intro c d hi hcd
  cases hcd with
  | make x hh hn hd =>
    have hqw : q ≠ w := by rintro rfl; exact hi hn
    intro hc
    have hc' : (c.fs.newObj o w x).ent q = none := hc
    rw [newObj_ent _ _ _ _ _ hqw] at hc'
    split at hc'
    · exact hi ((touch_none _ _).1 hc')
    · exact hi hc'
  | link m k j v hh he hl hi' hn hd =>
    have hqw : q ≠ w := by rintro rfl; exact hi hn
    intro hc
    have hc' : (c.fs.put o.now w (.ino j)).ent q = none := hc
    rw [put_ent, if_neg hqw] at hc'
    split at hc'
    · exact hi ((touch_none _ _).1 hc')
    · exact hi hc'
  | remove hh =>
    intro hc
    have hc' : (c.fs.remove o.now w).ent q = none := hc
    rw [remove_ent _ _ _ _ (hq hh)] at hc'
    split at hc'
    · exact hi ((touch_none _ _).1 hc')
    · exact hi hc'
  | update f hk => exact fun hc => hi ((upd_some _ _ _ _).1 hc)
  | record m k q' b he hq' => exact hi
  | forget k => exact hi
  | flag => rw [flag_eq]; exact hi

/-- the state after a turn, but for the counters and the directories entered -/
theorem turn_fs {b : Bool} (ht : TurnDone o e hard s s' b) : ∃ s1, Prims o e (s.cdir ++ [e.name]) hard s s1 ∧ s'.fs = s1.fs := by
  cases ht with
  | passed => exact ⟨s, .refl, rfl⟩
  | failed s1 st h1 => exact ⟨s1, h1, rfl⟩
  | written s1 st h1 => exact ⟨s1, h1, rfl⟩
  | entered s1 st x c f he h1 => exact ⟨s1, h1, rfl⟩

/-- the end of a directory changes the inode of a directory only -/
theorem leave_fs {x : Obj} {f : Bool} {l : List (Obj × Bool)} (hst : Stacked s) (hs : s.stack = (x, f) :: l) (hl : rsLeave o s = .ok s') :
    ∃ s1, Prims o (.dir x []) s.cdir false s s1 ∧ s'.fs = s1.fs := by
  have htop := hst.top hs
  obtain ⟨x', f', l', h1, h2⟩ := rsLeave_done hl
  rw [hs] at h1; cases h1
  rw [htop] at h2
  rcases h2 with ⟨-, rfl⟩ | ⟨-, hex, rfl⟩
  · exact ⟨s, .refl, rfl⟩
  · exact ⟨{ s with fs := s.fs.upd s.cdir (fun y => o.ownerPerm x (o.date x y)) }, (Prim.update s _ (fun y => by rw [ownerPerm_kind, date_kind])).one, rfl⟩

theorem cdir_ne {x : Obj} {f : Bool} {l : List (Obj × Bool)} (hst : Stacked s) (hs : s.stack = (x, f) :: l) : s.cdir ≠ [] := by
  unfold Stacked at hst; rw [hst, hs]; simp

/-- what a function did, whatever its outcome -/
def Leaves {α : Type} (f : α → RsSt) (r : RsM α) (P : RsSt → Prop) : Prop :=
  match r with
  | .ok a => P (f a)
  | .error (_, s) => P s

theorem Runs.leaves {α : Type} {f : α → RsSt} {r : RsM α} {P : RsSt → Prop} (h : Runs o e p hard s f r) (hP : ∀ s1, Prims o e p hard s s1 → P s1) : Leaves f r P := by
  cases r with
  | ok a => exact hP _ h
  | error er => exact hP _ h

theorem write_missing (hn : s.fs.ent (s.cdir ++ [e.name]) = none) (hc : ¬ Creatable o stars e) : Leaves Prod.fst (s.write o stars e) (fun s1 => s1.fs = s.fs) := by
  have hob : s.fs.obj (s.cdir ++ [e.name]) = none := obj_none.2 hn
  have hi : ∀ x, e.inodeOf stars = some x → Leaves Prod.fst (s.writeInode o e x) (fun s1 => s1.fs = s.fs) := by
    intro x hx
    unfold RsSt.writeInode
    simp only [hob]
    by_cases hst : x.ino.status = .delta ∨ x.ino.status = .inodeOnly
    · rw [if_pos hst]; rfl
    · rw [if_neg hst]
      have hno : ¬ ((x.ino.status = .saved ∨ s.knows e = true ∨ e.isDir = true) ∧ o.onlyDeleted = false) := by
        rintro ⟨h1, h2⟩
        refine hc ⟨h2, x, hx, fun h => hst (Or.inl h), fun h => hst (Or.inr h), ?_⟩
        rcases h1 with h1 | h1 | h1
        · exact Or.inl h1
        · exact Or.inr (Or.inr (by cases e <;> simp_all [RsSt.knows]))
        · exact Or.inr (Or.inl h1)
      unfold RsSt.writeNew
      rw [if_neg hno]
      show (s.enter e x none .noData).fs = s.fs
      unfold RsSt.enter
      dsimp only
      split <;> rfl
  unfold RsSt.write
  cases e with
  | node x => exact hi x rfl
  | dir x c => exact hi x rfl
  | mirage n k => exact hi _ rfl
  | detruit n k t => simp only; unfold RsSt.writeDet; simp only [hob]; rfl
  | ignored n => rfl
  | ignoredDir x => rfl

theorem turn_leaves {b : Bool} {P : RsSt → Prop} (hP : ∀ s1 s2 : RsSt, s2.fs = s1.fs → P s1 → P s2) (h0 : P s) (h : Considered o (s.cdir ++ [e.name]) e → Leaves Prod.fst (s.write o stars e) P)
    (ht : rsTurn o stars s e = .ok (s', b)) : P s' := by
  by_cases hcon : Considered o (s.cdir ++ [e.name]) e
  · have h := h hcon
    unfold rsTurn at ht
    by_cases hd : (e.isDet && o.notDeleted) = true
    · rw [if_pos hd] at ht; cases ht; exact h0
    rw [if_neg hd] at ht
    by_cases hcv : (o.cov (s.cdir ++ [e.name]) e && (!o.onlyDeleted || e.isDir || e.isDet)) = true
    · rw [if_pos hcv] at ht
      cases hr : s.write o stars e with
      | error er =>
        obtain ⟨er, s1⟩ := er
        rw [hr] at h ht
        have h' : P s1 := h
        cases er <;> first | (cases ht; exact hP s1 _ rfl h') | cases ht
      | ok r =>
        obtain ⟨s1, d⟩ := r
        rw [hr] at h ht
        cases ht
        exact hP s1 _ rfl h
    · rw [if_neg hcv] at ht; cases ht; exact hP s _ rfl h0
  · rw [not_considered hcon ht]; exact hP s _ rfl h0

/-- a file put in the place of another one is there afterwards -/
theorem replace_here {x y : Obj} (hf : FSOk s.fs) (hw : w ≠ []) (hne : s.fs.ent w ≠ none) (hx : x.ino.status = .saved) :
    ∃ s1, s.replace o e x y w = .ok s1 ∧ s1.fs.ent w ≠ none := by
  have hd : (s.fs.remove o.now w).isDir w.dropLast = true := by
    rw [remove_keeps _ _ _ _ (fun hc => dropLast_ne hw ((List.dropLast_prefix w).eq_of_length (Nat.le_antisymm (List.dropLast_prefix w).length_le hc.length_le)))]
    exact hf.parent w hw hne
  have hnew : ∀ fs : FS, (fs.newObj o w x).ent w ≠ none := by
    intro fs
    unfold FS.newObj FS.newDir FS.newIno
    split <;> simp [FS.put]
  have hcr : ∀ t : RsSt, t.fs = s.fs.remove o.now w → ∃ s1, t.create o w x = .ok s1 ∧ s1.fs.ent w ≠ none := by
    intro t ht
    rw [create_newObj, ht, if_pos hd]
    exact ⟨_, rfl, hnew _⟩
  have hcf : ∀ (t : RsSt) (k : Nat), t.fs = s.fs.remove o.now w → ∃ s1, t.createFirst o w k x = .ok s1 ∧ s1.fs.ent w ≠ none := by
    intro t k ht
    obtain ⟨s1, h1, h2⟩ := hcr t ht
    unfold RsSt.createFirst
    rw [h1]
    exact ⟨_, rfl, h2⟩
  have hm : ∃ s1, ({ s with fs := s.fs.remove o.now w } : RsSt).makeFile o e x w = .ok s1 ∧ s1.fs.ent w ≠ none := by
    unfold RsSt.makeFile
    cases e with
    | mirage n k =>
      simp only
      split
      · exact hcf _ k rfl
      · split
        · rw [if_pos hd]
          exact ⟨_, rfl, by simp [FS.put]⟩
        · exact hcf _ k rfl
        · rw [if_pos hx]; exact hcf _ k rfl
    | _ => exact hcr _ rfl
  obtain ⟨s1, h1, h2⟩ := hm
  unfold RsSt.replace
  rw [h1]
  refine ⟨_, rfl, ?_⟩
  unfold RsSt.setFsa
  intro hc
  have hc' := (upd_some _ _ _ _).1 hc
  by_cases hy : y.eas = []
  · simp only [hy, if_true] at hc'; exact h2 hc'
  · simp only [hy, if_false] at hc'; exact h2 ((upd_some _ _ _ _).1 hc')

theorem content_here {x y : Obj} {ad : OverData} (hf : FSOk s.fs) (hw : w ≠ []) (hne : s.fs.ent w ≠ none) (hr : ad ≠ .remove) :
    Leaves Prod.fst (s.overContent o e x y w ad) (fun s1 => s1.fs.ent w ≠ none) := by
  have hs : Leaves Prod.fst (.ok (s, RsDone.policy) : RsM (RsSt × RsDone)) (fun s1 => s1.fs.ent w ≠ none) := hne
  unfold RsSt.overContent
  by_cases h1 : x.ino.status = .saved ∨ x.ino.status = .inodeOnly
  · rw [if_pos h1]
    unfold RsSt.overData
    simp only
    have hp : Leaves Prod.fst (if (e.isDir && !(sameInPlace x y)) = true then s.throw .range else (.ok (s, .policy) : RsM (RsSt × RsDone))) (fun s1 => s1.fs.ent w ≠ none) := by
      split <;> exact hne
    have ho : Leaves Prod.fst (if ((e.isDir || decide (x.ino.status = .inodeOnly)) && sameInPlace x y) = true then (.ok ({ s with fs := s.fs.upd w (o.widen x) }, .restored) : RsM (RsSt × RsDone))
      else if x.ino.status = .inodeOnly then s.throw .range
      else do
        let s ← s.replace o e x y w
        .ok (s, .restored)) (fun s1 => s1.fs.ent w ≠ none) := by
      split
      · exact fun hc => hne ((upd_some _ _ _ _).1 hc)
      · split
        · exact hne
        · rename_i h2
          obtain ⟨s1, h3, h4⟩ := replace_here (o := o) (e := e) (y := y) hf hw hne (h1.resolve_right h2)
          rw [h3]
          exact h4
    cases ad with
    | preserve => exact hp
    | preserveMark => exact hp
    | overwrite => exact ho
    | overwriteMark => exact ho
    | remove => exact absurd rfl hr
    | undefined => exact hne
    | ask => exact hne
  · rw [if_neg h1]
    by_cases h2 : x.ino.status = .delta
    · rw [if_pos h2]
      split
      · split
        · exact hne
        · exact fun hc => hne ((upd_some _ _ _ _).1 hc)
      · exact hne
    · rw [if_neg h2]
      cases e with
      | mirage n k => simp only; split <;> exact hne
      | _ => exact hne

/-- what exists at the path of an entry still exists once the entry is written, unless it is a deletion or the policy says to remove -/
theorem write_here (hf : FSOk s.fs) (hne : s.fs.ent (s.cdir ++ [e.name]) ≠ none) (hd : e.isDet = false) (hr : ∀ y ae, o.over y e ≠ .ok (.remove, ae)) :
    Leaves Prod.fst (s.write o stars e) (fun s1 => s1.fs.ent (s.cdir ++ [e.name]) ≠ none) := by
  have hw : s.cdir ++ [e.name] ≠ [] := by simp
  have hy : ∃ y, s.fs.obj (s.cdir ++ [e.name]) = some y := by
    cases hob : s.fs.obj (s.cdir ++ [e.name]) with
    | none => exact absurd (obj_none.1 hob) hne
    | some y => exact ⟨y, rfl⟩
  obtain ⟨y, hy⟩ := hy
  have hi : ∀ x, Leaves Prod.fst (s.writeInode o e x) (fun s1 => s1.fs.ent (s.cdir ++ [e.name]) ≠ none) := by
    intro x
    unfold RsSt.writeInode
    simp only [hy]
    cases hov : o.over y e with
    | error er => exact hne
    | ok a =>
      obtain ⟨ad, ae⟩ := a
      simp only
      have hc := content_here (o := o) (e := e) (x := x) (y := y) (ad := ad) hf hw hne (by rintro rfl; exact hr y ae hov)
      have hwo : Leaves Prod.fst (s.writeOver o e x y (s.cdir ++ [e.name]) ad ae) (fun s1 => s1.fs.ent (s.cdir ++ [e.name]) ≠ none) := by
        cases hoc : s.overContent o e x y (s.cdir ++ [e.name]) ad with
        | error er =>
          rw [hoc] at hc
          unfold RsSt.writeOver
          rw [hoc]
          exact hc
        | ok r =>
          obtain ⟨s1, d⟩ := r
          rw [hoc] at hc
          exact (runs_over_rest (hard := false) x y ad ae hoc).leaves (fun s2 h2 => prims_stay h2 _ (by intro h; cases h) hc)
      cases hwr : s.writeOver o e x y (s.cdir ++ [e.name]) ad ae with
      | error er => rw [hwr] at hwo; exact hwo
      | ok r =>
        obtain ⟨s1, d⟩ := r
        rw [hwr] at hwo
        have hfs : (s1.enter e x (some y) d).fs = s1.fs := by unfold RsSt.enter; dsimp only; split <;> rfl
        show (s1.enter e x (some y) d).fs.ent _ ≠ none
        rw [hfs]; exact hwo
  unfold RsSt.write
  cases e with
  | node x => exact hi x
  | dir x c => exact hi x
  | mirage n k => exact hi _
  | detruit n k t => cases hd
  | ignored n => exact hne
  | ignoredDir x => exact hne

/-- the state of a walk, as far as names are concerned -/
structure NamesSt (o : RsOpts) (cat : BCat) (fs0 : FS) (s : RsSt) : Prop where
  ok : FSOk s.fs
  stk : Stacked s
  news : ∀ p, s.fs.ent p ≠ none → fs0.ent p ≠ none ∨ MayCreate o cat p
  olds : ∀ p, fs0.ent p ≠ none → s.fs.ent p ≠ none ∨ MayRemove o cat p

theorem names_inv (o : RsOpts) (cat : BCat) (fs0 : FS) : WalkInv o cat.stars (fun d e => treeAt cat.root (d ++ [e.name]) = some e ∧ BEntry.Distinct e) (NamesSt o cat fs0) := by
  refine ⟨fun s e s' b hi hce ht => ?_, fun s s' x f l hi hs hl => ?_, fun d x c hce hcov e he => ?_⟩
  · have htd := rsTurn_done ht
    obtain ⟨s1, hp1, hf1⟩ := turn_fs htd
    have hw : s.cdir ++ [e.name] ≠ [] := by simp
    refine ⟨?_, hi.stk.turn htd, fun p hp => ?_, fun p hp => ?_⟩
    · rw [hf1]; exact hi.ok.prims hp1 hw
    · have hp' := hp
      rw [hf1] at hp'
      rcases prims_names hp1 p hp' with h1 | h1
      · exact hi.news p h1
      · by_cases hne : s.fs.ent p = none
        · right
          by_contra hno
          refine hp (turn_leaves (P := fun s1 => s1.fs.ent p = none) (fun a b hab ha => by rw [hab]; exact ha) hne (fun hcon => ?_) ht)
          subst h1
          have hwm := write_missing (stars := cat.stars) hne (o := o) (fun hcr => hno ⟨e, hce.1, hcon, hcr⟩)
          cases hr : s.write o cat.stars e with
          | error er => rw [hr] at hwm; show er.2.fs.ent _ = none; rw [show er.2.fs = s.fs from hwm]; exact hne
          | ok r => rw [hr] at hwm; show r.1.fs.ent _ = none; rw [show r.1.fs = s.fs from hwm]; exact hne
        · exact hi.news p hne
    · rcases hi.olds p hp with h1 | h1
      · by_cases hrm : MayRemove o cat p
        · exact Or.inr hrm
        left
        by_cases hpre : s.cdir ++ [e.name] <+: p
        · refine turn_leaves (P := fun s1 => s1.fs.ent p ≠ none) (fun a b hab ha => by rw [hab]; exact ha) h1 (fun hcon => ?_) ht
          by_cases heq : s.cdir ++ [e.name] = p
          · subst heq
            refine write_here hi.ok h1 ?_ (fun y ae hov => hrm ⟨_, e, hpre, hce.1, hcon, Or.inr (Or.inl ⟨y, ae, hov⟩)⟩)
            cases hdt : e.isDet with
            | false => rfl
            | true => exact absurd ⟨_, e, hpre, hce.1, hcon, Or.inl hdt⟩ hrm
          · have hdir : ∃ x c, e = .dir x c ∧ x.ino.kind = .dir := by
              by_contra hno
              exact hrm ⟨_, e, hpre, hce.1, hcon, Or.inr (Or.inr ⟨heq, hno⟩)⟩
            obtain ⟨x, c, rfl, hk⟩ := hdir
            obtain ⟨y, hy⟩ := ent_isDir (hi.ok.above p.length (by omega) h1 hpre heq)
            have hy2 : s.fs.obj (s.cdir ++ [x.name]) = some y := by
              unfold FS.obj; rw [show s.fs.ent (s.cdir ++ [x.name]) = some (.dir y) from hy]
            have hws := write_soft cat.stars s x y c hk hy2 (hi.ok.dirs _ _ hw hy) (o := o) (fun ad ae hov had => by
              subst had; exact hrm ⟨_, _, hpre, hce.1, hcon, Or.inr (Or.inl ⟨y, ae, hov⟩)⟩)
            unfold WriteDone at hws
            cases hr : s.write o cat.stars (.dir x c) with
            | error er =>
              rw [hr] at hws
              exact prims_stay hws p (by intro h; cases h) h1
            | ok r =>
              rw [hr] at hws
              obtain ⟨s1, h5, h6⟩ := hws
              have := prims_stay h5 p (by intro h; cases h) h1
              rcases h6 with h6 | ⟨_, _, _, h6⟩
              · show r.1.fs.ent p ≠ none; rw [h6]; exact this
              · show r.1.fs.ent p ≠ none; rw [h6]; exact this
        · rw [hf1]; exact prims_stay hp1 p (fun _ => hpre) h1
      · exact Or.inr h1
  · obtain ⟨s1, hp1, hf1⟩ := leave_fs hi.stk hs hl
    refine ⟨?_, hi.stk.leave hl, fun p hp => ?_, fun p hp => ?_⟩
    · rw [hf1]; exact hi.ok.prims hp1 (cdir_ne hi.stk hs)
    · rw [hf1] at hp
      rcases prims_names hp1 p hp with h1 | h1
      · exact hi.news p h1
      · have : s.fs.ent p ≠ none := by
          obtain ⟨x', f', l', h1', h2⟩ := rsLeave_done hl
          rw [hs] at h1'; cases h1'
          rw [hi.stk.top hs] at h2
          rcases h2 with ⟨-, rfl⟩ | ⟨-, hex, rfl⟩
          · rw [← hf1] at hp; exact hp
          · rw [← hf1] at hp; exact fun hc => hp ((upd_some _ _ _ _).2 hc)
        exact hi.news p this
    · rcases hi.olds p hp with h1 | h1
      · left; rw [hf1]; exact prims_stay hp1 p (by intro h; cases h) h1
      · exact Or.inr h1
  · have hdl : BEntry.DistinctL c := by have := hce.2; unfold BEntry.Distinct at this; exact this
    have c1 : treeAt cat.root (d ++ [x.name]) = some (.dir x c) := hce.1
    refine ⟨?_, dist_mem hdl he⟩
    rw [treeAt_app _ _ _ _ (by simp), c1]
    exact findChild_mem hdl he
where
  dist_mem : ∀ {l : List BEntry} {e : BEntry}, BEntry.DistinctL l → e ∈ l → BEntry.Distinct e
    | [], e, _, he => by simp at he
    | a :: l, e, hd, he => by
      unfold BEntry.DistinctL at hd
      rcases List.mem_cons.1 he with rfl | he
      · exact hd.1
      · exact dist_mem hd.2.2 he

end Dar
