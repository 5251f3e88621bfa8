import Verif.Lemmas.RestoreFrame
/- A restoration that preserves the existing files. -/
namespace Dar

variable {o : RsOpts} {stars : Nat → Obj} {s s' : RsSt} {e : BEntry} {p w : List Bytes} {hard : Bool} {cat : BCat} {fs0 : FS}

theorem date_self (o : RsOpts) (y : Obj) : o.date y y = y := by
  unfold RsOpts.date; split <;> rfl

/-- an existing inode is left as it is -/
theorem over_preserve {x y : Obj} {ad : OverData} {ae : OverEa} (hy : s.fs.obj p = some y) (ha : ad = .preserve ∨ ad = .preserveMark) (hae : ae = .preserve ∨ ae = .preserveMark)
    (hx : x.ino.status ≠ .delta) (hm : e.isMirage = true → x.ino.status = .saved) :
    match s.writeOver o e x y p ad ae with
    | .ok (s1, d) => s1 = s ∧ d ≠ .restored
    | .error (_, s1) => s1 = s := by
  have hc : match s.overContent o e x y p ad with
      | .ok (s1, d) => s1 = s ∧ d ≠ .restored
      | .error (_, s1) => s1 = s := by
    unfold RsSt.overContent
    by_cases h1 : x.ino.status = .saved ∨ x.ino.status = .inodeOnly
    · rw [if_pos h1]
      unfold RsSt.overData
      rcases ha with rfl | rfl <;> simp only <;> cases hcc : (e.isDir && !sameInPlace x y) <;> simp [RsSt.throw]
    · rw [if_neg h1, if_neg hx]
      cases e with
      | mirage n k => exact absurd (Or.inl (hm rfl)) h1
      | _ => simp
  unfold RsSt.writeOver
  cases hoc : s.overContent o e x y p ad with
  | error er => rw [hoc] at hc; exact hc
  | ok r =>
    obtain ⟨s1, d⟩ := r
    rw [hoc] at hc
    obtain ⟨rfl, hd⟩ := hc
    have hea : s1.overEa o e x y p ae = .ok (s1, false) := by
      unfold RsSt.overEa; rcases hae with rfl | rfl <;> simp
    have hfa : s1.overFsa o e x y p ae = .ok (s1, false) := by
      unfold RsSt.overFsa; rcases hae with rfl | rfl <;> simp
    have hdt : s1.setDate o y p = .ok s1 := by
      unfold RsSt.setDate
      have hne : s1.fs.ent p ≠ none := by intro hc; rw [obj_none.2 hc] at hy; cases hy
      cases hv : s1.fs.ent p with
      | none => exact absurd hv hne
      | some v =>
        simp only
        rw [upd_same hy (date_self o y)]
    have hr : ad ≠ .remove := by rcases ha with rfl | rfl <;> simp
    have e1 : (if ad ≠ .remove ∧ x.eaSaved = true then caught s1 (s1.overEa o e x y p ae) else .ok (s1, false)) = .ok (s1, false) := by
      rw [hea]; unfold caught; split <;> rfl
    have e2 : (if ad ≠ .remove ∧ x.fsa = .full then caught s1 (s1.overFsa o e x y p ae) else .ok (s1, false)) = .ok (s1, false) := by
      rw [hfa]; unfold caught; split <;> rfl
    simp only [bind, Except.bind, e1, e2, hdt, hd, hr, false_or, if_false]
    by_cases c3 : x.fsa = .full ∨ x.eaSaved = true ∨ x.ino.status = .delta ∨ x.ino.status = .saved ∨ x.ino.status = .inodeOnly
    · simp only [c3, if_true]; exact ⟨rfl, hd⟩
    · simp only [c3, if_false]; exact ⟨rfl, hd⟩

/-- the invariant -/
structure PresInv (cat : BCat) (fs0 : FS) (s : RsSt) : Prop where
  inos : ∀ p i, fs0.ent p = some (.ino i) → s.fs.ent p = some (.ino i)
  same : ∀ i, i < fs0.next → s.fs.ino i = fs0.ino i
  dirs : ∀ p y, fs0.ent p = some (.dir y) → ∃ z, s.fs.ent p = some (.dir z) ∧ SameButOwner y z ∧ (Quiet cat fs0 p → z = y)
  news : ∀ p i, fs0.ent p = none → s.fs.ent p = some (.ino i) → fs0.next ≤ i
  next : fs0.next ≤ s.fs.next
  labs : ∀ k v, s.label k = some v → fs0.ent v.1 = none
  kinds : ∀ p i, s.fs.ent p = some (.ino i) → (s.fs.ino i).ino.kind ≠ .dir
  ids : ∀ p i, s.fs.ent p = some (.ino i) → i < s.fs.next
  stk : Stacked s
  open_ : ∀ q, q ≠ [] → q <+: s.cdir → ∀ i, fs0.ent q ≠ some (.ino i)
  flags : ∀ a x f b, s.stack = a ++ (x, f) :: b → f = true →
    fs0.ent ((b.map (·.1.name)).reverse ++ [x.name]) = none ∨ ¬ Quiet cat fs0 ((b.map (·.1.name)).reverse ++ [x.name])

theorem sbo_refl (y : Obj) : SameButOwner y y := rfl
theorem sbo_owner (o : RsOpts) (x : Obj) {y z : Obj} (h : SameButOwner y z) : SameButOwner y (o.ownerPerm x (o.date x z)) := by
  unfold SameButOwner at h ⊢
  rw [h]
  unfold RsOpts.ownerPerm RsOpts.date
  dsimp only
  split <;> split <;> split <;> rfl
theorem sbo_touch {now : DateT} {y z : Obj} (h : SameButOwner y z) : SameButOwner y { z with ino := { z.ino with mtime := now } } := by
  unfold SameButOwner at h ⊢
  rw [h]

theorem upd_kinds {fs : FS} {f : Obj → Obj} (hk : ∀ y, (f y).ino.kind = y.ino.kind) (p : List Bytes) (i : Nat) : ((fs.upd p f).ino i).ino.kind = (fs.ino i).ino.kind := by
  unfold FS.upd
  split
  · rfl
  · rfl
  · dsimp only
    split
    · rw [hk]; rename_i h; rw [h]
    · rfl

/-- the elementary changes at a path where there was nothing -/
theorem PresInv.prim {a b : RsSt} {n : Bytes} (hw : FSOk fs0) (h : PresInv cat fs0 a) (hp : Prim o e (a.cdir ++ [n]) hard a b) (hn : fs0.ent (a.cdir ++ [n]) = none)
    (ht : ∃ e, treeAt cat.root (a.cdir ++ [n]) = some e) : PresInv cat fs0 b := by
  have hq : ¬ Quiet cat fs0 a.cdir := fun hc => by obtain ⟨e, he⟩ := ht; exact (hc n e he).1 hn
  have hdl : (a.cdir ++ [n]).dropLast = a.cdir := List.dropLast_concat
  have hne : ∀ q v, fs0.ent q = some v → q ≠ a.cdir ++ [n] := by rintro q v hv rfl; rw [hn] at hv; cases hv
  have tdir : ∀ q y, fs0.ent q = some (.dir y) → ∃ z, (a.fs.ent q).map (FEnt.touch o.now) = some (.dir z) ∧ SameButOwner y z := by
    intro q y hy
    obtain ⟨z, h1, h2, -⟩ := h.dirs q y hy
    exact ⟨_, by rw [h1]; rfl, sbo_touch h2⟩
  cases hp with
  | make x hh hn' hd =>
    refine ⟨fun q i hqi => ?_, fun i hi => ?_, fun q y hy => ?_, fun q i hq0 hqi => ?_, h.next.trans (newObj_nextLe ..), h.labs, fun q i hqi => ?_, fun q i hqi => ?_, h.stk, h.open_, h.flags⟩
    · rw [newObj_ent _ _ _ _ _ (hne q _ hqi)]
      split
      · exact (touch_ino _ _ _).2 (h.inos q i hqi)
      · exact h.inos q i hqi
    · rw [newObj_ino _ _ _ _ _ (by have := h.next; omega)]; exact h.same i hi
    · rw [newObj_ent _ _ _ _ _ (hne q _ hy), hdl]
      by_cases hqd : q = a.cdir
      · rw [if_pos hqd]
        obtain ⟨z, h1, h2⟩ := tdir q y hy
        exact ⟨z, h1, h2, fun hc => absurd (hqd ▸ hc) hq⟩
      · rw [if_neg hqd]; exact h.dirs q y hy
    · rcases newObj_names _ _ _ _ _ _ hqi with h3 | ⟨-, h3, -⟩
      · exact h.news q i hq0 h3.1
      · rw [h3]; exact h.next
    · rcases newObj_names _ _ _ _ _ _ hqi with h3 | ⟨h4, h3, -⟩
      · have := h.kinds q i h3.1
        rwa [newObj_ino _ _ _ _ _ (Nat.ne_of_lt (h.ids q i h3.1))]
      · subst h3; subst h4
        unfold FS.newObj FS.newDir FS.newIno at hqi ⊢
        split at hqi
        · simp [FS.put] at hqi
        · rename_i hk; rw [if_neg hk]; simpa [RsOpts.blank] using hk
    · rcases newObj_names _ _ _ _ _ _ hqi with h3 | ⟨-, h3, h4⟩
      · exact (h.ids q i h3.1).trans_le (newObj_nextLe ..)
      · show i < (a.fs.newObj o (a.cdir ++ [n]) x).next; rw [h4]; omega
  | link m k j v hh he hl hi hn' hd =>
    have hj : fs0.next ≤ j := h.news _ _ (h.labs k v hl) hi
    refine ⟨fun q i hqi => ?_, h.same, fun q y hy => ?_, fun q i hq0 hqi => ?_, h.next, h.labs, fun q i hqi => ?_, fun q i hqi => ?_, h.stk, h.open_, h.flags⟩
    · show (a.fs.put o.now (a.cdir ++ [n]) (.ino j)).ent q = _
      rw [put_ent, if_neg (hne q _ hqi)]
      split
      · exact (touch_ino _ _ _).2 (h.inos q i hqi)
      · exact h.inos q i hqi
    · show ∃ z, (a.fs.put o.now (a.cdir ++ [n]) (.ino j)).ent q = _ ∧ _
      rw [put_ent, if_neg (hne q _ hy), hdl]
      by_cases hqd : q = a.cdir
      · rw [if_pos hqd]
        obtain ⟨z, h1, h2⟩ := tdir q y hy
        exact ⟨z, h1, h2, fun hc => absurd (hqd ▸ hc) hq⟩
      · rw [if_neg hqd]; exact h.dirs q y hy
    · rcases put_names _ _ _ _ _ _ hqi with h3 | ⟨-, h3⟩
      · exact h.news q i hq0 h3.1
      · rw [h3]; exact hj
    · rcases put_names _ _ _ _ _ _ hqi with h3 | ⟨-, h3⟩
      · exact h.kinds q i h3.1
      · rw [h3]; exact h.kinds _ _ hi
    · rcases put_names _ _ _ _ _ _ hqi with h3 | ⟨-, h3⟩
      · exact h.ids q i h3.1
      · rw [h3]; exact h.ids _ _ hi
  | remove hh =>
    have hno : ∀ q v, fs0.ent q = some v → ¬ (a.cdir ++ [n]) <+: q := by
      intro q v hv hpq
      have hnq := hne q v hv
      have := hw.above q.length (by omega) (by rw [hv]; simp) hpq (fun hh => hnq hh.symm)
      unfold FS.isDir at this; rw [hn] at this; cases this
    have hent : ∀ q v, fs0.ent q = some v → (a.fs.remove o.now (a.cdir ++ [n])).ent q = if q = a.cdir then (a.fs.ent q).map (FEnt.touch o.now) else a.fs.ent q := by
      intro q v hv
      show (if (a.cdir ++ [n]).isPrefixOf q then none else if q = (a.cdir ++ [n]).dropLast then _ else _) = _
      rw [prefix_bool, decide_eq_false (hno q v hv), hdl]; rfl
    refine ⟨fun q i hqi => ?_, h.same, fun q y hy => ?_, fun q i hq0 hqi => h.news q i hq0 (remove_names _ _ _ _ _ hqi), h.next, h.labs,
      fun q i hqi => h.kinds q i (remove_names _ _ _ _ _ hqi), fun q i hqi => h.ids q i (remove_names _ _ _ _ _ hqi), h.stk, h.open_, h.flags⟩
    · show (a.fs.remove o.now (a.cdir ++ [n])).ent q = _
      rw [hent q _ hqi]
      split
      · exact (touch_ino _ _ _).2 (h.inos q i hqi)
      · exact h.inos q i hqi
    · show ∃ z, (a.fs.remove o.now (a.cdir ++ [n])).ent q = _ ∧ _
      rw [hent q _ hy]
      by_cases hqd : q = a.cdir
      · rw [if_pos hqd]
        obtain ⟨z, h1, h2⟩ := tdir q y hy
        exact ⟨z, h1, h2, fun hc => absurd (hqd ▸ hc) hq⟩
      · rw [if_neg hqd]; exact h.dirs q y hy
  | update f hk => exact upd_new h hn f hk
  | record m k q b he hq' =>
    refine ⟨h.inos, h.same, h.dirs, h.news, h.next, fun j v hj => ?_, h.kinds, h.ids, h.stk, h.open_, h.flags⟩
    rw [RsSt.label_record] at hj
    split at hj
    · cases hj
      rcases hq' with rfl | ⟨b', hq'⟩
      · exact hn
      · exact h.labs k (q, b') hq'
    · exact h.labs j v hj
  | forget k => exact ⟨h.inos, h.same, h.dirs, h.news, h.next, fun j v hj => h.labs j v (label_forget a k j v hj), h.kinds, h.ids, h.stk, h.open_, h.flags⟩
  | flag => exact flag_inv h (Or.inr hq)
where
  upd_new {a : RsSt} {w : List Bytes} (h : PresInv cat fs0 a) (hn : fs0.ent w = none) (f : Obj → Obj) (hk : ∀ y, (f y).ino.kind = y.ino.kind) :
      PresInv cat fs0 { a with fs := a.fs.upd w f } := by
    refine ⟨fun q i hqi => ?_, fun i hi => ?_, fun q y hy => ?_, fun q i hq0 hqi => ?_, ?_, h.labs, fun q i hqi => ?_, fun q i hqi => ?_, h.stk, h.open_, h.flags⟩
    · show (a.fs.upd w f).ent q = _
      exact (upd_ino_ent _ _ _ _ _).2 (h.inos q i hqi)
    · show (a.fs.upd w f).ino i = _
      rw [upd_ino]
      · exact h.same i hi
      · intro hc; have := h.news w i hn hc; omega
    · show ∃ z, (a.fs.upd w f).ent q = _ ∧ _
      rw [upd_ent _ _ _ _ (by rintro rfl; rw [hn] at hy; cases hy)]
      exact h.dirs q y hy
    · exact h.news q i hq0 ((upd_ino_ent _ _ _ _ _).1 hqi)
    · show _ ≤ (a.fs.upd w f).next
      rw [upd_next]; exact h.next
    · show ((a.fs.upd w f).ino i).ino.kind ≠ _
      rw [upd_kinds hk]; exact h.kinds q i ((upd_ino_ent _ _ _ _ _).1 hqi)
    · show i < (a.fs.upd w f).next
      rw [upd_next]; exact h.ids q i ((upd_ino_ent _ _ _ _ _).1 hqi)
  flag_inv {a : RsSt} (h : PresInv cat fs0 a) (hq : fs0.ent a.cdir = none ∨ ¬ Quiet cat fs0 a.cdir) : PresInv cat fs0 a.flag := by
    rw [flag_eq]
    refine ⟨h.inos, h.same, h.dirs, h.news, h.next, h.labs, h.kinds, h.ids, ?_, h.open_, ?_⟩
    · have := h.stk
      unfold Stacked at this ⊢
      dsimp only
      rw [this]
      cases a.stack with
      | nil => rfl
      | cons v l => rfl
    · intro a' x f b hs hf
      dsimp only at hs
      cases hst : a.stack with
      | nil => rw [hst] at hs; cases a' <;> cases hs
      | cons v l =>
        rw [hst] at hs
        obtain ⟨x0, f0⟩ := v
        cases a' with
        | nil =>
          have hs' : (x0, true) :: l = (x, f) :: b := hs
          cases hs'
          have hcd : a.cdir = (b.map (·.1.name)).reverse ++ [x.name] := by
            have := h.stk; unfold Stacked at this; rw [this, hst]; simp
          rw [← hcd]; exact hq
        | cons v' a'' =>
          have hs' : (x0, true) :: l = v' :: (a'' ++ (x, f) :: b) := hs
          cases hs'
          exact h.flags ((x0, f0) :: a'') x f b hst hf

theorem PresInv.congr {a b : RsSt} (h : PresInv cat fs0 a) (h1 : b.fs = a.fs) (h2 : b.corres = a.corres) (h3 : b.cdir = a.cdir) (h4 : b.stack = a.stack) : PresInv cat fs0 b := by
  have hl : ∀ k, b.label k = a.label k := fun k => by unfold RsSt.label; rw [h2]
  refine ⟨?_, ?_, ?_, ?_, ?_, fun k v hv => h.labs k v ((hl k).symm.trans hv), ?_, ?_, ?_, ?_, ?_⟩
  · rw [h1]; exact h.inos
  · rw [h1]; exact h.same
  · rw [h1]; exact h.dirs
  · rw [h1]; exact h.news
  · rw [h1]; exact h.next
  · rw [h1]; exact h.kinds
  · rw [h1]; exact h.ids
  · unfold Stacked; rw [h3, h4]; exact h.stk
  · rw [h3]; exact h.open_
  · rw [h4]; exact h.flags

theorem PresInv.push {a : RsSt} {x : Obj} {f : Bool} (h : PresInv cat fs0 a) (hi : ∀ i, fs0.ent (a.cdir ++ [x.name]) ≠ some (.ino i))
    (hf : f = true → fs0.ent (a.cdir ++ [x.name]) = none) : PresInv cat fs0 (a.push x f) := by
  refine ⟨h.inos, h.same, h.dirs, h.news, h.next, h.labs, h.kinds, h.ids, ?_, fun q hq hqd => ?_, fun l y g b hs hg => ?_⟩
  · have := h.stk
    unfold Stacked at this ⊢
    simp [RsSt.push, this]
  · rcases List.prefix_concat_iff.1 (show q <+: a.cdir ++ [x.name] from hqd) with h1 | h1
    · rw [h1]; exact hi
    · exact h.open_ q hq h1
  · have hs' : (x, f) :: a.stack = l ++ (y, g) :: b := hs
    cases l with
    | nil =>
      cases hs'
      have : a.cdir = (a.stack.map (·.1.name)).reverse := h.stk
      rw [← this]
      exact Or.inl (hf hg)
    | cons v l =>
      rw [List.cons_append, List.cons.injEq] at hs'
      exact h.flags l y g b hs'.2 hg

/-- existing files are preserved by the writing of an entry -/
theorem write_preserve (hp : Preserving o) (hne : s.fs.ent (s.cdir ++ [e.name]) ≠ none) (hx : ∀ x, e.inodeOf stars = some x → x.ino.status ≠ .delta)
    (hm : ∀ n k, e = .mirage n k → (stars k).ino.status = .saved) :
    match s.write o stars e with
    | .ok (s1, _) => s1 = s ∨ e.isDet = true ∧ s1 = s.flag ∨ ∃ x c y, e = .dir x c ∧ s.fs.obj (s.cdir ++ [x.name]) = some y ∧ y.ino.kind = .dir ∧ s1 = s.push x false
    | .error (_, s1) => s1 = s := by
  have hy : ∃ y, s.fs.obj (s.cdir ++ [e.name]) = some y := by
    cases hob : s.fs.obj (s.cdir ++ [e.name]) with
    | none => exact absurd (obj_none.1 hob) hne
    | some y => exact ⟨y, rfl⟩
  obtain ⟨y, hy⟩ := hy
  obtain ⟨ad, ae, hov, ha, hae⟩ := hp y e
  have hi : ∀ x, x.ino.status ≠ .delta → (e.isMirage = true → x.ino.status = .saved) → (∀ x' c, e = .dir x' c → x' = x) →
    match s.writeInode o e x with
    | .ok (s1, _) => s1 = s ∨ e.isDet = true ∧ s1 = s.flag ∨ ∃ x c y, e = .dir x c ∧ s.fs.obj (s.cdir ++ [x.name]) = some y ∧ y.ino.kind = .dir ∧ s1 = s.push x false
    | .error (_, s1) => s1 = s := by
    intro x hs1 hs2 hx
    unfold RsSt.writeInode
    simp only [hy, hov]
    have := over_preserve (o := o) (e := e) (x := x) hy ha hae hs1 hs2
    cases hwo : s.writeOver o e x y (s.cdir ++ [e.name]) ad ae with
    | error er => rw [hwo] at this; exact this
    | ok r =>
      obtain ⟨s1, d⟩ := r
      rw [hwo] at this
      obtain ⟨rfl, hd⟩ := this
      show s1.enter e x (some y) d = s1 ∨ _ ∧ s1.enter e x (some y) d = _ ∨ ∃ x' c y', e = .dir x' c ∧ _ ∧ _ ∧ s1.enter e x (some y) d = _
      unfold RsSt.enter
      cases e with
      | dir x' c =>
        cases hx x' c rfl
        by_cases hyk : y.ino.kind = .dir
        · right; right
          refine ⟨x, c, y, rfl, hy, hyk, ?_⟩
          simp [BEntry.isDir, hyk, RsSt.push, hd, BEntry.name]
        · left
          simp [BEntry.isDir, hyk, hd]
      | _ => exact Or.inl rfl
  unfold RsSt.write
  cases e with
  | node x => exact hi x (hx x rfl) (by intro h; cases h) (by intro _ _ h; cases h)
  | dir x c => exact hi x (hx x rfl) (by intro h; cases h) (by intro _ _ h; cases h; rfl)
  | mirage n k => exact hi (stars k) (hx _ rfl) (fun _ => hm n k rfl) (by intro _ _ h; cases h)
  | detruit n k t =>
    simp only
    unfold RsSt.writeDet
    simp only [hy, hov]
    rcases ha with rfl | rfl <;> exact Or.inr (Or.inl ⟨rfl, rfl⟩)
  | ignored n => rfl
  | ignoredDir x => rfl


theorem PresInv.prims {s1 : RsSt} (hw : FSOk fs0) (h : PresInv cat fs0 s) (hp : Prims o e (s.cdir ++ [e.name]) hard s s1) (hn : fs0.ent (s.cdir ++ [e.name]) = none)
    (ht : ∃ e', treeAt cat.root (s.cdir ++ [e.name]) = some e') : PresInv cat fs0 s1 := by
  have : PresInv cat fs0 s1 ∧ s1.cdir = s.cdir := by
    refine hp.inv (I := fun s1 => PresInv cat fs0 s1 ∧ s1.cdir = s.cdir) ?_ ⟨h, rfl⟩
    rintro a b ⟨ha, hc⟩ hab
    refine ⟨?_, (prims_frame hab.one).1.trans hc⟩
    rw [← hc] at hab hn ht
    exact ha.prim hw hab hn ht
  exact this.1

theorem PresInv.updDir (h : PresInv cat fs0 s) {w : List Bytes} (x : Obj) {y : Obj} (hy : fs0.ent w = some (.dir y)) (hq : ¬ Quiet cat fs0 w) :
    PresInv cat fs0 { s with fs := s.fs.upd w (fun y => o.ownerPerm x (o.date x y)) } := by
  obtain ⟨z0, hz0, -, -⟩ := h.dirs w y hy
  have hno : ∀ i, s.fs.ent w ≠ some (.ino i) := fun i hc => by rw [hz0] at hc; cases hc
  have hnoi : ∀ i, (s.fs.upd w (fun y => o.ownerPerm x (o.date x y))).ino i = s.fs.ino i := fun i => upd_ino _ _ _ _ (hno i)
  refine ⟨fun q i hqi => ?_, fun i hi => ?_, fun q y' hy' => ?_, fun q i hq0 hqi => ?_, ?_, h.labs, fun q i hqi => ?_, fun q i hqi => ?_, h.stk, h.open_, h.flags⟩
  · exact (upd_ino_ent _ _ _ _ _).2 (h.inos q i hqi)
  · exact (hnoi i).trans (h.same i hi)
  · show ∃ z, (s.fs.upd w (fun y => o.ownerPerm x (o.date x y))).ent q = _ ∧ _
    obtain ⟨z, h1, h2, h3⟩ := h.dirs q y' hy'
    by_cases hqw : q = w
    · subst hqw
      refine ⟨o.ownerPerm x (o.date x z), ?_, sbo_owner o x h2, fun hc => absurd hc hq⟩
      unfold FS.upd
      rw [h1]
      simp
    · rw [upd_ent _ _ _ _ hqw]
      exact ⟨z, h1, h2, h3⟩
  · exact h.news q i hq0 ((upd_ino_ent _ _ _ _ _).1 hqi)
  · show _ ≤ (s.fs.upd w (fun y => o.ownerPerm x (o.date x y))).next
    rw [upd_next]; exact h.next
  · show ((s.fs.upd w (fun y => o.ownerPerm x (o.date x y))).ino i).ino.kind ≠ _
    rw [hnoi]; exact h.kinds q i ((upd_ino_ent _ _ _ _ _).1 hqi)
  · show i < (s.fs.upd w (fun y => o.ownerPerm x (o.date x y))).next
    rw [upd_next]; exact h.ids q i ((upd_ino_ent _ _ _ _ _).1 hqi)

theorem PresInv.pop (h : PresInv cat fs0 s) {v : Obj × Bool} {l : List (Obj × Bool)} (hs : s.stack = v :: l) (hst : Stacked { s with cdir := s.cdir.dropLast, stack := l }) :
    PresInv cat fs0 { s with cdir := s.cdir.dropLast, stack := l } :=
  ⟨h.inos, h.same, h.dirs, h.news, h.next, h.labs, h.kinds, h.ids, hst, fun q hq hqd => h.open_ q hq (hqd.trans (List.dropLast_prefix _)),
    fun a x f b hl hf => h.flags (v :: a) x f b (by rw [hs]; exact congrArg (List.cons v) hl) hf⟩

theorem preserve_inv (hw : FSOk fs0) (hp : Preserving o) (hc : NoPatch cat) :
    WalkInv o cat.stars (fun d e => treeAt cat.root (d ++ [e.name]) = some e ∧ BEntry.Distinct e) (PresInv cat fs0) := by
  refine ⟨fun s e s' b hi hce ht => ?_, fun s s' x f l hi hs hl => ?_, fun d x c hce hcov e he => ?_⟩
  · by_cases hne : s.fs.ent (s.cdir ++ [e.name]) = none
    · have hn : fs0.ent (s.cdir ++ [e.name]) = none := by
        cases hv : fs0.ent (s.cdir ++ [e.name]) with
        | none => rfl
        | some v =>
          cases v with
          | dir y => obtain ⟨z, hz, -⟩ := hi.dirs _ y hv; rw [hz] at hne; cases hne
          | ino i => have := hi.inos _ i hv; rw [this] at hne; cases hne
      have key : ∀ {s1}, Prims o e (s.cdir ++ [e.name]) true s s1 → PresInv cat fs0 s1 := fun hpr => hi.prims hw hpr hn ⟨e, hce.1⟩
      cases rsTurn_done ht with
      | passed => exact hi.congr rfl rfl rfl rfl
      | failed s1 st h1 => have a := key h1; exact a.congr rfl rfl rfl rfl
      | written s1 st h1 => have a := key h1; exact a.congr rfl rfl rfl rfl
      | entered s1 st x c f he h1 =>
        have a := key h1
        have hcd := (prims_frame h1).1
        have hn' : fs0.ent (s1.cdir ++ [x.name]) = none := by rw [hcd]; rw [he] at hn; exact hn
        exact (a.push (x := x) (f := f) (fun i hci => by rw [hn'] at hci; cases hci) (fun _ => hn')).congr rfl rfl rfl rfl
    · have hwp := write_preserve (stars := cat.stars) hp hne (fun x hx => hc.1 _ e x hce.1 hx) (fun n k he => by subst he; exact hc.2 _ n k hce.1)
      unfold rsTurn at ht
      by_cases hd : (e.isDet && o.notDeleted) = true
      · rw [if_pos hd] at ht; cases ht; exact hi
      rw [if_neg hd] at ht
      by_cases hcv : (o.cov (s.cdir ++ [e.name]) e && (!o.onlyDeleted || e.isDir || e.isDet)) = true
      · rw [if_pos hcv] at ht
        cases hr : s.write o cat.stars e with
        | error er =>
          obtain ⟨er, s1⟩ := er
          rw [hr] at hwp ht
          have hwp' : s1 = s := hwp
          subst hwp'
          cases er <;> first | (cases ht; exact hi.congr rfl rfl rfl rfl) | cases ht
        | ok r =>
          obtain ⟨s1, d⟩ := r
          rw [hr] at hwp ht
          cases ht
          rcases hwp with rfl | ⟨hdet, rfl⟩ | ⟨x, c, y, rfl, hy, hyk, rfl⟩
          · exact hi.congr rfl rfl rfl rfl
          · refine (PresInv.prim.flag_inv hi (Or.inr fun hq => ?_)).congr rfl rfl rfl rfl
            have := (hq e.name e hce.1).2
            rw [hdet] at this; cases this
          · refine (hi.push (x := x) (f := false) (fun i hci => ?_) (fun hh => by cases hh)).congr rfl rfl rfl rfl
            have h1 := hi.inos _ i hci
            have h2 := hi.kinds _ i h1
            unfold FS.obj at hy
            rw [h1] at hy
            cases hy
            exact h2 hyk
      · rw [if_neg hcv] at ht; cases ht; exact hi.congr rfl rfl rfl rfl
  · have hst := hi.stk.leave hl
    have htop := hi.stk.top hs
    obtain ⟨x', f', l', h1, h2⟩ := rsLeave_done hl
    rw [hs] at h1; cases h1
    rw [htop] at h2
    have hcd : s.cdir = (l.map (·.1.name)).reverse ++ [x.name] := by
      have := hi.stk; unfold Stacked at this; rw [this, hs]; simp
    rcases h2 with ⟨-, rfl⟩ | ⟨hf, hex, rfl⟩
    · exact hi.pop hs hst
    · have hfl := hi.flags [] x f l hs hf
      rw [← hcd] at hfl
      have hi2 : PresInv cat fs0 { s with fs := s.fs.upd s.cdir (fun y => o.ownerPerm x (o.date x y)) } := by
        cases hv : fs0.ent s.cdir with
        | none => exact PresInv.prim.upd_new hi hv _ (fun y => by rw [ownerPerm_kind, date_kind])
        | some v =>
          cases v with
          | dir y => exact hi.updDir x hv (by rcases hfl with h | h; · rw [hv] at h; cases h
                                              · exact h)
          | ino i => exact absurd hv (hi.open_ s.cdir (by rw [hcd]; simp) (List.prefix_refl _) i)
      exact hi2.pop (v := (x, f)) hs hst
  · have hdl : BEntry.DistinctL c := by have := hce.2; unfold BEntry.Distinct at this; exact this
    have c1 : treeAt cat.root (d ++ [x.name]) = some (.dir x c) := hce.1
    refine ⟨?_, distinctL_mem hdl he⟩
    rw [treeAt_app _ _ _ _ (by simp), c1]
    exact findChild_mem hdl he
where
  distinctL_mem : ∀ {l : List BEntry} {e : BEntry}, BEntry.DistinctL l → e ∈ l → BEntry.Distinct e
    | [], e, _, he => by simp at he
    | a :: l, e, hd, he => by
      unfold BEntry.DistinctL at hd
      rcases List.mem_cons.1 he with rfl | he
      · exact hd.1
      · exact distinctL_mem hd.2.2 he

end Dar
