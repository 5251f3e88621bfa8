import Verif.Lemmas.RestoreWalk2
import Verif.Spec.RestoreOptions
/- What a restoration does not touch. -/
namespace Dar

variable {o : RsOpts} {stars : Nat → Obj} {s s' : RsSt} {e : BEntry} {p w : List Bytes} {hard : Bool}

/-- the paths `U`, and the inodes having no other name, are as in `s0` -/
structure Prot (U : List Bytes → Prop) (s0 s : RsSt) : Prop where
  ent : ∀ q, U q → s.fs.ent q = s0.fs.ent q
  dirs : ∀ q r, U q → r <+: q → r ≠ q → s.fs.isDir r = true
  ino : ∀ i, i < s0.fs.next → (∀ q, s0.fs.ent q = some (.ino i) → U q) → s.fs.ino i = s0.fs.ino i ∧ ∀ q, s.fs.ent q = some (.ino i) → U q
  labs : ∀ k v, s.label k = some v → ¬ U v.1
  ids : ∀ q i, s.fs.ent q = some (.ino i) → i < s.fs.next
  next : s0.fs.next ≤ s.fs.next

theorem upd_ent (fs : FS) (p : List Bytes) (f : Obj → Obj) (q : List Bytes) (h : q ≠ p) : (fs.upd p f).ent q = fs.ent q := by
  unfold FS.upd; split <;> simp [h]
theorem upd_ino_ent (fs : FS) (p : List Bytes) (f : Obj → Obj) (q : List Bytes) (i : Nat) : (fs.upd p f).ent q = some (.ino i) ↔ fs.ent q = some (.ino i) := by
  by_cases hq : q = p
  · subst hq
    unfold FS.upd
    split <;> simp [*]
  · rw [upd_ent fs p f q hq]
theorem upd_next (fs : FS) (p : List Bytes) (f : Obj → Obj) : (fs.upd p f).next = fs.next := by
  unfold FS.upd; split <;> rfl
theorem upd_ino (fs : FS) (p : List Bytes) (f : Obj → Obj) (i : Nat) (h : fs.ent p ≠ some (.ino i)) : (fs.upd p f).ino i = fs.ino i := by
  unfold FS.upd
  split
  · rfl
  · rfl
  · rename_i j hj
    have : i ≠ j := by rintro rfl; exact h hj
    simp [this]
theorem upd_isDir (fs : FS) (p : List Bytes) (f : Obj → Obj) (q : List Bytes) : (fs.upd p f).isDir q = fs.isDir q := by
  by_cases hq : q = p
  · subst hq
    unfold FS.isDir FS.upd
    cases h : fs.ent q with
    | none => simp [h]
    | some v => cases v <;> simp [h]
  · unfold FS.isDir; rw [upd_ent fs p f q hq]

theorem label_forget (s : RsSt) (k j : Nat) (v : List Bytes × Bool) (h : (s.forget k).label j = some v) : s.label j = some v := by
  unfold RsSt.label RsSt.forget at h
  unfold RsSt.label
  dsimp only at h
  rw [List.find?_filter] at h
  by_cases hjk : j = k
  · subst hjk
    have : s.corres.find? (fun a => decide (decide (a.1 ≠ j) = true ∧ decide (a.1 = j) = true)) = none := by
      rw [List.find?_eq_none]; intro x _; simp
    rw [this] at h; cases h
  · have : (fun a : Nat × List Bytes × Bool => decide (decide (a.1 ≠ k) = true ∧ decide (a.1 = j) = true)) = fun a => decide (a.1 = j) := by
      funext a
      by_cases ha : a.1 = j
      · simp [ha, hjk]
      · simp [ha]
    rw [this] at h; exact h

theorem isDir_touch (now : DateT) (v : Option FEnt) : (match v.map (FEnt.touch now) with | some (.dir _) => true | _ => false) = (match v with | some (.dir _) => true | _ => false) := by
  cases v with
  | none => rfl
  | some v => cases v <;> rfl
theorem touch_ino (now : DateT) (v : Option FEnt) (i : Nat) : v.map (FEnt.touch now) = some (.ino i) ↔ v = some (.ino i) := by
  cases v with
  | none => simp
  | some v => cases v <;> simp [FEnt.touch]

theorem put_ent (fs : FS) (now : DateT) (p : List Bytes) (v : FEnt) (q : List Bytes) :
    (fs.put now p v).ent q = if q = p then some v else if q = p.dropLast then (fs.ent q).map (FEnt.touch now) else fs.ent q := rfl
theorem newObj_ent (o : RsOpts) (fs : FS) (p : List Bytes) (x : Obj) (q : List Bytes) (h : q ≠ p) :
    (fs.newObj o p x).ent q = if q = p.dropLast then (fs.ent q).map (FEnt.touch o.now) else fs.ent q := by
  unfold FS.newObj FS.newDir FS.newIno
  split <;> simp [FS.put, h]
theorem newObj_ino (o : RsOpts) (fs : FS) (p : List Bytes) (x : Obj) (i : Nat) (h : i ≠ fs.next) : (fs.newObj o p x).ino i = fs.ino i := by
  unfold FS.newObj FS.newDir FS.newIno
  split <;> simp [FS.put, h]
theorem newObj_nextLe (o : RsOpts) (fs : FS) (p : List Bytes) (x : Obj) : fs.next ≤ (fs.newObj o p x).next := by
  unfold FS.newObj FS.newDir FS.newIno
  split <;> simp [FS.put]
/-- the names of an inode after a creation -/
theorem newObj_names (o : RsOpts) (fs : FS) (p : List Bytes) (x : Obj) (q : List Bytes) (i : Nat) (h : (fs.newObj o p x).ent q = some (.ino i)) :
    fs.ent q = some (.ino i) ∧ q ≠ p ∨ q = p ∧ i = fs.next ∧ (fs.newObj o p x).next = fs.next + 1 := by
  by_cases hq : q = p
  · subst hq
    right
    unfold FS.newObj FS.newDir FS.newIno at h ⊢
    split at h
    · simp [FS.put] at h
    · rename_i hk
      rw [if_neg hk]
      simp only [FS.put, if_true] at h
      cases h
      exact ⟨rfl, rfl, rfl⟩
  · rw [newObj_ent o fs p x q hq] at h
    left
    split at h
    · exact ⟨(touch_ino _ _ _).1 h, hq⟩
    · exact ⟨h, hq⟩
theorem put_names (fs : FS) (now : DateT) (p : List Bytes) (j : Nat) (q : List Bytes) (i : Nat) (h : (fs.put now p (.ino j)).ent q = some (.ino i)) :
    fs.ent q = some (.ino i) ∧ q ≠ p ∨ q = p ∧ i = j := by
  rw [put_ent] at h
  by_cases hq : q = p
  · rw [if_pos hq] at h; cases h; exact Or.inr ⟨hq, rfl⟩
  · rw [if_neg hq] at h
    left
    split at h
    · exact ⟨(touch_ino _ _ _).1 h, hq⟩
    · exact ⟨h, hq⟩
theorem remove_names (fs : FS) (now : DateT) (p q : List Bytes) (i : Nat) (h : (fs.remove now p).ent q = some (.ino i)) : fs.ent q = some (.ino i) := by
  unfold FS.remove at h
  dsimp only at h
  split at h
  · cases h
  · split at h
    · exact (touch_ino _ _ _).1 h
    · exact h
theorem remove_keeps (fs : FS) (now : DateT) (p q : List Bytes) (h : ¬ p <+: q) : (fs.remove now p).isDir q = fs.isDir q := by
  have he : (fs.remove now p).ent q = if q = p.dropLast then (fs.ent q).map (FEnt.touch now) else fs.ent q := by
    show (if p.isPrefixOf q then none else _) = _
    rw [prefix_bool, decide_eq_false h]; rfl
  unfold FS.isDir
  rw [he]
  by_cases hq : q = p.dropLast
  · rw [if_pos hq]; exact isDir_touch _ _
  · rw [if_neg hq]

variable {U : List Bytes → Prop} {s0 : RsSt}

/-- the elementary changes at a path that is not below a protected one, nor above it if names may be created or removed -/
theorem Prot.prim {a b : RsSt} (h : Prot U s0 a) (hp : Prim o e w hard a b) (h1 : ∀ q, U q → ¬ q <+: w) (h2 : hard = true → ∀ q, U q → ¬ w <+: q) : Prot U s0 b := by
  have hne : ∀ q, U q → q ≠ w := fun q hq hh => h1 q hq (hh ▸ List.prefix_refl _)
  have hdl : ∀ q, U q → q ≠ w.dropLast := fun q hq hh => h1 q hq (hh ▸ List.dropLast_prefix _)
  cases hp with
  | make x hh hn hd =>
    refine ⟨fun q hq => ?_, fun q r hq hr hrq => ?_, fun i hi hU => ?_, h.labs, fun q i hq => ?_, h.next.trans (newObj_nextLe ..)⟩
    · rw [newObj_ent _ _ _ _ _ (hne q hq), if_neg (hdl q hq)]; exact h.ent q hq
    · have hrw : r ≠ w := by rintro rfl; exact h2 hh q hq hr
      have := h.dirs q r hq hr hrq
      unfold FS.isDir at this ⊢
      rw [newObj_ent _ _ _ _ _ hrw]
      by_cases hrd : r = w.dropLast
      · rw [if_pos hrd]; exact (isDir_touch _ _).trans this
      · rw [if_neg hrd]; exact this
    · obtain ⟨a1, a2⟩ := h.ino i hi hU
      refine ⟨by rw [newObj_ino _ _ _ _ _ (by have := h.next; omega)]; exact a1, fun q hq => ?_⟩
      rcases newObj_names _ _ _ _ _ _ hq with h3 | ⟨-, h3, -⟩
      · exact a2 q h3.1
      · have := h.next; omega
    · rcases newObj_names _ _ _ _ _ _ hq with h3 | ⟨-, h3, h4⟩
      · exact (h.ids q i h3.1).trans_le (newObj_nextLe ..)
      · show i < (a.fs.newObj o w x).next; rw [h4]; omega
  | link n k j v hh he hl hi hn hd =>
    refine ⟨fun q hq => ?_, fun q r hq hr hrq => ?_, fun i hlt hU => ?_, h.labs, fun q i hq => ?_, h.next⟩
    · show (a.fs.put o.now w (.ino j)).ent q = _
      rw [put_ent, if_neg (hne q hq), if_neg (hdl q hq)]; exact h.ent q hq
    · have hrw : r ≠ w := by rintro rfl; exact h2 hh q hq hr
      have := h.dirs q r hq hr hrq
      unfold FS.isDir at this ⊢
      show (match (a.fs.put o.now w (.ino j)).ent r with | some (.dir _) => true | _ => false) = true
      rw [put_ent, if_neg hrw]
      by_cases hrd : r = w.dropLast
      · rw [if_pos hrd]; exact (isDir_touch _ _).trans this
      · rw [if_neg hrd]; exact this
    · obtain ⟨a1, a2⟩ := h.ino i hlt hU
      refine ⟨a1, fun q hq => ?_⟩
      rcases put_names _ _ _ _ _ _ hq with h3 | ⟨-, h3⟩
      · exact a2 q h3.1
      · rw [h3] at a2; exact absurd (a2 v.1 hi) (h.labs k v hl)
    · rcases put_names _ _ _ _ _ _ hq with h3 | ⟨-, h3⟩
      · exact h.ids q i h3.1
      · rw [h3]; exact h.ids _ _ hi
  | remove hh =>
    refine ⟨fun q hq => ?_, fun q r hq hr hrq => ?_, fun i hlt hU => ?_, h.labs, fun q i hq => h.ids q i (remove_names _ _ _ _ _ hq), h.next⟩
    · show (if w.isPrefixOf q then none else if q = w.dropLast then (a.fs.ent q).map (FEnt.touch o.now) else a.fs.ent q) = _
      rw [prefix_bool, decide_eq_false (h2 hh q hq), if_neg (hdl q hq)]
      exact h.ent q hq
    · show (a.fs.remove o.now w).isDir r = true
      rw [remove_keeps _ _ _ _ (fun hc => h2 hh q hq (hc.trans hr))]
      exact h.dirs q r hq hr hrq
    · obtain ⟨a1, a2⟩ := h.ino i hlt hU
      exact ⟨a1, fun q hq => a2 q (remove_names _ _ _ _ _ hq)⟩
  | update f hk =>
    refine ⟨fun q hq => ?_, fun q r hq hr hrq => ?_, fun i hlt hU => ?_, h.labs, fun q i hq => ?_, ?_⟩
    · show (a.fs.upd w f).ent q = _
      rw [upd_ent _ _ _ _ (hne q hq)]; exact h.ent q hq
    · show (a.fs.upd w f).isDir r = true
      rw [upd_isDir]; exact h.dirs q r hq hr hrq
    · obtain ⟨a1, a2⟩ := h.ino i hlt hU
      refine ⟨?_, fun q hq => a2 q ((upd_ino_ent _ _ _ _ _).1 hq)⟩
      show (a.fs.upd w f).ino i = _
      rw [upd_ino]
      · exact a1
      · intro hc; exact hne w (a2 w hc) rfl
    · show i < (a.fs.upd w f).next
      rw [upd_next]; exact h.ids q i ((upd_ino_ent _ _ _ _ _).1 hq)
    · show s0.fs.next ≤ (a.fs.upd w f).next
      rw [upd_next]; exact h.next
  | record n k q b he hq =>
    refine ⟨h.ent, h.dirs, h.ino, fun j v hj => ?_, h.ids, h.next⟩
    rw [RsSt.label_record] at hj
    split at hj
    · cases hj
      rcases hq with rfl | ⟨b', hq⟩
      · exact fun hu => hne q hu rfl
      · exact h.labs k (q, b') hq
    · exact h.labs j v hj
  | forget k => exact ⟨h.ent, h.dirs, h.ino, fun j v hj => h.labs j v (label_forget a k j v hj), h.ids, h.next⟩
  | flag =>
    rw [flag_eq]
    exact ⟨h.ent, h.dirs, h.ino, h.labs, h.ids, h.next⟩

theorem Prot.prims {a b : RsSt} (h : Prot U s0 a) (hp : Prims o e w hard a b) (h1 : ∀ q, U q → ¬ q <+: w) (h2 : hard = true → ∀ q, U q → ¬ w <+: q) : Prot U s0 b :=
  hp.inv (fun _ _ hi hq => hi.prim hq h1 h2) h

theorem Prot.congr {a b : RsSt} (h : Prot U s0 a) (h1 : b.fs = a.fs) (h2 : b.corres = a.corres) : Prot U s0 b := by
  have hl : ∀ k, b.label k = a.label k := fun k => by unfold RsSt.label; rw [h2]
  exact ⟨by rw [h1]; exact h.ent, by rw [h1]; exact h.dirs, by rw [h1]; exact h.ino, fun k v hv => h.labs k v ((hl k).symm.trans hv), by rw [h1]; exact h.ids, by rw [h1]; exact h.next⟩

/-- current_dir is made of the names in stack_dir -/
def Stacked (s : RsSt) : Prop := s.cdir = (s.stack.map (·.1.name)).reverse

theorem map_name (l : List (Obj × Bool)) : l.map (·.1.name) = (l.map (·.1)).map Obj.name := by simp

theorem Stacked.turn {b : Bool} (h : Stacked s) (ht : TurnDone o e hard s s' b) : Stacked s' := by
  have key : ∀ {s1}, Prims o e (s.cdir ++ [e.name]) hard s s1 → Stacked s1 := fun hp => by
    have := prims_frame hp
    unfold Stacked at h ⊢
    rw [this.1, h, map_name, map_name, this.2.1]
  cases ht with
  | passed => exact h
  | failed s1 st h1 => have := key h1; exact this
  | written s1 st h1 => have := key h1; exact this
  | entered s1 st x c f he h1 =>
    have := key h1
    unfold Stacked at this ⊢
    show s1.cdir ++ [x.name] = _
    rw [this]
    simp [RsSt.push]
theorem Stacked.leave (h : Stacked s) (hl : rsLeave o s = .ok s') : Stacked s' := by
  obtain ⟨x, f, l, h1, h2⟩ := rsLeave_done hl
  unfold Stacked at h ⊢
  rw [h1] at h
  have : s'.cdir = s.cdir.dropLast ∧ s'.stack = l := by rcases h2 with ⟨-, rfl⟩ | ⟨-, -, rfl⟩ <;> exact ⟨rfl, rfl⟩
  rw [this.1, this.2, h]
  simp
theorem Stacked.top (h : Stacked s) {x : Obj} {f : Bool} {l : List (Obj × Bool)} (hs : s.stack = (x, f) :: l) : s.cdir.dropLast ++ [x.name] = s.cdir := by
  unfold Stacked at h
  rw [h, hs]; simp

/-- the entry is not below a protected path, and is above one only as a directory that stays -/
def Clear (o : RsOpts) (U : List Bytes → Prop) (w : List Bytes) (e : BEntry) : Prop :=
  (∀ q, U q → ¬ q <+: w) ∧ ((∃ q, U q ∧ w <+: q) → ∃ x c, e = .dir x c ∧ x.ino.kind = .dir ∧ ∀ y ad ae, o.over y e = .ok (ad, ae) → ad ≠ .remove)

/-- the directories have the type of a directory -/
def DirKinds (s : RsSt) : Prop := ∀ p y, p ≠ [] → s.fs.ent p = some (.dir y) → y.ino.kind = .dir

theorem upd_dir (fs : FS) (p : List Bytes) (f : Obj → Obj) (q : List Bytes) (y : Obj) (h : (fs.upd p f).ent q = some (.dir y)) : ∃ z, fs.ent q = some (.dir z) ∧ (y = z ∨ y = f z) := by
  by_cases hq : q = p
  · subst hq
    unfold FS.upd at h
    cases hv : fs.ent q with
    | none => rw [hv] at h; dsimp only at h; rw [hv] at h; cases h
    | some v =>
      cases v with
      | dir z => rw [hv] at h; simp at h; exact ⟨z, rfl, Or.inr h.symm⟩
      | ino i => rw [hv] at h; dsimp only at h; rw [hv] at h; cases h
  · rw [upd_ent _ _ _ _ hq] at h; exact ⟨y, h, Or.inl rfl⟩
theorem touch_dir (now : DateT) (v : Option FEnt) (y : Obj) (h : v.map (FEnt.touch now) = some (.dir y)) : ∃ z, v = some (.dir z) ∧ y = { z with ino := { z.ino with mtime := now } } := by
  cases v with
  | none => cases h
  | some v =>
    cases v with
    | dir z => simp [FEnt.touch] at h; exact ⟨z, rfl, h.symm⟩
    | ino i => simp [FEnt.touch] at h

theorem newObj_dir (o : RsOpts) (fs : FS) (p : List Bytes) (x : Obj) (q : List Bytes) (y : Obj) (h : (fs.newObj o p x).ent q = some (.dir y)) :
    q = p ∧ y.ino.kind = .dir ∨ q ≠ p ∧ ∃ z, fs.ent q = some (.dir z) ∧ y.ino.kind = z.ino.kind := by
  by_cases hq : q = p
  · subst hq
    left
    unfold FS.newObj FS.newDir FS.newIno at h
    split at h
    · simp only [FS.put, if_true] at h; cases h; exact ⟨rfl, by assumption⟩
    · simp [FS.put] at h
  · right
    refine ⟨hq, ?_⟩
    rw [newObj_ent _ _ _ _ _ hq] at h
    split at h
    · obtain ⟨z, h1, rfl⟩ := touch_dir _ _ _ h; exact ⟨z, h1, rfl⟩
    · exact ⟨y, h, rfl⟩

theorem DirKinds.prim {a b : RsSt} (h : DirKinds a) (hp : Prim o e w hard a b) : DirKinds b := by
  intro q y hq hy
  cases hp with
  | make x hh hn hd =>
    rcases newObj_dir _ _ _ _ _ _ hy with ⟨-, h1⟩ | ⟨-, z, h1, h2⟩
    · exact h1
    · rw [h2]; exact h q z hq h1
  | link n k j v hh he hl hi hn hd =>
    have hy' : (a.fs.put o.now w (.ino j)).ent q = some (.dir y) := hy
    rw [put_ent] at hy'
    split at hy'
    · cases hy'
    · split at hy'
      · obtain ⟨z, h1, rfl⟩ := touch_dir _ _ _ hy'; exact h q z hq h1
      · exact h q y hq hy'
  | remove hh =>
    have hy' : (if w.isPrefixOf q then none else if q = w.dropLast then (a.fs.ent q).map (FEnt.touch o.now) else a.fs.ent q) = some (.dir y) := hy
    split at hy'
    · cases hy'
    · split at hy'
      · obtain ⟨z, h1, rfl⟩ := touch_dir _ _ _ hy'; exact h q z hq h1
      · exact h q y hq hy'
  | update f hk =>
    obtain ⟨z, h1, h2⟩ := upd_dir _ _ _ _ _ hy
    rcases h2 with rfl | rfl
    · exact h q y hq h1
    · rw [hk]; exact h q z hq h1
  | record n k q' b he hq' => exact h q y hq hy
  | forget k => exact h q y hq hy
  | flag => rw [flag_eq] at hy; exact h q y hq hy

theorem not_considered {b : Bool} (h : ¬ Considered o (s.cdir ++ [e.name]) e) (ht : rsTurn o stars s e = .ok (s', b)) : s' = { s with st := s'.st } := by
  unfold rsTurn at ht
  by_cases hd : (e.isDet && o.notDeleted) = true
  · rw [if_pos hd] at ht; cases ht; rfl
  · rw [if_neg hd] at ht
    by_cases hc : (o.cov (s.cdir ++ [e.name]) e && (!o.onlyDeleted || e.isDir || e.isDet)) = true
    · exfalso
      refine h ⟨?_, fun hn => ?_, fun ho => ?_⟩
      · simp only [Bool.and_eq_true] at hc; exact hc.1
      · simpa [hn] using hd
      · rw [Bool.and_eq_true] at hc; simpa [ho] using hc.2
    · rw [if_neg hc] at ht; cases ht; rfl

/-- the state of a walk that leaves the paths `U` as they are -/
structure FrameSt (U : List Bytes → Prop) (s0 s : RsSt) : Prop where
  prot : Prot U s0 s
  stk : Stacked s
  kinds : DirKinds s
  free : ∀ q, U q → ¬ q <+: s.cdir

theorem FrameSt.congr {a b : RsSt} (h : FrameSt U s0 a) (h1 : b.fs = a.fs) (h2 : b.corres = a.corres) (h3 : b.cdir = a.cdir) (h4 : b.stack = a.stack) : FrameSt U s0 b := by
  refine ⟨h.prot.congr h1 h2, ?_, ?_, ?_⟩
  · unfold Stacked; rw [h3, h4]; exact h.stk
  · unfold DirKinds; rw [h1]; exact h.kinds
  · rw [h3]; exact h.free

theorem FrameSt.done {b : Bool} (h : FrameSt U s0 s) (ht : TurnDone o e hard s s' b) (h1 : ∀ q, U q → ¬ q <+: s.cdir ++ [e.name]) (h2 : hard = true → ∀ q, U q → ¬ s.cdir ++ [e.name] <+: q) :
    FrameSt U s0 s' := by
  have hst := h.stk.turn ht
  have hk : ∀ {s1}, Prims o e (s.cdir ++ [e.name]) hard s s1 → DirKinds s1 := fun hp => hp.inv (fun _ _ hi hq => hi.prim hq) h.kinds
  have hf : ∀ {s1}, Prims o e (s.cdir ++ [e.name]) hard s s1 → ∀ q, U q → ¬ q <+: s1.cdir := fun hp q hq => by rw [(prims_frame hp).1]; exact h.free q hq
  cases ht with
  | passed => exact ⟨h.prot.congr rfl rfl, hst, h.kinds, h.free⟩
  | failed s1 st hp => have a1 := hk hp; have a2 := hf hp; exact ⟨(h.prot.prims hp h1 h2).congr rfl rfl, hst, a1, a2⟩
  | written s1 st hp => have a1 := hk hp; have a2 := hf hp; exact ⟨(h.prot.prims hp h1 h2).congr rfl rfl, hst, a1, a2⟩
  | entered s1 st x c f he hp =>
    have a1 := hk hp
    refine ⟨(h.prot.prims hp h1 h2).congr rfl rfl, hst, a1, fun q hq => ?_⟩
    show ¬ q <+: s1.cdir ++ [x.name]
    rw [(prims_frame hp).1]
    have := h1 q hq
    rw [he] at this
    exact this

/-- a walk over entries that do not concern `U` -/
theorem frame_inv (o : RsOpts) (stars : Nat → Obj) (U : List Bytes → Prop) (s0 : RsSt) (hU : ¬ U []) (C : List Bytes → BEntry → Prop)
    (hC : ∀ d e, C d e → Considered o (d ++ [e.name]) e → Clear o U (d ++ [e.name]) e)
    (hb : ∀ d x c, C d (.dir x c) → o.cov (d ++ [x.name]) (.dir x c) = true → ∀ e ∈ c, C (d ++ [x.name]) e) : WalkInv o stars C (FrameSt U s0) := by
  refine ⟨fun s e s' b hi hc ht => ?_, fun s s' x f l hi hs hl => ?_, hb⟩
  · by_cases hcon : Considered o (s.cdir ++ [e.name]) e
    · obtain ⟨h1, h2⟩ := hC _ _ hc hcon
      by_cases hab : ∃ q, U q ∧ s.cdir ++ [e.name] <+: q
      · obtain ⟨x, c, rfl, hk, hov⟩ := h2 hab
        obtain ⟨q, hq, hwq⟩ := hab
        have hne : s.cdir ++ [(BEntry.dir x c).name] ≠ q := fun hh => h1 q hq (hh ▸ List.prefix_refl _)
        have hd := hi.prot.dirs q _ hq hwq hne
        have hy : ∃ y, s.fs.ent (s.cdir ++ [x.name]) = some (.dir y) := by
          unfold FS.isDir at hd
          change (match s.fs.ent (s.cdir ++ [x.name]) with | some (.dir _) => true | _ => false) = true at hd
          cases hv : s.fs.ent (s.cdir ++ [x.name]) with
          | none => rw [hv] at hd; cases hd
          | some v =>
            cases v with
            | dir y => exact ⟨y, rfl⟩
            | ino i => rw [hv] at hd; cases hd
        obtain ⟨y, hy⟩ := hy
        have hy2 : s.fs.obj (s.cdir ++ [x.name]) = some y := by unfold FS.obj; rw [hy]
        exact hi.done (rsTurn_done_of (write_soft stars s x y c hk hy2 (hi.kinds _ _ (by simp) hy) (hov y)) ht) h1 (fun hh => by cases hh)
      · exact hi.done (rsTurn_done ht) h1 (fun _ q hq hw => hab ⟨q, hq, hw⟩)
    · rw [not_considered hcon ht]
      exact hi.congr rfl rfl rfl rfl
  · have hst := hi.stk.leave hl
    have htop := hi.stk.top hs
    obtain ⟨x', f', l', h1, h2⟩ := rsLeave_done hl
    rw [hs] at h1; cases h1
    rw [htop] at h2
    have hfree : ∀ q, U q → ¬ q <+: s.cdir.dropLast := fun q hq hp => hi.free q hq (hp.trans (List.dropLast_prefix _))
    rcases h2 with ⟨-, rfl⟩ | ⟨-, hex, rfl⟩
    · exact ⟨hi.prot.congr rfl rfl, hst, hi.kinds, hfree⟩
    · have hp : Prim o (.dir x []) s.cdir false s { s with fs := s.fs.upd s.cdir (fun y => o.ownerPerm x (o.date x y)) } :=
        .update s _ (fun y => by rw [ownerPerm_kind, date_kind])
      have hkd := hi.kinds.prim hp
      exact ⟨(hi.prot.prim hp hi.free (fun hh => by cases hh)).congr rfl rfl, hst, hkd, hfree⟩

theorem FSOk.above {fs : FS} (h : FSOk fs) : ∀ (n : Nat) {p q : List Bytes}, p.length ≤ q.length + n → fs.ent p ≠ none → q <+: p → q ≠ p → fs.isDir q = true := by
  intro n
  induction n with
  | zero =>
    intro p q hn _ hq hne
    exact absurd (hq.eq_of_length_le hn) hne
  | succ n ih =>
    intro p q hn hp hq hne
    have hpe : p ≠ [] := by rintro rfl; exact hne (List.prefix_nil.1 hq)
    have hd := h.parent p hpe hp
    have hq' : q <+: p.dropLast := by
      rcases List.eq_nil_or_concat p with rfl | ⟨l, a, rfl⟩
      · exact absurd rfl hpe
      · rw [List.concat_eq_append] at hq hne ⊢
        rw [List.dropLast_concat]
        rcases List.prefix_concat_iff.1 hq with h1 | h1
        · exact absurd h1 hne
        · exact h1
    by_cases hqd : q = p.dropLast
    · rw [hqd]; exact hd
    · refine ih ?_ ?_ hq' hqd
      · rw [List.length_dropLast]; have := List.length_pos_iff.2 hpe; omega
      · intro hc; unfold FS.isDir at hd; rw [hc] at hd; cases hd

end Dar
