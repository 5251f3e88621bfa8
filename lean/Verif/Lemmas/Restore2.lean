import Verif.Lemmas.Restore
/- The invariant of a restoration. -/
namespace Dar

/-- only `p`, what is below and the date of the directory that contains it are changed -/
structure Edit (now : DateT) (fs fs' : FS) (p : List Bytes) (touched : Bool) : Prop where
  other : ∀ q, q ≠ p.dropLast → ¬ p <+: q → fs'.ent q = fs.ent q
  parent : fs'.ent p.dropLast = fs.ent p.dropLast ∨ touched = true ∧ fs'.ent p.dropLast = (fs.ent p.dropLast).map (FEnt.touch now)
  inside : ∀ q, p <+: q → q ≠ p → fs'.ent q = fs.ent q ∨ fs'.ent q = none
  inos : ∀ i, i < fs.next → fs.ent p ≠ some (.ino i) → fs'.ino i = fs.ino i
  next : fs.next ≤ fs'.next

theorem touch_touch (now : DateT) (v : Option FEnt) : (v.map (FEnt.touch now)).map (FEnt.touch now) = v.map (FEnt.touch now) := by
  cases v with
  | none => rfl
  | some v => cases v <;> rfl

theorem snoc_not_prefix (d : List Bytes) (n : Bytes) : ¬ (d ++ [n]) <+: d := by
  intro h
  have := h.length_le
  simp at this

theorem prefix_bool (p q : List Bytes) : p.isPrefixOf q = decide (p <+: q) := by
  by_cases h : p <+: q
  · rw [List.isPrefixOf_iff_prefix.2 h]; simp [h]
  · rw [decide_eq_false h]
    cases hb : p.isPrefixOf q with
    | false => rfl
    | true => exact absurd (List.isPrefixOf_iff_prefix.1 hb) h

theorem setAt_edit {now : DateT} {fs fs' : FS} {p : List Bytes} {b : Bool} (z : Obj) (h : Edit now fs fs' p b) (hne : p ≠ [])
    (hid : ∀ i, fs'.ent p = some (.ino i) → fs.ent p = some (.ino i) ∨ fs.next ≤ i) : Edit now fs (fs'.setAt p z) p b := by
  have hdl : p.dropLast ≠ p := by
    intro h; have := congrArg List.length h; simp at this
    have : p.length ≠ 0 := by simpa using hne
    omega
  refine ⟨fun q h1 h2 => ?_, ?_, fun q h1 h2 => ?_, fun i h1 h2 => ?_, ?_⟩
  · rw [FS.setAt_ent, if_neg (by rintro rfl; exact h2 (List.prefix_refl _))]; exact h.other q h1 h2
  · rw [FS.setAt_ent, if_neg hdl]; exact h.parent
  · rw [FS.setAt_ent, if_neg h2]; exact h.inside q h1 h2
  · rw [← h.inos i h1 h2]
    unfold FS.setAt FS.upd
    cases hv : fs'.ent p with
    | none => rfl
    | some v =>
      cases v with
      | dir o => rfl
      | ino j =>
        dsimp only
        rw [if_neg]
        rintro rfl
        rcases hid i hv with h3 | h3
        · exact h2 h3
        · omega
  · have : (fs'.setAt p z).next = fs'.next := by
      unfold FS.setAt FS.upd
      cases fs'.ent p with
      | none => rfl
      | some v => cases v <;> rfl
    rw [this]; exact h.next

theorem put_edit (now : DateT) (fs : FS) (d : List Bytes) (n : Bytes) (v : FEnt) : Edit now fs (fs.put now (d ++ [n]) v) (d ++ [n]) true := by
  unfold FS.put
  refine ⟨fun q h1 h2 => ?_, ?_, fun q h1 h2 => ?_, fun i h1 h2 => rfl, Nat.le_refl _⟩
  · dsimp only
    rw [if_neg (by rintro rfl; exact h2 (List.prefix_refl _)), if_neg h1]
  · dsimp only
    rw [List.dropLast_concat, if_neg (by intro h; have := congrArg List.length h; simp at this), if_pos rfl]
    exact Or.inr ⟨rfl, rfl⟩
  · dsimp only
    rw [if_neg h2, List.dropLast_concat, if_neg (by rintro rfl; exact snoc_not_prefix _ _ h1)]
    exact Or.inl rfl

theorem remove_edit (now : DateT) (fs : FS) (d : List Bytes) (n : Bytes) : Edit now fs (fs.remove now (d ++ [n])) (d ++ [n]) true := by
  unfold FS.remove
  refine ⟨fun q h1 h2 => ?_, ?_, fun q h1 h2 => ?_, fun i h1 h2 => rfl, Nat.le_refl _⟩
  · simp only [prefix_bool, decide_eq_true_eq]
    rw [if_neg h2, if_neg h1]
  · simp only [prefix_bool, decide_eq_true_eq, List.dropLast_concat]
    rw [if_neg (snoc_not_prefix d n)]
    exact Or.inr (by simp)
  · simp only [prefix_bool, decide_eq_true_eq]
    rw [if_pos h1]; exact Or.inr rfl

theorem remove_here (now : DateT) (fs : FS) (p q : List Bytes) (h : p <+: q) : (fs.remove now p).ent q = none := by
  unfold FS.remove
  simp only [prefix_bool, decide_eq_true_eq]
  rw [if_pos h]

theorem newObj_edit (o : RsOpts) (fs : FS) (d : List Bytes) (n : Bytes) (x : Obj) : Edit o.now fs (fs.newObj o (d ++ [n]) x) (d ++ [n]) true := by
  have h := fun v => put_edit o.now fs d n v
  unfold FS.newObj
  by_cases hk : x.ino.kind = .dir
  · rw [if_pos hk]; exact h _
  · rw [if_neg hk]
    obtain ⟨h1, h2, h3, h4, h5⟩ := h (.ino fs.next)
    refine ⟨h1, h2, h3, fun i hi hn => ?_, ?_⟩
    · unfold FS.newIno; dsimp only; rw [if_neg (by omega)]
    · unfold FS.newIno; exact Nat.le_succ _

theorem Edit.trans_true {now : DateT} {fs fs1 fs2 : FS} {p : List Bytes} (h1 : Edit now fs fs1 p true) (h2 : Edit now fs1 fs2 p true)
    (h : ∀ i, fs1.ent p ≠ some (.ino i)) : Edit now fs fs2 p true := by
  refine ⟨fun q a b => by rw [h2.other q a b, h1.other q a b], ?_, fun q a b => ?_, fun i a b => ?_, Nat.le_trans h1.next h2.next⟩
  · rcases h2.parent with h3 | ⟨-, h3⟩ <;> rcases h1.parent with h4 | ⟨-, h4⟩
    · exact Or.inl (by rw [h3, h4])
    · exact Or.inr ⟨rfl, by rw [h3, h4]⟩
    · exact Or.inr ⟨rfl, by rw [h3, h4]⟩
    · exact Or.inr ⟨rfl, by rw [h3, h4, touch_touch]⟩
  · rcases h2.inside q a b with h3 | h3
    · rw [h3]; exact h1.inside q a b
    · exact Or.inr h3
  · rw [h2.inos i (Nat.lt_of_lt_of_le a h1.next) (h i), h1.inos i a b]

theorem Edit.weaken {now : DateT} {fs fs' : FS} {p : List Bytes} {b : Bool} (h : Edit now fs fs' p b) : Edit now fs fs' p true :=
  ⟨h.other, by rcases h.parent with h | ⟨-, h⟩ <;> simp [h], h.inside, h.inos, h.next⟩

theorem edit_refl (now : DateT) (fs : FS) (p : List Bytes) (b : Bool) : Edit now fs fs p b :=
  ⟨fun _ _ _ => rfl, Or.inl rfl, fun _ _ _ => Or.inl rfl, fun _ _ _ => rfl, Nat.le_refl _⟩

/-- what is at `p` after the creation -/
theorem newObj_here (o : RsOpts) (fs : FS) (p : List Bytes) (x : Obj) :
    (fs.newObj o p x).ent p = some (if x.ino.kind = .dir then .dir (o.blank x) else .ino fs.next) := by
  unfold FS.newObj FS.newIno FS.newDir FS.put
  by_cases hk : x.ino.kind = .dir
  · simp [hk]
  · simp [hk]
theorem newObj_next (o : RsOpts) (fs : FS) (p : List Bytes) (x : Obj) (hk : x.ino.kind ≠ .dir) : (fs.newObj o p x).next = fs.next + 1 := by
  unfold FS.newObj; rw [if_neg hk]; rfl
theorem setAt_next (fs : FS) (p : List Bytes) (z : Obj) : (fs.setAt p z).next = fs.next := by
  unfold FS.setAt FS.upd
  cases fs.ent p with
  | none => rfl
  | some v => cases v <;> rfl

theorem setAt_ino (fs : FS) (p : List Bytes) (z : Obj) (i : Nat) (h : fs.ent p = some (.ino i)) : (fs.setAt p z).ent p = some (.ino i) ∧ (fs.setAt p z).ino i = z := by
  refine ⟨by rw [FS.setAt_ent, if_pos rfl, h], ?_⟩
  unfold FS.setAt FS.upd
  rw [h]; simp

/-- the edit made by writeInode -/
theorem based_edit {o : RsOpts} {fs base : FS} {d : List Bytes} {n : Bytes} {x : Obj} {dn : RsDone} (z : Obj) (hids : ∀ q i, fs.ent q = some (.ino i) → i < fs.next)
    (hkinds : ∀ i, fs.ent (d ++ [n]) = some (.ino i) → (fs.ino i).ino.kind ≠ .dir) (hdirs : ∀ y, fs.ent (d ++ [n]) = some (.dir y) → y.ino.kind = .dir)
    (h : Based o fs (d ++ [n]) x base dn) :
    Edit o.now fs (base.setAt (d ++ [n]) z) (d ++ [n]) (decide (dn = .restored)) ∧
    (x.ino.kind = .dir → (base.setAt (d ++ [n]) z).ent (d ++ [n]) = some (.dir z)) ∧
    (x.ino.kind ≠ .dir → ∃ i, (base.setAt (d ++ [n]) z).ent (d ++ [n]) = some (.ino i) ∧ (base.setAt (d ++ [n]) z).ino i = z ∧ i < (base.setAt (d ++ [n]) z).next ∧
      (fs.ent (d ++ [n]) = some (.ino i) ∨ fs.next ≤ i)) := by
  have hne : d ++ [n] ≠ [] := by simp
  cases h with
  | keep y d2 ho hk =>
    refine ⟨setAt_edit z (edit_refl _ _ _ _) hne (fun i h => Or.inl h), fun hx => ?_, fun hx => ?_⟩
    · rw [FS.setAt_ent, if_pos rfl]
      cases hv : fs.ent (d ++ [n]) with
      | none => rw [FS.obj, hv] at ho; cases ho
      | some v =>
        cases v with
        | dir w => rfl
        | ino i =>
          rw [FS.obj, hv] at ho; cases ho
          exact absurd (hk.trans hx) (hkinds i hv)
    · cases hv : fs.ent (d ++ [n]) with
      | none => rw [FS.obj, hv] at ho; cases ho
      | some v =>
        cases v with
        | dir w =>
          rw [FS.obj, hv] at ho; cases ho
          exact absurd (hk.symm.trans (hdirs _ hv)) hx
        | ino i => exact ⟨i, (setAt_ino _ _ z i hv).1, (setAt_ino _ _ z i hv).2, by rw [setAt_next]; exact hids _ i hv, Or.inl rfl⟩
  | fresh hno =>
    have hh := newObj_here o fs (d ++ [n]) x
    refine ⟨setAt_edit z (by simpa using newObj_edit o fs d n x) hne (fun i h => ?_), fun hx => ?_, fun hx => ?_⟩
    · rw [hh] at h
      split at h
      · cases h
      · cases h; exact Or.inr (Nat.le_refl _)
    · rw [FS.setAt_ent, if_pos rfl, hh, if_pos hx]
    · rw [if_neg hx] at hh
      exact ⟨_, (setAt_ino _ _ z _ hh).1, (setAt_ino _ _ z _ hh).2, by rw [setAt_next, newObj_next _ _ _ _ hx]; omega, Or.inr (Nat.le_refl _)⟩
  | replaced y ho hyk =>
    have hh := newObj_here o (fs.remove o.now (d ++ [n])) (d ++ [n]) x
    have e1 := remove_edit o.now fs d n
    have e2 := newObj_edit o (fs.remove o.now (d ++ [n])) d n x
    refine ⟨setAt_edit z (by simpa using e1.trans_true e2 (fun i => by rw [remove_here _ _ _ _ (List.prefix_refl _)]; simp)) hne (fun i h => ?_), fun hx => ?_, fun hx => ?_⟩
    · rw [hh] at h
      split at h
      · cases h
      · cases h; exact Or.inr (Nat.le_refl _)
    · rw [FS.setAt_ent, if_pos rfl, hh, if_pos hx]
    · rw [if_neg hx] at hh
      exact ⟨_, (setAt_ino _ _ z _ hh).1, (setAt_ino _ _ z _ hh).2, by rw [setAt_next, newObj_next _ _ _ _ hx]; omega, Or.inr (Nat.le_refl _)⟩

/-- the directories being restored -/
def Opened (cat : BCat) (fs : FS) : List (Obj × Bool) → List Bytes → Prop
  | [], d => d = []
  | (x, f) :: st, d => ∃ d', d = d' ++ [x.name] ∧ (∃ c, treeAt cat.root d = some (.dir x c)) ∧
      (∃ y, fs.ent d = some (.dir y) ∧ SemiMatch y x ∧ (f = true ∨ Match y x)) ∧ Opened cat fs st d'

theorem opened_congr {cat : BCat} {fs fs' : FS} : ∀ (st : List (Obj × Bool)) (d : List Bytes), Opened cat fs st d →
    (∀ q, q <+: d → fs'.ent q = fs.ent q) → Opened cat fs' st d
  | [], d, h, _ => h
  | (x, f) :: st, d, ⟨d', h1, h2, ⟨y, h3, h4⟩, h5⟩, h => ⟨d', h1, h2, ⟨y, by rw [h d (List.prefix_refl _)]; exact h3, h4⟩,
      opened_congr st d' h5 (fun q hq => h q (by rw [h1]; exact hq.trans (List.prefix_append _ _)))⟩

/-- restore_date set on the last directory -/
def flagTop : List (Obj × Bool) → List (Obj × Bool)
  | [] => []
  | (x, _) :: l => (x, true) :: l
theorem flag_eq (s : RsSt) : s.flag = { s with stack := flagTop s.stack } := by
  obtain ⟨a, b, stack, c, d, e⟩ := s
  cases stack <;> rfl

theorem opened_edit {cat : BCat} {now : DateT} {fs fs' : FS} {st : List (Obj × Bool)} {d : List Bytes} {n : Bytes} {b : Bool} (h : Opened cat fs st d)
    (he : Edit now fs fs' (d ++ [n]) b) : Opened cat fs' (if b = true then flagTop st else st) d := by
  cases st with
  | nil => cases b <;> exact h
  | cons a st =>
    obtain ⟨x, f⟩ := a
    obtain ⟨d', h1, h2, ⟨y, h3, h4, h5⟩, h6⟩ := h
    have hin : Opened cat fs' st d' := by
      refine opened_congr st d' h6 (fun q hq => he.other q ?_ ?_)
      · rw [List.dropLast_concat]
        rintro rfl
        have := hq.length_le
        rw [h1] at this
        simp at this
      · intro h
        have := (h.trans hq).length_le
        rw [h1] at this
        simp at this
    have hpar := he.parent
    rw [List.dropLast_concat] at hpar
    rcases hpar with hp | ⟨hb, hp⟩
    · have : ∀ g, (g = true ∨ g = f) → Opened cat fs' ((x, g) :: st) d := by
        intro g hg
        refine ⟨d', h1, h2, ⟨y, by rw [hp]; exact h3, h4, ?_⟩, hin⟩
        rcases hg with rfl | rfl
        · exact Or.inl rfl
        · exact h5
      cases b
      · exact this f (Or.inr rfl)
      · exact this true (Or.inl rfl)
    · rw [hb, if_pos rfl]
      refine ⟨d', h1, h2, ⟨{ y with ino := { y.ino with mtime := now } }, by rw [hp, h3]; rfl, ⟨h4.kind, h4.eas, h4.fsas⟩, Or.inl rfl⟩, hin⟩

theorem opened_isDir {cat : BCat} {fs : FS} {st : List (Obj × Bool)} {d : List Bytes} (h : Opened cat fs st d) (hr : fs.isDir [] = true) : fs.isDir d = true := by
  cases st with
  | nil => cases h; exact hr
  | cons a st => obtain ⟨d', -, -, ⟨y, h3, -⟩, -⟩ := h; unfold FS.isDir; rw [h3]

/-- the state of the restoration of `cat` on `fs0`: `Z` is what has been treated, `d` the current directory -/
structure RInv (cat : BCat) (fs0 : FS) (Z : List Bytes → Prop) (d : List Bytes) (s : RsSt) : Prop where
  cdir : s.cdir = d
  skip : s.skip = 0
  err : s.st.errored = 0
  root : s.fs.isDir [] = true
  todo : ∀ q, q ≠ [] → ¬ Z q → ¬ q <+: d → s.fs.ent q = fs0.ent q ∧ ∀ i, fs0.ent q = some (.ino i) → s.fs.ino i = fs0.ino i
  done : ∀ q, Z q → FoundAt s.fs cat.stars q (treeAt cat.root q)
  zopen : ∀ q, Z q → ¬ q <+: d
  opened : Opened cat s.fs s.stack d
  ids : ∀ q i, s.fs.ent q = some (.ino i) → i < s.fs.next
  next : fs0.next ≤ s.fs.next
  uniq : ∀ p q i, s.fs.ent p = some (.ino i) → s.fs.ent q = some (.ino i) → p = q ∨
    Z p ∧ Z q ∧ ∃ m n k, treeAt cat.root p = some (.mirage m k) ∧ treeAt cat.root q = some (.mirage n k)
  lab : ∀ k v, s.label k = some v → Z v.1 ∧ (∃ n, treeAt cat.root v.1 = some (.mirage n k)) ∧ (v.2 = true ∨ (cat.stars k).eaSaved = false)
  labels : ∀ p n k, Z p → treeAt cat.root p = some (.mirage n k) → ∃ v, s.label k = some v ∧ s.fs.ent p = s.fs.ent v.1

theorem foundAt_congr {fs fs' : FS} {stars : Nat → Obj} {q : List Bytes} {v : Option BEntry} (h : FoundAt fs stars q v) (he : fs'.ent q = fs.ent q)
    (hi : ∀ i, fs.ent q = some (.ino i) → fs'.ino i = fs.ino i) : FoundAt fs' stars q v := by
  cases v with
  | none => unfold FoundAt at *; rw [he]; exact h
  | some e =>
    cases e with
    | node x => obtain ⟨i, h1, h2⟩ := h; exact ⟨i, by rw [he]; exact h1, by rw [hi i h1]; exact h2⟩
    | mirage n k => obtain ⟨i, h1, h2⟩ := h; exact ⟨i, by rw [he]; exact h1, by rw [hi i h1]; exact h2⟩
    | dir x c => obtain ⟨y, h1, h2⟩ := h; exact ⟨y, by rw [he]; exact h1, h2⟩
    | detruit n k t => unfold FoundAt at *; rw [he]; exact h
    | ignored n => exact h
    | ignoredDir x => exact h

/-- what has been treated, with all that is below `p` -/
def withBelow (Z : List Bytes → Prop) (p : List Bytes) : List Bytes → Prop := fun q => Z q ∨ p <+: q

/-- an entry that is not a directory has been treated -/
theorem RInv.leaf {cat : BCat} {fs0 : FS} {Z : List Bytes → Prop} {d : List Bytes} {s s' : RsSt} {now : DateT} {n : Bytes} {b : Bool} (h : RInv cat fs0 Z d s)
    (hz : ∀ q, d ++ [n] <+: q → ¬ Z q) (he : Edit now s.fs s'.fs (d ++ [n]) b)
    (hcd : s'.cdir = s.cdir) (hsk : s'.skip = s.skip) (her : s'.st.errored = s.st.errored) (hst : s'.stack = if b = true then flagTop s.stack else s.stack)
    (hfound : FoundAt s'.fs cat.stars (d ++ [n]) (treeAt cat.root (d ++ [n])))
    (hin : ∀ q, d ++ [n] <+: q → q ≠ d ++ [n] → s'.fs.ent q = none ∧ treeAt cat.root q = none)
    (hid : ∀ i, s'.fs.ent (d ++ [n]) = some (.ino i) → i < s'.fs.next ∧ ((s.fs.ent (d ++ [n]) = some (.ino i) ∨ s.fs.next ≤ i) ∨
      ∃ v m k, s.label k = some v ∧ treeAt cat.root (d ++ [n]) = some (.mirage m k) ∧ s.fs.ent v.1 = some (.ino i)))
    (hl1 : ∀ k v, s'.label k = some v → s.label k = some v ∨
      v.1 = d ++ [n] ∧ (∃ m, treeAt cat.root (d ++ [n]) = some (.mirage m k)) ∧ (v.2 = true ∨ (cat.stars k).eaSaved = false))
    (hl2 : ∀ k v, s.label k = some v → s'.label k = some v)
    (hl3 : ∀ m k, treeAt cat.root (d ++ [n]) = some (.mirage m k) → ∃ v, s'.label k = some v ∧ s'.fs.ent (d ++ [n]) = s'.fs.ent v.1) :
    RInv cat fs0 (withBelow Z (d ++ [n])) d s' := by
  have hnd : ∀ q, q <+: d → ¬ d ++ [n] <+: q := fun q h1 h2 => snoc_not_prefix d n (h2.trans h1)
  -- away from the entry
  have hent : ∀ q, q ≠ d → ¬ d ++ [n] <+: q → s'.fs.ent q = s.fs.ent q := fun q h1 h2 => he.other q (by rw [List.dropLast_concat]; exact h1) h2
  have hzent : ∀ q, Z q → s'.fs.ent q = s.fs.ent q := fun q hq => hent q (by rintro rfl; exact h.zopen _ hq (List.prefix_refl _)) (fun hp => hz q hp hq)
  have hnoti : ∀ q i, q ≠ d ++ [n] → s.fs.ent q = some (.ino i) → ¬ Z (d ++ [n]) → s.fs.ent (d ++ [n]) ≠ some (.ino i) := by
    intro q i hq h1 h2 h3
    rcases h.uniq _ _ i h1 h3 with h4 | ⟨-, h4, -⟩
    · exact hq h4
    · exact h2 h4
  have hnz : ¬ Z (d ++ [n]) := hz _ (List.prefix_refl _)
  have hinos : ∀ q i, q ≠ d ++ [n] → s.fs.ent q = some (.ino i) → s'.fs.ino i = s.fs.ino i := fun q i hq h1 =>
    he.inos i (h.ids q i h1) (hnoti q i hq h1 hnz)
  have hdent : ∀ i, s'.fs.ent d ≠ some (.ino i) := by
    intro i hi
    have hd := opened_isDir h.opened h.root
    unfold FS.isDir at hd
    have hp := he.parent
    rw [List.dropLast_concat] at hp
    cases hv : s.fs.ent d with
    | none => rw [hv] at hd; cases hd
    | some w =>
      rw [hv] at hd hp
      cases w with
      | ino j => cases hd
      | dir y => rcases hp with hp | ⟨-, hp⟩ <;> rw [hp] at hi <;> cases hi
  -- an inode of the new state
  have hback : ∀ q i, q ≠ d ++ [n] → s'.fs.ent q = some (.ino i) → s.fs.ent q = some (.ino i) := by
    intro q i hq hi
    by_cases hpq : d ++ [n] <+: q
    · rw [(hin q hpq hq).1] at hi; cases hi
    · rw [← hent q (by rintro rfl; exact hdent i hi) hpq]; exact hi
  have hlk : ∀ p i, p ≠ d ++ [n] → s'.fs.ent (d ++ [n]) = some (.ino i) → s'.fs.ent p = some (.ino i) →
      withBelow Z (d ++ [n]) p ∧ withBelow Z (d ++ [n]) (d ++ [n]) ∧ ∃ m n' k, treeAt cat.root p = some (.mirage m k) ∧ treeAt cat.root (d ++ [n]) = some (.mirage n' k) := by
    intro p i hp h1 h2
    have h3 := hback p i hp h2
    rcases (hid i h1).2 with (h4 | h4) | ⟨v, m, k, h4, h5, h6⟩
    · exact absurd h4 (hnoti p i hp h3 hnz)
    · have := h.ids p i h3; omega
    · obtain ⟨z1, ⟨m', z2⟩, -⟩ := h.lab k v h4
      refine ⟨?_, Or.inr (List.prefix_refl _), ?_⟩
      · rcases h.uniq _ _ i h3 h6 with rfl | ⟨a, -, -⟩
        · exact Or.inl z1
        · exact Or.inl a
      · rcases h.uniq _ _ i h3 h6 with rfl | ⟨-, -, m2, n2, k2, a, b2⟩
        · exact ⟨m', m, k, z2, h5⟩
        · rw [z2] at b2
          cases b2
          exact ⟨m2, m, k, a, h5⟩
  refine ⟨hcd.trans h.cdir, hsk.trans h.skip, her.trans h.err, ?_, ?_, ?_, ?_, ?_, ?_, Nat.le_trans h.next he.next, ?_, ?_, ?_⟩
  · -- root
    cases hd : d with
    | nil =>
      have hr := h.root
      have hp := he.parent
      rw [hd] at hp
      simp only [List.nil_append, List.dropLast_singleton] at hp
      unfold FS.isDir at *
      cases hv : s.fs.ent [] with
      | none => rw [hv] at hr; cases hr
      | some w =>
        rw [hv] at hr hp
        cases w with
        | ino j => cases hr
        | dir y => rcases hp with hp | ⟨-, hp⟩ <;> rw [hp] <;> rfl
    | cons a l =>
      unfold FS.isDir
      rw [hent [] (by rw [hd]; simp) (by intro hc; have := hc.length_le; simp at this)]
      exact h.root
  · intro q hq hZ hqd
    have hZ1 : ¬ Z q := fun hc => hZ (Or.inl hc)
    have hZ2 : ¬ d ++ [n] <+: q := fun hc => hZ (Or.inr hc)
    obtain ⟨t1, t2⟩ := h.todo q hq hZ1 hqd
    refine ⟨by rw [hent q (by rintro rfl; exact hqd (List.prefix_refl _)) hZ2]; exact t1, fun i hi => ?_⟩
    rw [hinos q i (by rintro rfl; exact hZ2 (List.prefix_refl _)) (by rw [t1]; exact hi), t2 i hi]
  · rintro q (hq | hq)
    · exact foundAt_congr (h.done q hq) (hzent q hq) (fun i hi => hinos q i (by rintro rfl; exact hnz hq) hi)
    · by_cases hqe : q = d ++ [n]
      · rw [hqe]; exact hfound
      · obtain ⟨a, b⟩ := hin q hq hqe
        rw [b]; exact a
  · rintro q (hq | hq)
    · exact h.zopen q hq
    · exact fun hc => hnd q hc hq
  · rw [hst]; exact opened_edit h.opened he
  · intro q i hi
    by_cases hq : q = d ++ [n]
    · rw [hq] at hi; exact (hid i hi).1
    · exact Nat.lt_of_lt_of_le (h.ids q i (hback q i hq hi)) he.next
  · intro p q i hp hq
    by_cases hpe : p = d ++ [n]
    · by_cases hqe : q = d ++ [n]
      · exact Or.inl (hpe.trans hqe.symm)
      · rw [hpe] at hp
        obtain ⟨a, b, m, n', k, c1, c2⟩ := hlk q i hqe hp hq
        rw [hpe]
        exact Or.inr ⟨b, a, n', m, k, c2, c1⟩
    · by_cases hqe : q = d ++ [n]
      · rw [hqe] at hq
        obtain ⟨a, b, m, n', k, c1, c2⟩ := hlk p i hpe hq hp
        rw [hqe]
        exact Or.inr ⟨a, b, m, n', k, c1, c2⟩
      · rcases h.uniq p q i (hback p i hpe hp) (hback q i hqe hq) with hh | ⟨a, b, c⟩
        · exact Or.inl hh
        · exact Or.inr ⟨Or.inl a, Or.inl b, c⟩
  · intro k v hv
    rcases hl1 k v hv with h1 | ⟨h1, h2, h3⟩
    · obtain ⟨a, b, c⟩ := h.lab k v h1
      exact ⟨Or.inl a, b, c⟩
    · exact ⟨Or.inr (by rw [h1]; exact List.prefix_refl _), by rw [h1]; exact h2, h3⟩
  · rintro p m k (hp | hp) ht
    · obtain ⟨v, h1, h2⟩ := h.labels p m k hp ht
      refine ⟨v, hl2 k v h1, ?_⟩
      rw [hzent p hp, hzent v.1 (h.lab k v h1).1]
      exact h2
    · by_cases hpe : p = d ++ [n]
      · rw [hpe] at ht ⊢; exact hl3 m k ht
      · rw [(hin p hp hpe).2] at ht; cases ht

end Dar
