import Verif.Props.Decremental
/- C45: a decremental backup is restored over the state of the new archive: this gives the state of the old one. -/
namespace Dar

/-- What the decremental backup relies on: `x` is what the old archive has at a path, `y` the new one. -/
structure DecrVisible (capa : TimeUnit) (t1 t2 : BCat) : Prop where
  /-- a change of the content changes the inode information -/
  data : ∀ p x y, objAt t1 p = some x → objAt t2 p = some y → SameInode x.ino y.ino → y.ino.kind = x.ino.kind ∧ SameContent y x
  /-- a change of the attributes changes the date, if there are extended attributes -/
  attr : ∀ p x y, objAt t1 p = some x → objAt t2 p = some y → x.ino.eaStatus = .full → y.ino.eaStatus = .full → SameDate capa x.ino.ctime y.ino.ctime →
    y.eas = x.eas ∧ (x.fsa ≠ .none → y.fsa ≠ .none ∧ y.fsas = x.fsas)
  /-- without extended attributes, the filesystem specific ones do not change (see the counterexample) -/
  fsa : ∀ p x y, objAt t1 p = some x → objAt t2 p = some y → x.ino.eaStatus = .none → y.ino.eaStatus = .none → x.fsa ≠ .none → y.fsa ≠ .none ∧ y.fsas = x.fsas
  /-- what had no extended attributes was not given some (see the counterexample) -/
  added : ∀ p x y, objAt t1 p = some x → objAt t2 p = some y → x.ino.eaStatus = .none → y.ino.eaStatus = .none
  /-- a directory does not take the place of something else (the restoration would have to remove it) -/
  dirs : ∀ p x y, objAt t1 p = some x → objAt t2 p = some y → y.ino.kind = .dir → x.ino.kind = .dir

/-- the inode of the decremental backup where both archives have one -/
theorem decr_inode {o : MgOpts} {d : OverData} {a : OverEa} {x y z : Obj} (hx : ScannedObj x)
    (hd : d = .preserveMark ∨ d = .preserve) (ha : a = .preserveMark ∨ a = .preserve) (h : InodeOf o d a x y z) :
    z = { x with ino := { x.ino with status := if d = .preserveMark then .notSaved else .saved,
                                     eaStatus := if a = .preserveMark ∧ x.ino.eaStatus = .full then .part else x.ino.eaStatus },
                 fsa := if a = .preserveMark ∧ x.fsa = .full then .part else x.fsa } := by
  obtain ⟨_, h2, h3⟩ := h
  have hk : KeepsOld d := by rcases hd with rfl | rfl; exacts [Or.inr (Or.inl rfl), Or.inl rfl]
  have hz := h3 hk (by rcases ha with rfl | rfl <;> simp)
  have h2 := h2 (by rintro ⟨h, _⟩; rcases hd with rfl | rfl <;> rcases h with h | h <;> cases h)
  have hst := hx.status
  have hr : retained o d x y = { x with ino := { x.ino with status := if d = .preserveMark then .notSaved else .saved } } := by
    rcases hd with rfl | rfl
    · simp only [retained, Obj.asAlreadySaved, hst]; rfl
    · simp only [retained]
      rw [if_neg (by simp), ← hst]
  have he : z.ino.eaStatus = (if a = .preserveMark ∧ x.ino.eaStatus = .full then .part else x.ino.eaStatus) ∧
      z.fsa = (if a = .preserveMark ∧ x.fsa = .full then .part else x.fsa) := by
    rcases ha with rfl | rfl
    · obtain ⟨_, e1, e2⟩ := h2
      unfold EaMarked at e1
      unfold FsaMarked at e2
      refine ⟨?_, ?_⟩
      · rcases hx.ea with h | ⟨h, _⟩ <;> rw [h] at e1 ⊢ <;> simpa using e1
      · rcases hx.fsa with ⟨h, _⟩ | h <;> rw [h] at e2 ⊢ <;> simpa using e2
    · obtain ⟨_, e1, e2⟩ := h2
      unfold EaOf at e1
      unfold FsaOf at e2
      refine ⟨?_, ?_⟩
      · rcases hx.ea with h | ⟨h, _⟩ <;> rw [h] at e1 ⊢
        · simpa using e1.1
        · simpa using e1
      · rcases hx.fsa with ⟨h, _⟩ | h <;> rw [h] at e2 ⊢
        · simpa using e2.1
        · simpa using e2
  rw [he.1, he.2, hr] at hz
  exact hz

theorem decr_but {x : Obj} (hx : ScannedObj x) (b c : Prop) [Decidable b] [Decidable c] (s : SavedStatus) :
    SameBut x { x with ino := { x.ino with status := s, eaStatus := if b ∧ x.ino.eaStatus = .full then .part else x.ino.eaStatus },
                       fsa := if c ∧ x.fsa = .full then .part else x.fsa } := by
  refine ⟨⟨_, _, _, _, rfl⟩, fun h => Or.inl ?_, fun h => ?_, fun h => ?_, fun h => ?_⟩
  · simp [h]
  · by_cases hb : b <;> simp [h, hb]
  · simp [h]
  · by_cases hb : c <;> simp [h, hb]
theorem sameBut_refl (x : Obj) : SameBut x x :=
  ⟨⟨x.ino.status, x.ino.eaStatus, x.ino.dirty, x.fsa, rfl⟩, Or.inl, Or.inr, id, fun h => by rw [h]; simp⟩

section
variable {o : MgOpts} {t1 t2 : BCat} {r : BCat} {dt : DateT}

/-- what is at a path of the decremental backup -/
theorem decr_at (s1 : Scanned t1) (s2 : Scanned t2) (h : Decremental o t1.stars dt t1.root t2.root r.root) (p : List Bytes) :
    (∀ x, treeAt t1.root p = some (.node x) → ∃ z, treeAt r.root p = some (.node z) ∧
      ((treeAt t2.root p = none ∧ z = x) ∨ ∃ y d a, objAt t2 p = some y ∧ InodeOf o d a x y z ∧
        (d = .preserveMark ∧ SameInode x.ino y.ino ∨ d = .preserve ∧ ¬ SameInode x.ino y.ino) ∧
        (a = .preserveMark ∧ AttrSame o.capa (some x) (some y) ∨ a = .preserve ∧ ¬ AttrSame o.capa (some x) (some y)))) ∧
    (∀ x c, treeAt t1.root p = some (.dir x c) → ∃ z c', treeAt r.root p = some (.dir z c') ∧
      ((treeAt t2.root p = none ∧ z = x) ∨ ∃ y d a, objAt t2 p = some y ∧ InodeOf o d a x y z ∧
        (d = .preserveMark ∧ SameInode x.ino y.ino ∨ d = .preserve ∧ ¬ SameInode x.ino y.ino) ∧
        (a = .preserveMark ∧ AttrSame o.capa (some x) (some y) ∨ a = .preserve ∧ ¬ AttrSame o.capa (some x) (some y)))) := by
  have key : ∀ e1 y, treeAt t1.root p = some e1 → e1.isIgnoredDir = false → objAt t2 p = some y → (treeAt t2.root p = some (.node y) ∨ ∃ c, treeAt t2.root p = some (.dir y c)) →
      ∀ x, e1.obj t1.stars = some x → ∃ d a e, treeAt r.root p = some e ∧ (∀ e2, e2.obj t1.stars = some y → HeadOf o t1.stars t1.stars d a e1 e2 e → True) ∧
        (∃ e2, e2.obj t1.stars = some y ∧ HeadOf o t1.stars t1.stars d a e1 e2 e) ∧
        (d = .preserveMark ∧ SameInode x.ino y.ino ∨ d = .preserve ∧ ¬ SameInode x.ino y.ino) ∧
        (a = .preserveMark ∧ AttrSame o.capa (some x) (some y) ∨ a = .preserve ∧ ¬ AttrSame o.capa (some x) (some y)) := by
    intro e1 y q1 hi q2 q3 x hx
    have hds : ∀ {u v : Obj}, DataSame (some u) (some v) ↔ SameInode u.ino v.ino := by
      intro u v
      constructor
      · rintro ⟨_, _, h1, h2, h3⟩; cases h1; cases h2; exact h3
      · intro h; exact ⟨_, _, rfl, rfl, h⟩
    rcases q3 with q3 | ⟨c, q3⟩
    · obtain ⟨d, a, e, k1, k2, k3, k4⟩ := h.both p e1 _ q1 q3 hi rfl
      rw [hx, show (BEntry.node y).obj t1.stars = some y from rfl] at k1 k2
      rw [hds] at k1
      exact ⟨d, a, e, k3, fun _ _ _ => trivial, ⟨_, rfl, k4⟩, k1, k2⟩
    · obtain ⟨d, a, e, k1, k2, k3, k4⟩ := h.both p e1 _ q1 q3 hi rfl
      rw [hx, show (BEntry.dir y c).obj t1.stars = some y from rfl] at k1 k2
      rw [hds] at k1
      exact ⟨d, a, e, k3, fun _ _ _ => trivial, ⟨_, rfl, k4⟩, k1, k2⟩
  have nt : ∀ {d : OverData} {x y : Obj}, (d = .preserveMark ∧ SameInode x.ino y.ino ∨ d = .preserve ∧ ¬ SameInode x.ino y.ino) → ¬ (d = .overwrite ∨ d = .overwriteMark) := by
    rintro d x y (⟨rfl, _⟩ | ⟨rfl, _⟩) h <;> rcases h with h | h <;> cases h
  refine ⟨fun x q1 => ?_, fun x c q1 => ?_⟩
  · rcases objAt_cases s2 p with ⟨h4, -⟩ | ⟨y, h4, -, h6⟩
    · exact ⟨x, h.old p _ q1 h4, Or.inl ⟨h4, rfl⟩⟩
    · obtain ⟨d, a, e, k1, _, ⟨e2, k3, k4⟩, k5, k6⟩ := key _ y q1 rfl h4 (by rcases h6 with ⟨h, _⟩ | ⟨c, h, _⟩; exacts [Or.inl h, Or.inr ⟨c, h⟩]) x rfl
      unfold HeadOf at k4
      rw [if_neg (nt k5)] at k4
      obtain ⟨z, rfl, k7⟩ := k4
      exact ⟨z, k1, Or.inr ⟨y, d, a, h4, k7.1 x y rfl k3, k5, k6⟩⟩
  · rcases objAt_cases s2 p with ⟨h4, -⟩ | ⟨y, h4, -, h6⟩
    · exact ⟨x, c, h.old p _ q1 h4, Or.inl ⟨h4, rfl⟩⟩
    · obtain ⟨d, a, e, k1, _, ⟨e2, k3, k4⟩, k5, k6⟩ := key _ y q1 rfl h4 (by rcases h6 with ⟨h, _⟩ | ⟨c, h, _⟩; exacts [Or.inl h, Or.inr ⟨c, h⟩]) x rfl
      unfold HeadOf at k4
      rw [if_neg (nt k5)] at k4
      obtain ⟨z, c', rfl, k7⟩ := k4
      exact ⟨z, c', k1, Or.inr ⟨y, d, a, h4, k7.1 x y rfl k3, k5, k6⟩⟩

/-- what is not in the old archive is a deletion record -/
theorem decr_else (s1 : Scanned t1) (s2 : Scanned t2) (h : Decremental o t1.stars dt t1.root t2.root r.root) : ∀ (p : List Bytes) (e : BEntry),
    treeAt t1.root p = none → treeAt r.root p = some e → treeAt t2.root p ≠ none ∧ ∃ n k d, e = .detruit n k d := by
  intro p e h1 he
  have hp0 : p ≠ [] := by rintro rfl; cases he
  obtain ⟨q, n, rfl⟩ := snoc_of_ne hp0
  have h2 : treeAt t2.root (q ++ [n]) ≠ none := by
    rcases h.only (q ++ [n]) (by rw [he]; simp) with h | h
    · exact absurd h1 h
    · exact h
  refine ⟨h2, ?_⟩
  obtain ⟨g, hg⟩ := Option.ne_none_iff_exists'.1 h2
  have hgi : g.isIgnoredDir = false := by
    have := s2.entries _ _ hg
    cases g <;> first | rfl | exact absurd this id
  -- the directory above is in the old archive
  have hq : q = [] ∨ ∃ x c, treeAt t1.root q = some (.dir x c) := by
    rcases treeAt_parent he with h' | ⟨z, c, hz⟩
    · exact Or.inl h'
    · right
      rcases objAt_cases s1 q with ⟨h4, -⟩ | ⟨x, -, -, ⟨h6, -⟩ | ⟨c, h6, -⟩⟩
      · obtain ⟨_, _, _, _, hc⟩ := decr_else s1 s2 h q _ h4 hz
        cases hc
      · obtain ⟨_, h7, _⟩ := (decr_at s1 s2 h q).1 x h6
        rw [hz] at h7; cases h7
      · exact ⟨x, c, h6⟩
  have hdd : ∃ d, dirDate dt t2.root q = some d := by
    rcases treeAt_parent hg with rfl | ⟨x, c, hx⟩
    · exact ⟨dt, dirDate_root _ _⟩
    · refine ⟨x.ino.mtime, ?_⟩
      have : q ≠ [] := by rintro rfl; cases hx
      unfold dirDate
      rw [if_neg this, hx]
  obtain ⟨d, hd⟩ := hdd
  have := h.gone q n g d h1 hq hg hgi hd
  rw [he] at this
  cases this
  exact ⟨_, _, _, rfl⟩
termination_by p => p.length

theorem decr_archived (s1 : Scanned t1) (s2 : Scanned t2) (h : Decremental o t1.stars dt t1.root t2.root r.root) : Archived t1 r := by
  intro p
  have but : ∀ x z, ScannedObj x → ((treeAt t2.root p = none ∧ z = x) ∨ ∃ y d a, objAt t2 p = some y ∧ InodeOf o d a x y z ∧
        (d = .preserveMark ∧ SameInode x.ino y.ino ∨ d = .preserve ∧ ¬ SameInode x.ino y.ino) ∧
        (a = .preserveMark ∧ AttrSame o.capa (some x) (some y) ∨ a = .preserve ∧ ¬ AttrSame o.capa (some x) (some y))) → SameBut x z := by
    rintro x z hx (⟨_, rfl⟩ | ⟨y, d, a, _, k1, k2, k3⟩)
    · exact sameBut_refl _
    · have := decr_inode hx (by rcases k2 with ⟨h, _⟩ | ⟨h, _⟩; exacts [Or.inl h, Or.inr h]) (by rcases k3 with ⟨h, _⟩ | ⟨h, _⟩; exacts [Or.inl h, Or.inr h]) k1
      rw [this]
      exact decr_but hx _ _ _
  rcases objAt_cases s1 p with ⟨h4, -⟩ | ⟨x, -, hx, ⟨h6, -⟩ | ⟨c, h6, -⟩⟩
  · rw [h4]
    intro e he
    obtain ⟨_, _, _, _, rfl⟩ := decr_else s1 s2 h p e h4 he
    rfl
  · rw [h6]
    obtain ⟨z, a1, a2⟩ := (decr_at s1 s2 h p).1 x h6
    exact ⟨z, a1, but x z hx a2⟩
  · rw [h6]
    obtain ⟨z, c', a1, a2⟩ := (decr_at s1 s2 h p).2 x c h6
    exact ⟨z, c', a1, but x z hx a2⟩

theorem hasEa_scanned {x : Obj} (h : ScannedObj x) : x.ino.hasEa ↔ x.ino.eaStatus = .full := by
  unfold Ino.hasEa
  rcases h.ea with h | ⟨h, _⟩ <;> simp [h]

/-- what the decremental backup has for an inode is enough, where the new archive has one -/
theorem decr_enough {ro : RsOpts} {p : List Bytes} {d : OverData} {a : OverEa} {x y y' z : Obj} (hv : DecrVisible o.capa t1 t2) (hx : ScannedObj x) (hy : ScannedObj y)
    (hx1 : objAt t1 p = some x) (hy1 : objAt t2 p = some y) (hcx : x.ino.mtime.Canonical) (hcy : y.ino.mtime.Canonical) (hm : Match y' y) (hi : InodeOf o d a x y z)
    (hd : d = .preserveMark ∧ SameInode x.ino y.ino ∨ d = .preserve ∧ ¬ SameInode x.ino y.ino)
    (ha : a = .preserveMark ∧ AttrSame o.capa (some x) (some y) ∨ a = .preserve ∧ ¬ AttrSame o.capa (some x) (some y)) : Enough ro (some y') z := by
  have hz := decr_inode hx (by rcases hd with ⟨h, _⟩ | ⟨h, _⟩; exacts [Or.inl h, Or.inr h]) (by rcases ha with ⟨h, _⟩ | ⟨h, _⟩; exacts [Or.inl h, Or.inr h]) hi
  have hsc : SameInode x.ino y.ino → y'.ino.kind = x.ino.kind ∧ SameContent y' x := by
    intro h
    obtain ⟨k, q1, q2, q3⟩ := hv.data p x y hx1 hy1 h
    obtain ⟨m1, m2, m3⟩ := hm.content
    have f1 : y.ino.isFile = x.ino.isFile := by unfold Ino.isFile; rw [k]
    have f2 : y.ino.isDevice = x.ino.isDevice := by unfold Ino.isDevice; rw [k]
    refine ⟨hm.kind.trans k, fun h => ?_, fun h => ?_, fun h => ?_⟩
    · have a1 := m1 (f1.trans h)
      have a2 := q1 h
      exact ⟨a1.1.trans a2.1, a1.2.trans a2.2⟩
    · exact (m2 (k.trans h)).trans (q2 h)
    · have a1 := m3 (f2.trans h)
      have a2 := q3 h
      exact ⟨a1.1.trans a2.1, a1.2.trans a2.2⟩
  have hst : (match z.ino.status with
      | .saved => y'.ino.kind = .dir → z.ino.kind = .dir
      | .inodeOnly => y'.ino.kind = z.ino.kind ∧ SameContent y' z
      | .delta => y'.ino.kind = z.ino.kind ∧ z.ino.isFile = true ∧ ro.patch y'.data z = .ok z.data
      | .notSaved => y'.ino.kind = z.ino.kind ∧ SameContent y' z ∧ y'.ino.uid = z.ino.uid ∧ y'.ino.gid = z.ino.gid ∧
          (z.ino.kind ≠ .symlink → y'.ino.perm = z.ino.perm) ∧ y'.ino.mtime = z.ino.mtime
      | .fake => False) := by
    rcases hd with ⟨rfl, h⟩ | ⟨rfl, h⟩
    · rw [if_pos rfl] at hz
      obtain ⟨k1, k2⟩ := hsc h
      obtain ⟨_, u1, u2, u3, u4, _⟩ := h
      have hmt : x.ino.mtime = y.ino.mtime := (C22_eq_same _ _ hcx hcy).1 u4
      rw [hz]
      refine ⟨k1, k2, hm.uid.trans u1.symm, hm.gid.trans u2.symm, fun hs => ?_, hm.mtime.trans hmt.symm⟩
      have : y.ino.kind ≠ .symlink := by rw [← hm.kind, k1]; exact hs
      exact (hm.perm this).trans u3.symm
    · rw [if_neg (by simp)] at hz
      rw [hz]
      intro hk
      exact hv.dirs p x y hx1 hy1 (hm.kind.symm.trans hk)
  have heas : z.eas = x.eas := by rw [hz]
  have hfsas : z.fsas = x.fsas := by rw [hz]
  have hea : z.ino.eaStatus = if a = .preserveMark ∧ x.ino.eaStatus = .full then .part else x.ino.eaStatus := by rw [hz]
  have hfsa : z.fsa = if a = .preserveMark ∧ x.fsa = .full then .part else x.fsa := by rw [hz]
  refine ⟨hst, ?_, ?_⟩
  · rw [hea, heas]
    rcases hx.ea with h | ⟨h, hx0⟩
    · rcases ha with ⟨rfl, h2⟩ | ⟨rfl, h2⟩
      · rw [if_pos ⟨rfl, h⟩]
        show y'.eas = x.eas
        rcases h2 with ⟨u, v, e1, e2, g1, g2, g3⟩ | ⟨g1, _⟩
        · cases e1; cases e2
          rw [hasEa_scanned hy] at g2
          rw [hm.eas]
          exact (hv.attr p x y hx1 hy1 h g2 g3).1
        · exact absurd ((hasEa_scanned hx).2 h) (g1 x rfl)
      · rw [if_neg (by simp), h]
        trivial
    · rw [if_neg (by rw [h]; simp), h]
      show y'.eas = x.eas
      have hy0 := hv.added p x y hx1 hy1 h
      rcases hy.ea with h' | ⟨_, h'⟩
      · rw [hy0] at h'; cases h'
      · rw [hm.eas, h', hx0]
  · rw [hfsa, hfsas]
    rcases hx.fsa with ⟨h, hx0⟩ | h
    · rcases ha with ⟨rfl, h2⟩ | ⟨rfl, h2⟩
      · rw [if_pos ⟨rfl, h⟩]
        show y'.fsas = x.fsas ∧ x.fsas ≠ []
        have hne : x.fsa ≠ .none := by rw [h]; simp
        have hfin : y.fsa ≠ .none ∧ y.fsas = x.fsas := by
          rcases h2 with ⟨u, v, e1, e2, g1, g2, g3⟩ | ⟨g1, g2⟩
          · cases e1; cases e2
            rw [hasEa_scanned hy] at g2
            rw [hasEa_scanned hx] at g1
            exact (hv.attr p x y hx1 hy1 g1 g2 g3).2 hne
          · have g1' : x.ino.eaStatus = .none := by
              rcases hx.ea with q | ⟨q, _⟩
              · exact absurd ((hasEa_scanned hx).2 q) (g1 x rfl)
              · exact q
            have g2' : y.ino.eaStatus = .none := by
              rcases hy.ea with q | ⟨q, _⟩
              · exact absurd ((hasEa_scanned hy).2 q) (g2 y rfl)
              · exact q
            exact hv.fsa p x y hx1 hy1 g1' g2' hne
        exact ⟨(hm.fsas hfin.1).trans hfin.2, hx0⟩
      · rw [if_neg (by simp), h]
        exact hx0
    · rw [if_neg (by rw [h]; simp), h]
      trivial

theorem decr_restorable {ro : RsOpts} {fs : FS} (s1 : Scanned t1) (s2 : Scanned t2) (c1 : CanonicalDates t1.root) (c2 : CanonicalDates t2.root)
    (hv : DecrVisible o.capa t1 t2) (h : Decremental o t1.stars dt t1.root t2.root r.root) (hs : SameTree fs t2) : Restorable ro fs r := by
  -- something is on the filesystem exactly where the new archive has a file
  have hon : ∀ p, p ≠ [] → (fs.ent p ≠ none ↔ treeAt t2.root p ≠ none) := by
    intro p hp
    have hn := hs.names p hp
    rcases objAt_cases s2 p with ⟨h1, -⟩ | ⟨y, h1, h2, ⟨h3, -⟩ | ⟨c, h3, -⟩⟩
    · rw [h1] at hn ⊢
      exact iff_of_false (fun q => q hn) (fun q => q rfl)
    · rw [h3] at hn ⊢
      obtain ⟨i, hi, -⟩ := hn
      exact iff_of_true (by rw [hi]; simp) (by simp)
    · rw [h3] at hn ⊢
      obtain ⟨i, hi, -⟩ := hn
      exact iff_of_true (by rw [hi]; simp) (by simp)
  have canon : ∀ {t : BCat} (_ : CanonicalDates t.root) {p : List Bytes} {x : Obj}, (treeAt t.root p = some (.node x) ∨ ∃ c, treeAt t.root p = some (.dir x c)) → x.ino.mtime.Canonical := by
    rintro t hc p x (h | ⟨c, h⟩)
    · exact (hc p _ x h (Or.inl rfl)).1
    · exact (hc p _ x h (Or.inr (Or.inl ⟨c, rfl⟩))).1
  have hen : ∀ p x z, p ≠ [] → objAt t1 p = some x → ScannedObj x → (treeAt t1.root p = some (.node x) ∨ ∃ c, treeAt t1.root p = some (.dir x c)) →
      ((treeAt t2.root p = none ∧ z = x) ∨ ∃ y d a, objAt t2 p = some y ∧ InodeOf o d a x y z ∧
        (d = .preserveMark ∧ SameInode x.ino y.ino ∨ d = .preserve ∧ ¬ SameInode x.ino y.ino) ∧
        (a = .preserveMark ∧ AttrSame o.capa (some x) (some y) ∨ a = .preserve ∧ ¬ AttrSame o.capa (some x) (some y))) → z.ino.kind = x.ino.kind ∧ Enough ro (fs.obj p) z := by
    rintro p x z hp hx1 hx htx (⟨h2, rfl⟩ | ⟨y, d, a, hy1, k1, k2, k3⟩)
    · have : fs.ent p = none := by
        have hn := hs.names p hp
        rw [h2] at hn; exact hn
      refine ⟨rfl, ?_⟩
      have hob : fs.obj p = none := by unfold FS.obj; rw [this]
      rw [hob]
      refine ⟨hx.status, ?_, ?_⟩
      · rcases hx.ea with h | ⟨_, h⟩
        · exact Or.inl h
        · exact Or.inr h
      · exact hx.fsa
    · have hz := decr_inode hx (by rcases k2 with ⟨h, _⟩ | ⟨h, _⟩; exacts [Or.inl h, Or.inr h]) (by rcases k3 with ⟨h, _⟩ | ⟨h, _⟩; exacts [Or.inl h, Or.inr h]) k1
      refine ⟨by rw [hz], ?_⟩
      have hn := hs.names p hp
      rcases objAt_cases s2 p with ⟨_, h1⟩ | ⟨y', h1, h2, h3⟩
      · rw [hy1] at h1; cases h1
      · rw [hy1] at h1; cases h1
        have hcy := canon c2 (p := p) (x := y) (by rcases h3 with ⟨h, _⟩ | ⟨c, h, _⟩; exacts [Or.inl h, Or.inr ⟨c, h⟩])
        rcases h3 with ⟨h3, -⟩ | ⟨c, h3, -⟩
        · rw [h3] at hn
          obtain ⟨i, hi, hm⟩ := hn
          have hob : fs.obj p = some (fs.ino i) := by unfold FS.obj; rw [hi]
          rw [hob]
          exact decr_enough hv hx h2 hx1 hy1 (canon c1 htx) hcy hm k1 k2 k3
        · rw [h3] at hn
          obtain ⟨i, hi, hm⟩ := hn
          have hob : fs.obj p = some i := by unfold FS.obj; rw [hi]
          rw [hob]
          exact decr_enough hv hx h2 hx1 hy1 (canon c1 htx) hcy hm k1 k2 k3
  refine ⟨h.distinct, fun p e he => ?_, fun p n hne hpar hno => ?_⟩
  · have hp0 : p ≠ [] := by rintro rfl; cases he
    rcases objAt_cases s1 p with ⟨h4, -⟩ | ⟨x, hx1, hx, ⟨h6, hk⟩ | ⟨c, h6, hk⟩⟩
    · obtain ⟨q, _, _, _, rfl⟩ := decr_else s1 s2 h p e h4 he
      exact (hon p hp0).2 q
    · obtain ⟨z, a1, a2⟩ := (decr_at s1 s2 h p).1 x h6
      rw [he] at a1; cases a1
      obtain ⟨b1, b2⟩ := hen p x z hp0 hx1 hx (Or.inl h6) a2
      exact ⟨by rw [b1]; exact hk, b2⟩
    · obtain ⟨z, c', a1, a2⟩ := (decr_at s1 s2 h p).2 x c h6
      rw [he] at a1; cases a1
      obtain ⟨b1, b2⟩ := hen p x z hp0 hx1 hx (Or.inr ⟨c, h6⟩) a2
      exact ⟨b1.trans hk, b2⟩
  · have h2 := (hon (p ++ [n]) (by simp)).1 hne
    obtain ⟨g, hg⟩ := Option.ne_none_iff_exists'.1 h2
    rcases objAt_cases s1 (p ++ [n]) with ⟨h4, -⟩ | ⟨x, hx1, hx, ⟨h6, hk⟩ | ⟨c, h6, hk⟩⟩
    · have hgi : g.isIgnoredDir = false := by
        have := s2.entries _ _ hg
        cases g <;> first | rfl | exact absurd this id
      have hq : p = [] ∨ ∃ x c, treeAt t1.root p = some (.dir x c) := by
        rcases hpar with h' | ⟨z, c, hz⟩
        · exact Or.inl h'
        · right
          rcases objAt_cases s1 p with ⟨h5, -⟩ | ⟨x, -, -, ⟨h6, -⟩ | ⟨c, h6, -⟩⟩
          · obtain ⟨_, _, _, _, hc⟩ := decr_else s1 s2 h p _ h5 hz
            cases hc
          · obtain ⟨_, h7, _⟩ := (decr_at s1 s2 h p).1 x h6
            rw [hz] at h7; cases h7
          · exact ⟨x, c, h6⟩
      have hdd : ∃ d, dirDate dt t2.root p = some d := by
        rcases treeAt_parent hg with rfl | ⟨x, c, hx⟩
        · exact ⟨dt, dirDate_root _ _⟩
        · refine ⟨x.ino.mtime, ?_⟩
          have : p ≠ [] := by rintro rfl; cases hx
          unfold dirDate
          rw [if_neg this, hx]
      obtain ⟨d, hd⟩ := hdd
      have := h.gone p n g d h4 hq hg hgi hd
      rw [hno] at this; cases this
    · obtain ⟨z, a1, _⟩ := (decr_at s1 s2 h _).1 x h6
      rw [hno] at a1; cases a1
    · obtain ⟨z, c', a1, _⟩ := (decr_at s1 s2 h _).2 x c h6
      rw [hno] at a1; cases a1

end

/-- A tree read from a filesystem is a catalogue as archives have. -/
theorem Scanned.archive {t : BCat} (h : Scanned t) : FromArchive t.root ∧ NoLinks t.root := by
  refine ⟨⟨h.distinct, fun p e hp => ?_⟩, fun p e hp => ?_⟩
  · have := h.entries p e hp
    cases e <;> first | trivial | exact absurd this id
  · have := h.entries p e hp
    cases e <;> first | rfl | exact absurd this id

/-- C45, decremental backups: given the full backups `t1` and `t2` of two states of a directory tree (without hard links), the decremental backup made of them,
nothing being excluded, restored over the second state gives the first one back, without error.  The changes must be visible (see `DecrVisible`). -/
theorem C45_decremental_restores_partial (o : MgOpts) (ro : RsOpts) (d1 d2 : DateT) (t1 t2 : BCat) (fs : FS) (hro : Plain ro) (s1 : Scanned t1) (s2 : Scanned t2)
    (c1 : CanonicalDates t1.root) (c2 : CanonicalDates t2.root) (hsub : ∀ p, o.subtree p = true) (hfil : ∀ n, o.filter n = true) (hw : o.warn = false)
    (ha : ∀ p, o.askData p ≠ .ask) (he : ∀ p, o.askEa p ≠ .ask) (hv : DecrVisible o.capa t1 t2)
    (hs : SameTree fs t2) (hroot : ∃ y, fs.ent [] = some (.dir y)) (hids : ∀ p i, fs.ent p = some (.ino i) → i < fs.next) :
    ∃ r fs' st, decremental o d1 d2 t1 t2 = .ok r ∧ restore ro r fs = .ok (fs', st) ∧ st.errored = 0 ∧ SameTree fs' t1 := by
  have e : ∀ l, BEntry.selectL o [] l = l := fun l => selectL_all hsub hfil [] l
  obtain ⟨r, hr, h⟩ := C45_decremental_partial o d1 d2 t1 t2 s1.archive.1 s2.archive.1 s1.archive.2 s2.archive.2 hw ha he (by rw [e]; exact c1) (by rw [e]; exact c2)
  have h := h t1.stars
  rw [e, e] at h
  obtain ⟨fs', st, k1, k2, k3, _, _⟩ := C35_restore ro r fs hro (hs.wf s2 hroot hids) (decr_restorable s1 s2 c1 c2 hv h hs)
  exact ⟨r, fs', st, hr, k1, k2, k3.scanned s1 (decr_archived s1 s2 h)⟩

end Dar
