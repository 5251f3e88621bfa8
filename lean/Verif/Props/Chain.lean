import Verif.Lemmas.Chain
/- C35: a chain of differential backups, restored in order. -/
namespace Dar

theorem sameContent_trans {a b c : Obj} (h1 : SameContent a b) (h2 : SameContent b c) (hk : b.ino.kind = c.ino.kind) : SameContent a c := by
  have hf : b.ino.isFile = c.ino.isFile := by unfold Ino.isFile; rw [hk]
  have hd : b.ino.isDevice = c.ino.isDevice := by unfold Ino.isDevice; rw [hk]
  refine ⟨fun h => ?_, fun h => ?_, fun h => ?_⟩
  · obtain ⟨a1, a2⟩ := h1.1 (by rw [hf]; exact h)
    obtain ⟨b1, b2⟩ := h2.1 h
    exact ⟨a1.trans b1, a2.trans b2⟩
  · exact (h1.2.1 (by rw [hk]; exact h)).trans (h2.2.1 h)
  · obtain ⟨a1, a2⟩ := h1.2.2 (by rw [hd]; exact h)
    obtain ⟨b1, b2⟩ := h2.2.2 h
    exact ⟨a1.trans b1, a2.trans b2⟩

section
variable {ro : RsOpts} {o : BkOpts} {a : BCat} {p : List Bytes} {x x' : Obj}

theorem tree_occurs : ∀ {p : List Bytes} {l : List BEntry} {g : BEntry}, treeAt l p = some g → OccursIn l p g
  | [], _, _, h => by cases h
  | [n], l, g, h => by
    have h2 := findChild_name (show findChild l n = some g from h)
    subst h2
    exact .here (List.mem_of_find?_eq_some h)
  | n :: m :: p, l, g, h => by
    rw [treeAt_more, subOf] at h
    generalize hf : findChild l n = f at h
    cases f with
    | none => cases h
    | some e =>
      cases e with
      | dir x c =>
        have h2 := findChild_name hf
        have h2' : x.name = n := h2
        subst h2'
        exact .inside (List.mem_of_find?_eq_some hf) (tree_occurs h)
      | _ => cases h

/-- what a status means -/
theorem Recorded.cases (hr : Recorded o a p x x') (ho : Faithful o) :
    (x'.ino.status = .notSaved ∧ ∃ b, Reference o a p x b ∧ ¬ Changed o x.ino b.ino) ∨
    (x'.ino.status = .inodeOnly ∧ ∃ b, Reference o a p x b ∧ x.ino.isFile = true ∧ x.ino.size = b.ino.size ∧ SameHours o.capa o.hourshift x.ino.mtime b.ino.mtime) ∨
    (x'.ino.status = .delta ∧ ∃ b, Reference o a p x b ∧ x.ino.isFile = true ∧ o.deltaDiff = true) ∨ x'.ino.status = .saved := by
  by_cases h1 : Skipped o a p x
  · refine Or.inl ⟨hr.notSaved.2 h1, ?_⟩
    rcases h1 with h | ⟨-, h, -⟩ | ⟨b, h2, h3, -⟩
    · rw [ho.snapshot] at h; cases h
    · exact absurd ho.fixed h
    · exact ⟨b, h2, h3⟩
  · by_cases h2 : MetaOnly o a p x
    · refine Or.inr (Or.inl ⟨hr.inodeOnly.2 h2, ?_⟩)
      obtain ⟨-, -, h3, b, h4, h5, h6⟩ := h2
      exact ⟨b, h4, h3, h5, h6⟩
    · by_cases h3 : DeltaOnly o a p x
      · refine Or.inr (Or.inr (Or.inl ⟨hr.delta.2 h3, ?_⟩))
        obtain ⟨-, -, h4, h5, b, h6, -⟩ := h3
        exact ⟨b, h6, h5, h4⟩
      · exact Or.inr (Or.inr (Or.inr (hr.saved.2 ⟨h1, h2, h3⟩)))

theorem attrSkipped_ref {had : Obj → Prop} (ho : Faithful o) (h : AttrSkipped o a p x had) :
    ∃ b, Reference o a p x b ∧ had b ∧ (x.ino.ctime.instant ≤ b.ino.ctime.instant ∨ SameRounded x.ino.ctime b.ino.ctime) := by
  rcases h with h | ⟨-, h, -⟩ | h
  · rw [ho.snapshot] at h; cases h
  · exact absurd ho.fixed h
  · exact h

theorem enough_none (ho : Faithful o) (hs : ScannedObj x) (hr : Recorded o a p x x') (hno : ∀ b, ¬ Reference o a p x b) : Enough ro none x' := by
  obtain ⟨s, e, d, f, hx', -⟩ := hr.same
  have heas : x'.eas = x.eas := by rw [hx']
  have hfsas : x'.fsas = x.fsas := by rw [hx']
  refine ⟨?_, ?_, ?_⟩
  · rcases hr.cases ho with ⟨-, b, h, -⟩ | ⟨-, b, h, -⟩ | ⟨-, b, h, -⟩ | h
    · exact absurd h (hno b)
    · exact absurd h (hno b)
    · exact absurd h (hno b)
    · exact h
  · rcases hs.ea with h | ⟨h, h2⟩
    · left
      rcases (hr.eaFull h).2 with h3 | h3
      · obtain ⟨b, h4, -⟩ := attrSkipped_ref ho ((hr.eaFull h).1.1 h3)
        exact absurd h4 (hno b)
      · exact h3
    · exact Or.inr (heas.trans h2)
  · rcases hs.fsa with ⟨h, h2⟩ | h
    · left
      refine ⟨?_, by rw [hfsas]; exact h2⟩
      rcases (hr.fsaFull h).2 with h3 | h3
      · obtain ⟨b, h4, -⟩ := attrSkipped_ref ho ((hr.fsaFull h).1.1 h3)
        exact absurd h4 (hno b)
      · exact h3
    · exact Or.inr (hr.fsaNone h)

/-- what is needed about two successive versions of an inode -/
theorem enough_some {t t' : BCat} (hp : Plain ro) (ho : Faithful o) (hv : Visible ro o t t') {y yf b0 : Obj} (hy : objAt t p = some y) (hx : objAt t' p = some x)
    (hsy : ScannedObj y) (hs : ScannedObj x) (hr : Recorded o a p x x') (hm : Match yf y) (hb0 : SameBut y b0) (hname : x.name = y.name)
    (hra : ∃ g, treeAt a.root p = some g ∧ g.obj a.stars = some b0) : Enough ro (some yf) x' := by
  obtain ⟨s, e, d, f, hx', -⟩ := hr.same
  have hkx : x'.ino.kind = x.ino.kind := by rw [hx']
  have heas : x'.eas = x.eas := by rw [hx']
  have hfsas : x'.fsas = x.fsas := by rw [hx']
  have hsc : ∀ z, SameContent z x → SameContent z x' := by intro z h; rw [hx']; exact h
  obtain ⟨s0, e0, d0, f0, hb0'⟩ := hb0.same
  obtain ⟨g, hg1, hg2⟩ := hra
  -- the reference is the previous version
  have href : ∀ b, Reference o a p x b → b = b0 ∧ y.ino.kind = x.ino.kind := by
    rintro b ⟨-, -, g', h1, h2, h4⟩
    rw [hg1] at h1
    cases h1
    rw [hg2] at h2
    cases h2
    refine ⟨rfl, ?_⟩
    rw [hb0'] at h4
    exact h4
  have hmk : b0.ino.kind = y.ino.kind ∧ b0.ino.size = y.ino.size ∧ b0.ino.mtime = y.ino.mtime ∧ b0.ino.ctime = y.ino.ctime ∧ b0.ino.uid = y.ino.uid ∧
      b0.ino.gid = y.ino.gid ∧ b0.ino.perm = y.ino.perm ∧ b0.name = y.name := by rw [hb0']; simp
  obtain ⟨m1, m2, m3, m4, m5, m6, m7, m8⟩ := hmk
  refine ⟨?_, ?_, ?_⟩
  · rcases hr.cases ho with ⟨h0, b, h1, h2⟩ | ⟨h0, b, h1, h2, h3, h4⟩ | ⟨h0, b, h1, h2, h3⟩ | h0
    · rw [h0]
      obtain ⟨rfl, hk⟩ := href b h1
      have hch : ∀ q, (q → Changed o x.ino b.ino) → ¬ q := fun q h hq => h2 (h hq)
      have hmt : y.ino.mtime = x.ino.mtime := by
        apply hv.dates p y x hy hx
        by_contra hc
        rw [not_or, not_or] at hc
        refine h2 (Or.inl ⟨by rw [ho.what]; simp, ?_⟩)
        rw [m3]
        by_cases hh : o.hourshift = 0
        · exact Or.inr ⟨hh, hc.1⟩
        · exact Or.inl ⟨hh, hc.2.1⟩
      have huid : x.ino.uid = b.ino.uid ∧ x.ino.gid = b.ino.gid := by
        by_contra hc
        refine h2 (Or.inr (Or.inl ⟨ho.what, ?_⟩))
        by_cases hu : x.ino.uid = b.ino.uid
        · exact Or.inr (fun h => hc ⟨hu, h⟩)
        · exact Or.inl hu
      have hperm : x.ino.perm = b.ino.perm := by
        by_contra hc
        exact h2 (Or.inr (Or.inr (Or.inl ⟨Or.inl ho.what, hc⟩)))
      have hsize : x.ino.isFile = true → y.ino.size = x.ino.size := by
        intro hf
        by_contra hc
        exact h2 (Or.inr (Or.inr (Or.inr ⟨hf, by rw [m2]; exact fun h => hc h.symm⟩)))
      have hcont := hv.data p y x hy hx hk hmt hsize
      refine ⟨?_, hsc _ (sameContent_trans hm.content hcont hk), ?_, ?_, ?_, ?_⟩
      · rw [hkx, hm.kind, hk]
      · rw [hm.uid, ← m5, ← huid.1]; rw [hx']
      · rw [hm.gid, ← m6, ← huid.2]; rw [hx']
      · intro hsl
        rw [hkx] at hsl
        rw [hm.perm (by rw [hk]; exact hsl), ← m7, ← hperm]; rw [hx']
      · rw [hm.mtime, hmt]; rw [hx']
    · rw [h0]
      obtain ⟨rfl, hk⟩ := href b h1
      have hmt : y.ino.mtime = x.ino.mtime := hv.dates p y x hy hx (Or.inr (Or.inr (by rw [← m3]; exact h4)))
      have hcont := hv.data p y x hy hx hk hmt (fun _ => by rw [h3, m2])
      exact ⟨by rw [hkx, hm.kind, hk], hsc _ (sameContent_trans hm.content hcont hk)⟩
    · rw [h0]
      obtain ⟨rfl, hk⟩ := href b h1
      refine ⟨by rw [hkx, hm.kind, hk], by rw [hx']; exact h2, ?_⟩
      have hyf : y.ino.isFile = true := by unfold Ino.isFile at *; rw [hk]; exact h2
      rw [(hm.content.1 hyf).1, hv.patch p y x hy hx h3 hk h2 x' (by rw [hx'])]
      rw [hx']
    · rw [h0]
      intro hd
      rw [hkx]
      exact hv.dirs p y x hy hx (by rw [← hm.kind]; exact hd)
  · rcases hs.ea with hea | ⟨hea, hea2⟩
    · rcases (hr.eaFull hea).2 with h3 | h3
      · rw [h3]
        obtain ⟨b, h4, -, h5⟩ := attrSkipped_ref ho ((hr.eaFull hea).1.1 h3)
        obtain ⟨rfl, hk⟩ := href b h4
        rw [m4] at h5
        show yf.eas = x'.eas
        rw [heas, hm.eas, (hv.attr p y x hy hx hk h5).1]
      · rw [h3]; trivial
    · rcases (hr.eaNone hea).2 with h3 | h3
      · rw [h3]; exact heas.trans hea2
      · rw [h3]
        show yf.eas = x'.eas
        rw [heas, hm.eas, hea2]
        by_cases hk : y.ino.kind = x.ino.kind
        · -- the reference had none either
          have hno : ¬ ∃ b, Reference o a p x b ∧ b.ino.eaStatus ≠ .none ∧ b.ino.eaStatus ≠ .removed := by
            intro hc
            rw [(hr.eaNone hea).1.2 hc] at h3
            cases h3
          rcases hsy.ea with hye | ⟨-, hye⟩
          · exfalso
            refine hno ⟨b0, ⟨ho.snapshot, ho.fixed, g, hg1, hg2, by rw [m1, hk]⟩, ?_⟩
            rcases hb0.eaFull hye with h | h <;> rw [h] <;> simp
          · exact hye
        · exact hv.kinds p y x hy hx hk hea
  · rcases hs.fsa with ⟨hf, hf2⟩ | hf
    · rcases (hr.fsaFull hf).2 with h3 | h3
      · rw [h3]
        obtain ⟨b, h4, hhad, h5⟩ := attrSkipped_ref ho ((hr.fsaFull hf).1.1 h3)
        obtain ⟨rfl, hk⟩ := href b h4
        rw [m4] at h5
        refine ⟨?_, by rw [hfsas]; exact hf2⟩
        rw [hfsas, hm.fsas (fun hc => hhad (hb0.fsaNone hc)), (hv.attr p y x hy hx hk h5).2]
      · rw [h3]; show x'.fsas ≠ []; rw [hfsas]; exact hf2
    · rw [hr.fsaNone hf]; trivial

end

/-- the inode of a tree without hard links -/
theorem objAt_cases {t : BCat} (hs : Scanned t) (p : List Bytes) :
    (treeAt t.root p = none ∧ objAt t p = none) ∨ ∃ x, objAt t p = some x ∧ ScannedObj x ∧ (treeAt t.root p = some (.node x) ∧ x.ino.kind ≠ .dir ∨
      ∃ c, treeAt t.root p = some (.dir x c) ∧ x.ino.kind = .dir) := by
  cases ht : treeAt t.root p with
  | none => left; exact ⟨rfl, by unfold objAt; rw [ht]; rfl⟩
  | some e =>
    have he := hs.entries p e ht
    right
    cases e with
    | node x => exact ⟨x, by unfold objAt; rw [ht]; rfl, he.2, Or.inl ⟨rfl, he.1⟩⟩
    | dir x c => exact ⟨x, by unfold objAt; rw [ht]; rfl, he.2, Or.inr ⟨c, rfl, he.1⟩⟩
    | _ => exact absurd he id

theorem name_of_tree {t : BCat} {p : List Bytes} {x : Obj} (h : treeAt t.root p = some (.node x) ∨ ∃ c, treeAt t.root p = some (.dir x c)) : ∃ q, p = q ++ [x.name] := by
  have hp : p ≠ [] := by
    rintro rfl
    rcases h with h | ⟨c, h⟩ <;> cases h
  obtain ⟨q, m, rfl⟩ := snoc_of_ne hp
  refine ⟨q, ?_⟩
  rcases h with h | ⟨c, h⟩
  · rw [show x.name = m from treeAt_name h]
  · rw [show x.name = m from treeAt_name h]

/-- the next archive can be restored on the previous state -/
theorem next_restorable {ro : RsOpts} {o : BkOpts} (hp : Plain ro) (ho : Faithful o) {d : DateT} {t t' a a' : BCat} {st : Stats} {fs : FS} (hst : Scanned t) (hst' : Scanned t')
    (hv : Visible ro o t t') (ha : Archived t a) (hda : BEntry.DistinctL a.root) (hb : backupAll o d t' a = .ok (a', st)) (hsame : SameTree fs t) : Restorable ro fs a' := by
  -- what is recorded for an inode of the new tree is enough
  have hen : ∀ p x x', objAt t' p = some x → ScannedObj x → (treeAt t'.root p = some (.node x) ∨ ∃ c, treeAt t'.root p = some (.dir x c)) → Recorded o a p x x' →
      Enough ro (fs.obj p) x' := by
    intro p x x' hx hsx htx hr
    have hpne : p ≠ [] := by
      rintro rfl
      rcases htx with h | ⟨c, h⟩ <;> cases h
    have hn := hsame.names p hpne
    have hap := ha p
    rcases objAt_cases hst p with ⟨h1, -⟩ | ⟨y, h1, h2, h3⟩
    · rw [h1] at hn hap
      have hob : fs.obj p = none := by unfold FS.obj; rw [show fs.ent p = none from hn]
      rw [hob]
      refine enough_none ho hsx hr ?_
      rintro b ⟨-, -, g, g1, g2, -⟩
      have := hap g g1
      cases g with
      | detruit m k td => cases g2
      | _ => cases this
    · obtain ⟨qx, hqx⟩ := name_of_tree htx
      obtain ⟨qy, hqy⟩ := name_of_tree (t := t) (x := y) (by
        rcases h3 with ⟨h, -⟩ | ⟨c, h, -⟩
        · exact Or.inl h
        · exact Or.inr ⟨c, h⟩)
      have hname : x.name = y.name := by
        have := hqx.symm.trans hqy
        have := List.append_inj' this rfl
        simpa using this.2
      rcases h3 with ⟨h3, hk⟩ | ⟨c, h3, hk⟩
      · rw [h3] at hn hap
        obtain ⟨b0, hb1, hb2⟩ := hap
        obtain ⟨i, hi, hm⟩ := hn
        have hob : fs.obj p = some (fs.ino i) := by unfold FS.obj; rw [hi]
        rw [hob]
        exact enough_some hp ho hv h1 hx h2 hsx hr hm hb2 hname ⟨_, hb1, rfl⟩
      · rw [h3] at hn hap
        obtain ⟨b0, c', hb1, hb2⟩ := hap
        obtain ⟨i, hi, hm⟩ := hn
        have hob : fs.obj p = some i := by unfold FS.obj; rw [hi]
        rw [hob]
        exact enough_some hp ho hv h1 hx h2 hsx hr hm hb2 hname ⟨_, hb1, rfl⟩
  -- something is on the filesystem exactly where the previous archive has a file
  have hon : ∀ p, p ≠ [] → (fs.ent p ≠ none ↔ ∃ g, treeAt a.root p = some g ∧ g.isDet = false) := by
    intro p hpne
    have hn := hsame.names p hpne
    have hap := ha p
    rcases objAt_cases hst p with ⟨h1, -⟩ | ⟨y, h1, h2, ⟨h3, -⟩ | ⟨c, h3, -⟩⟩
    · rw [h1] at hn hap
      refine ⟨fun h => absurd hn h, ?_⟩
      rintro ⟨g, g1, g2⟩
      rw [hap g g1] at g2
      cases g2
    · rw [h3] at hn hap
      obtain ⟨i, hi, -⟩ := hn
      obtain ⟨b0, hb1, -⟩ := hap
      exact ⟨fun _ => ⟨_, hb1, rfl⟩, fun _ => by rw [hi]; simp⟩
    · rw [h3] at hn hap
      obtain ⟨i, hi, -⟩ := hn
      obtain ⟨b0, c', hb1, -⟩ := hap
      exact ⟨fun _ => ⟨_, hb1, rfl⟩, fun _ => by rw [hi]; simp⟩
  refine ⟨backupAll_distinct hb hst'.distinct, fun p e ht => ?_, fun p n hne hdir hno => ?_⟩
  · obtain ⟨h1, h2, h3⟩ := backupAll_at ho hb p
    have hpne : p ≠ [] := by rintro rfl; cases ht
    rcases objAt_cases hst' p with ⟨h4, -⟩ | ⟨x, h4, h5, ⟨h6, hk⟩ | ⟨c, h6, hk⟩⟩
    · obtain ⟨m, k, td, rfl⟩ := h3 h4 e ht
      obtain ⟨q, m', rfl⟩ := snoc_of_ne hpne
      have hmm : m = m' := treeAt_name ht
      subst hmm
      obtain ⟨-, -, g, g1, g2⟩ := (C34_backup o d t' a a' st hb q m).1 ⟨k, td, ht⟩
      exact (hon _ hpne).2 ⟨g, occurs_tree hda g1, g2⟩
    · obtain ⟨x', a1, a2⟩ := h1 x h6
      rw [ht] at a1
      cases a1
      refine ⟨?_, hen p x x' h4 h5 (Or.inl h6) a2⟩
      obtain ⟨s, e, dd, f, hx', -⟩ := a2.same
      rw [hx']; exact hk
    · obtain ⟨x', c', a1, a2⟩ := h2 x c h6
      rw [ht] at a1
      cases a1
      refine ⟨?_, hen p x x' h4 h5 (Or.inr ⟨c, h6⟩) a2⟩
      obtain ⟨s, e, dd, f, hx', -⟩ := a2.same
      rw [hx']; exact hk
  · obtain ⟨g, g1, g2⟩ := (hon (p ++ [n]) (by simp)).1 hne
    rcases objAt_cases hst' (p ++ [n]) with ⟨h4, -⟩ | ⟨x, h4, h5, ⟨h6, hk⟩ | ⟨c, h6, hk⟩⟩
    · have hocc : OccursIn a.root (p ++ [n]) g := tree_occurs g1
      have hd' : p = [] ∨ Kept o p ∧ ∃ x ch, treeAt t'.root p = some (.dir x ch) := by
        rcases hdir with h | ⟨x', c', hq⟩
        · exact Or.inl h
        · refine Or.inr ⟨ho.kept p, ?_⟩
          obtain ⟨q1, q2, q3⟩ := backupAll_at ho hb p
          rcases objAt_cases hst' p with ⟨h7, -⟩ | ⟨x, -, -, ⟨h7, -⟩ | ⟨c, h7, -⟩⟩
          · obtain ⟨_, _, _, h8⟩ := q3 h7 _ hq; cases h8
          · obtain ⟨_, h8, -⟩ := q1 x h7; rw [hq] at h8; cases h8
          · exact ⟨x, c, h7⟩
      obtain ⟨k, td, h8⟩ := (C34_backup o d t' a a' st hb p n).2 ⟨hd', h4, g, hocc, g2⟩
      rw [hno] at h8; cases h8
    · obtain ⟨x', a1, -⟩ := (backupAll_at ho hb (p ++ [n])).1 x h6
      rw [hno] at a1; cases a1
    · obtain ⟨x', c', a1, -⟩ := (backupAll_at ho hb (p ++ [n])).2.1 x c h6
      rw [hno] at a1; cases a1

mutual
theorem each_of_occurs {P : List Bytes → BEntry → Prop} (e : BEntry) (path : List Bytes) (h : ∀ p f, OccursIn [e] p f → P (path ++ p) f) : BEntry.Each P path e := by
  match e with
  | .dir x c =>
    unfold BEntry.Each
    refine ⟨h _ _ (.here (List.mem_singleton.2 rfl)), each_of_occursL c _ fun p f hp => ?_⟩
    have := h _ _ (.inside (x := x) (List.mem_singleton.2 rfl) hp)
    rw [List.append_assoc]
    exact this
  | .node x => unfold BEntry.Each; exact h _ _ (.here (by simp))
  | .mirage n k => unfold BEntry.Each; exact h _ _ (.here (by simp))
  | .detruit n k d => unfold BEntry.Each; exact h _ _ (.here (by simp))
  | .ignored n => unfold BEntry.Each; exact h _ _ (.here (by simp))
  | .ignoredDir n => unfold BEntry.Each; exact h _ _ (.here (by simp))
theorem each_of_occursL {P : List Bytes → BEntry → Prop} (l : List BEntry) (path : List Bytes) (h : ∀ p f, OccursIn l p f → P (path ++ p) f) : BEntry.EachL P path l := by
  match l with
  | [] => unfold BEntry.EachL; trivial
  | e :: l =>
    unfold BEntry.EachL
    exact ⟨each_of_occurs e path fun p f hp => h p f hp.single, each_of_occursL l path fun p f hp => h p f hp.cons⟩
end

theorem goodL_of {o : BkOpts} (ho : Faithful o) {t : BCat} (hd : BEntry.DistinctL t.root) (h : ∀ p e, treeAt t.root p = some e → SourceEntry t.stars e) :
    BEntry.EachL (GoodEntry o t) [] t.root :=
  each_of_occursL _ _ fun p f hp => ⟨h p f (occurs_tree hd hp), fun _ _ _ => ho.fails _⟩

theorem backupAll_total {o : BkOpts} (ho : Faithful o) (d : DateT) {t : BCat} (ref : BCat) (hd : BEntry.DistinctL t.root)
    (h : ∀ p e, treeAt t.root p = some e → SourceEntry t.stars e) : ∃ a st, backupAll o d t ref = .ok (a, st) := by
  obtain ⟨cat0, st0, hb⟩ := C33_completes o t ref (goodL_of ho hd h)
  obtain ⟨cat1, n, hu, -⟩ := C34_completes d cat0 ref
  refine ⟨cat1, { st0 with deleted := st0.deleted + n }, ?_⟩
  unfold backupAll
  rw [hb]
  simp only [bind, Except.bind]
  rw [hu]

theorem Scanned.source {t : BCat} (h : Scanned t) (p : List Bytes) (e : BEntry) (ht : treeAt t.root p = some e) : SourceEntry t.stars e := by
  have := h.entries p e ht
  cases e with
  | node x => exact this.2.status
  | dir x c => exact this.2.status
  | _ => exact absurd this id

theorem chain_aux (ro : RsOpts) (o : BkOpts) (hp : Plain ro) (ho : Faithful o) : ∀ (l : List (DateT × BCat)) (t a : BCat) (fs : FS), Scanned t → Archived t a → BEntry.DistinctL a.root →
    SameTree fs t → (∃ y, fs.ent [] = some (.dir y)) → (∀ p i, fs.ent p = some (.ino i) → i < fs.next) → Successive ro o t l →
    ∃ archives fs', backups o a l = .ok archives ∧ restores ro fs archives = .ok (fs', 0) ∧ SameTree fs' (lastState t l)
  | [], t, a, fs, _, _, _, hs, _, _, _ => ⟨[], fs, rfl, rfl, hs⟩
  | (d, t') :: l, t, a, fs, hst, ha, hda, hs, hroot, hids, ⟨hst', hv, hsucc⟩ => by
    obtain ⟨a', st, hb⟩ := backupAll_total ho d a hst'.distinct hst'.source
    have hrest := next_restorable hp ho hst hst' hv ha hda hb hs
    obtain ⟨fs1, rst, h1, h2, h3, h4, h5⟩ := C35_restore ro a' fs hp (hs.wf hst hroot hids) hrest
    have ha' := backupAll_archived ho hst' hb
    obtain ⟨archives, fs', h6, h7, h8⟩ := chain_aux ro o hp ho l t' a' fs1 hst' ha' hrest.distinct (h3.scanned hst' ha') h4 h5 hsucc
    refine ⟨a' :: archives, fs', ?_, ?_, h8⟩
    · rw [backups, hb]
      simp only [bind, Except.bind]
      rw [h6]
    · rw [restores, h1]
      simp only [bind, Except.bind]
      rw [h7]
      simp only [h2]

/-- An empty tree. -/
def emptyCat (stars : Nat → Obj) : BCat := ⟨[], stars⟩

/-- C35: a sequence of states of a tree is saved by a full backup then differential ones, each taking the previous archive as reference, nothing being excluded; the
archives are restored in order into an empty directory, with the overwriting policy "overwrite".  All the backups and restorations end without error, and the
result is the last state of the tree: each file of it with its type, owner, permissions, dates, content and attributes, and nothing else (the files
deleted in between are gone).  The states have no hard link, and the changes are visible to the backup (see `Visible`). -/
theorem C35_chain_partial (ro : RsOpts) (o : BkOpts) (stars : Nat → Obj) (fs0 : FS) (states : List (DateT × BCat)) (hp : Plain ro) (ho : Faithful o) (he : EmptyFS fs0)
    (hs : Successive ro o (emptyCat stars) states) :
    ∃ archives fs', backups o (emptyCat stars) states = .ok archives ∧ restores ro fs0 archives = .ok (fs', 0) ∧ SameTree fs' (lastState (emptyCat stars) states) := by
  have hnone : ∀ p, treeAt (emptyCat stars).root p = none := treeAt_nil_none
  have hd : BEntry.DistinctL (emptyCat stars).root := by unfold emptyCat BEntry.DistinctL; trivial
  have hsame : SameTree fs0 (emptyCat stars) := by
    refine ⟨fun p hp => ?_, fun p q i h1 _ => ?_, fun p q m n k h1 => ?_⟩
    · rw [hnone]; exact he.2 p hp
    · by_cases hpe : p = []
      · obtain ⟨⟨y, hy⟩, -⟩ := he
        rw [hpe, hy] at h1; cases h1
      · rw [he.2 p hpe] at h1; cases h1
    · rw [hnone] at h1; cases h1
  refine chain_aux ro o hp ho states _ _ fs0 ⟨hd, fun p e h => ?_⟩ (fun p => ?_) hd hsame he.1 he.wf.ids hs
  · rw [hnone] at h; cases h
  · rw [hnone]; intro e h; cases h

/-- What is read for a tree, hard links included. -/
structure ScannedLinks (t : BCat) : Prop where
  distinct : BEntry.DistinctL t.root
  entries : ∀ p e, treeAt t.root p = some e → match e with
    | .node x => x.ino.kind ≠ .dir ∧ ScannedObj x
    | .dir x _ => x.ino.kind = .dir ∧ ScannedObj x
    | .mirage _ k => (t.stars k).ino.kind ≠ .dir ∧ ScannedObj (t.stars k)
    | _ => False

theorem Recorded.complete {o : BkOpts} (ho : Faithful o) {stars : Nat → Obj} {p : List Bytes} {x x' : Obj} (h : Recorded o (emptyCat stars) p x x') (hx : ScannedObj x) :
    Complete x' := by
  have hno : ∀ b, ¬ Reference o (emptyCat stars) p x b := by
    rintro b ⟨-, -, g, hg, -⟩
    rw [show (emptyCat stars).root = [] from rfl, treeAt_nil_none] at hg
    cases hg
  have hat : ∀ had, ¬ AttrSkipped o (emptyCat stars) p x had := by
    rintro had (h | ⟨-, h, -⟩ | ⟨b, h, -⟩)
    · rw [ho.snapshot] at h; cases h
    · exact h ho.fixed
    · exact hno b h
  refine ⟨?_, ?_, ?_⟩
  · rcases h.cases ho with ⟨-, b, hb, -⟩ | ⟨-, b, hb, -⟩ | ⟨-, b, hb, -⟩ | hs
    · exact absurd hb (hno b)
    · exact absurd hb (hno b)
    · exact absurd hb (hno b)
    · exact hs
  · rcases hx.ea with h1 | ⟨h1, h2⟩
    · obtain ⟨h3, h4⟩ := h.eaFull h1
      rcases h4 with h4 | h4
      · exact absurd (h3.1 h4) (hat _)
      · exact Or.inl h4
    · obtain ⟨s, a, d, f, rfl, -⟩ := h.same
      exact Or.inr h2
  · rcases hx.fsa with ⟨h1, h2⟩ | h1
    · obtain ⟨h3, h4⟩ := h.fsaFull h1
      rcases h4 with h4 | h4
      · exact absurd (h3.1 h4) (hat _)
      · obtain ⟨s, a, d, f, rfl, -⟩ := h.same
        exact Or.inl ⟨h4, h2⟩
    · exact Or.inr (h.fsaNone h1)

theorem Recorded.kind {o : BkOpts} {ref : BCat} {p : List Bytes} {x x' : Obj} (h : Recorded o ref p x x') : x'.ino.kind = x.ino.kind := by
  obtain ⟨s, a, d, f, rfl, -⟩ := h.same
  rfl

/-- C36: a tree with hard links is saved by a full backup, and the archive is restored in an empty directory: the result is the tree, with two names being the same
inode exactly when they were hard links to the same inode. -/
theorem C36_round_trip (ro : RsOpts) (o : BkOpts) (stars : Nat → Obj) (fs0 : FS) (d : DateT) (t : BCat) (hp : Plain ro) (ho : Faithful o) (he : EmptyFS fs0)
    (ht : ScannedLinks t) :
    ∃ a st fs' rst, backupAll o d t (emptyCat stars) = .ok (a, st) ∧ restore ro a fs0 = .ok (fs', rst) ∧ rst.errored = 0 ∧ SameTree fs' t := by
  have hsrc : ∀ p e, treeAt t.root p = some e → SourceEntry t.stars e := by
    intro p e h
    have := ht.entries p e h
    cases e with
    | node x => exact this.2.status
    | dir x c => exact this.2.status
    | mirage n k => exact this.2.status
    | _ => exact this
  obtain ⟨a, st, hb⟩ := backupAll_total ho d (emptyCat stars) ht.distinct hsrc
  have hnone : ∀ p, treeAt (emptyCat stars).root p = none := treeAt_nil_none
  have hat := backupAll_at ho hb
  -- a name of a hard linked inode
  have hlink : ∀ p n k, treeAt t.root p = some (.mirage n k) → treeAt a.root p = some (.mirage n k) ∧ ∃ q, Recorded o (emptyCat stars) q (t.stars k) (a.stars k) := by
    intro p n k h
    obtain ⟨cat0, st0, hb0⟩ := C33_completes o t (emptyCat stars) (goodL_of ho ht.distinct hsrc)
    obtain ⟨h1, q, m, -, h2⟩ := C33_hard_links o t (emptyCat stars) cat0 st0 (goodL_of ho ht.distinct hsrc) hb0 p n k h (ho.kept p) (ho.cov p true)
    obtain ⟨cat1, c, hu, hs1, hkept, -⟩ := C34_completes d cat0 (emptyCat stars)
    have : backupAll o d t (emptyCat stars) = .ok (cat1, { st0 with deleted := st0.deleted + c }) := by
      unfold backupAll
      rw [hb0]
      simp only [bind, Except.bind]
      rw [hu]
    rw [hb] at this
    cases this
    obtain ⟨e', h3, h4⟩ := hkept p _ h1
    cases h4
    exact ⟨h3, q, by rw [hs1]; exact h2⟩
  have hgone : ∀ p, treeAt t.root p = none → treeAt a.root p = none := by
    intro p h
    cases hv : treeAt a.root p with
    | none => rfl
    | some e =>
      exfalso
      obtain ⟨m, k, td, rfl⟩ := (hat p).2.2 h e hv
      have hpe : p ≠ [] := by rintro rfl; cases hv
      obtain ⟨q, m', rfl⟩ := snoc_of_ne hpe
      have hmm : m = m' := treeAt_name hv
      subst hmm
      obtain ⟨-, -, g, g1, -⟩ := (C34_backup o d t _ a st hb q m).1 ⟨k, td, hv⟩
      generalize hq : q ++ [m] = qq at g1
      cases g1 with
      | here h => cases h
      | inside h => cases h
  have hfull : FullArchive a := by
    refine ⟨backupAll_distinct hb ht.distinct, fun p e h => ?_⟩
    cases hv : treeAt t.root p with
    | none => rw [hgone p hv] at h; cases h
    | some g =>
      have hg := ht.entries p g hv
      cases g with
      | node x =>
        obtain ⟨x', h1, h2⟩ := (hat p).1 x hv
        rw [h] at h1; cases h1
        exact ⟨by rw [h2.kind]; exact hg.1, h2.complete ho hg.2⟩
      | dir x c =>
        obtain ⟨x', c', h1, h2⟩ := (hat p).2.1 x c hv
        rw [h] at h1; cases h1
        exact ⟨by rw [h2.kind]; exact hg.1, h2.complete ho hg.2⟩
      | mirage n k =>
        obtain ⟨h1, q, h2⟩ := hlink p n k hv
        rw [h] at h1; cases h1
        exact ⟨by rw [h2.kind]; exact hg.1, h2.complete ho hg.2⟩
      | _ => exact absurd hg id
  obtain ⟨fs', rst, h1, h2, h3⟩ := C36_full ro a fs0 hp he hfull
  refine ⟨a, st, fs', rst, hb, h1, h2, fun p hpe => ?_, fun p q i e1 e2 => ?_, fun p q m n k e1 e2 => ?_⟩
  · have hn := h3.names p hpe
    cases hv : treeAt t.root p with
    | none => rw [hgone p hv] at hn; exact hn
    | some g =>
      have hg := ht.entries p g hv
      cases g with
      | node x =>
        obtain ⟨x', h4, h5⟩ := (hat p).1 x hv
        rw [h4] at hn
        obtain ⟨i, h6, h7⟩ := hn
        exact ⟨i, h6, h5.but.match hg.2 h7⟩
      | dir x c =>
        obtain ⟨x', c', h4, h5⟩ := (hat p).2.1 x c hv
        rw [h4] at hn
        obtain ⟨i, h6, h7⟩ := hn
        exact ⟨i, h6, h5.but.match hg.2 h7⟩
      | mirage n k =>
        obtain ⟨h4, q, h5⟩ := hlink p n k hv
        rw [h4] at hn
        obtain ⟨i, h6, h7⟩ := hn
        exact ⟨i, h6, h5.but.match hg.2 h7⟩
      | _ => exact absurd hg id
  · have hback : ∀ p m k, treeAt a.root p = some (.mirage m k) → treeAt t.root p = some (.mirage m k) := by
      intro p m k h
      cases hv : treeAt t.root p with
      | none => rw [hgone p hv] at h; cases h
      | some g =>
        have hg := ht.entries p g hv
        cases g with
        | node x => obtain ⟨x', h4, -⟩ := (hat p).1 x hv; rw [h] at h4; cases h4
        | dir x c => obtain ⟨x', c', h4, -⟩ := (hat p).2.1 x c hv; rw [h] at h4; cases h4
        | mirage n j => obtain ⟨h4, -⟩ := hlink p n j hv; rw [h] at h4; cases h4; rfl
        | _ => exact absurd hg id
    rcases h3.notLinked p q i e1 e2 with h4 | ⟨m, n, k, h4, h5⟩
    · exact Or.inl h4
    · exact Or.inr ⟨m, n, k, hback _ _ _ h4, hback _ _ _ h5⟩
  · exact h3.linked p q m n k (hlink p m k e1).1 (hlink q n k e2).1

end Dar
