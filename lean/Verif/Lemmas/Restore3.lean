import Verif.Lemmas.Restore2
import Mathlib.Data.List.Induction
/- Each entry of the archive preserves the invariant of the restoration. -/
namespace Dar

/-- the contents of a directory -/
def BEntry.sub : BEntry → Option (List BEntry)
  | .dir _ c => some c
  | _ => none

theorem treeAt_app (m : Bytes) (r : List Bytes) : ∀ (p : List Bytes) (l : List BEntry), p ≠ [] →
    treeAt l (p ++ m :: r) = ((treeAt l p).bind BEntry.sub).bind (fun c => treeAt c (m :: r))
  | [], _, h => absurd rfl h
  | [n], l, _ => by
    show treeAt l (n :: m :: r) = _
    rw [treeAt_more, treeAt_one, subOf]
    cases findChild l n with
    | none => rfl
    | some e => cases e <;> rfl
  | n :: k :: p, l, _ => by
    show treeAt l (n :: k :: (p ++ m :: r)) = _
    rw [treeAt_more, treeAt_more]
    cases subOf l n with
    | none => rfl
    | some c => exact treeAt_app m r (k :: p) c (by simp)

theorem treeAt_below {l : List BEntry} {p q : List Bytes} {e : BEntry} (h : treeAt l p = some e) (he : e.isDir = false) (hpq : p <+: q) (hne : q ≠ p) :
    treeAt l q = none := by
  obtain ⟨r, rfl⟩ := hpq
  cases r with
  | nil => simp at hne
  | cons m r =>
    have hp : p ≠ [] := by rintro rfl; cases h
    rw [treeAt_app m r p l hp, h]
    cases e with
    | dir x c => cases he
    | _ => rfl

theorem treeAt_name {l : List BEntry} {p : List Bytes} {n : Bytes} {e : BEntry} (h : treeAt l (p ++ [n]) = some e) : e.name = n := by
  by_cases hp : p = []
  · subst hp; exact findChild_name h
  · rw [treeAt_app n [] p l hp] at h
    cases hv : (treeAt l p).bind BEntry.sub with
    | none => rw [hv] at h; cases h
    | some c => rw [hv] at h; exact findChild_name h

theorem FSWf.below {fs : FS} (h : FSWf fs) {p : List Bytes} (hp : fs.isDir p = false) : ∀ r, r ≠ [] → fs.ent (p ++ r) = none := by
  intro r
  induction r using List.reverseRecOn with
  | nil => intro h; exact absurd rfl h
  | append_singleton r m ih =>
    intro _
    rw [← List.append_assoc]
    cases hv : fs.ent (p ++ r ++ [m]) with
    | none => rfl
    | some v =>
      exfalso
      have := h.parent (p ++ r ++ [m]) (by simp) (by rw [hv]; simp)
      rw [List.dropLast_concat] at this
      by_cases hr : r = []
      · subst hr; simp at this; rw [hp] at this; cases this
      · unfold FS.isDir at this; rw [ih hr] at this; cases this

theorem FSWf.below' {fs : FS} (h : FSWf fs) {p q : List Bytes} (hp : fs.isDir p = false) (hpq : p <+: q) (hne : q ≠ p) : fs.ent q = none := by
  obtain ⟨r, rfl⟩ := hpq
  exact h.below hp r (by rintro rfl; simp at hne)

theorem findChild_mem : ∀ {l : List BEntry} {e : BEntry}, BEntry.DistinctL l → e ∈ l → findChild l e.name = some e
  | a :: l, e, hd, he => by
    unfold BEntry.DistinctL at hd
    obtain ⟨-, h2, h3⟩ := hd
    unfold findChild
    rw [List.find?_cons]
    rcases List.mem_cons.1 he with he | he
    · rw [he]; simp
    · rw [decide_eq_false (fun hc => h2 e he hc.symm)]
      exact findChild_mem h3 he

theorem done_err (st : Stats) (d : RsDone) : (st.done d).errored = st.errored := by cases d <;> rfl

theorem rsStep_write {o : RsOpts} (hp : Plain o) {stars : Nat → Obj} {s s' : RsSt} {e : BEntry} {d : RsDone} (hs : s.skip = 0) (h : s.write o stars e = .ok (s', d)) :
    rsStep o stars s (.entry e) = .ok { s' with st := s'.st.done d } := by
  unfold rsStep
  rw [if_neg (by omega)]
  dsimp only
  rw [hp.notDeleted, hp.cov, hp.onlyDeleted, h]
  simp

section
variable {o : RsOpts} {cat : BCat} {fs0 : FS} {Z : List Bytes → Prop} {d : List Bytes} {n : Bytes} {s : RsSt}

/-- what is found at an entry not treated yet -/
theorem RInv.here (h : RInv cat fs0 Z d s) (hz : ¬ Z (d ++ [n])) : s.fs.ent (d ++ [n]) = fs0.ent (d ++ [n]) ∧ s.fs.obj (d ++ [n]) = fs0.obj (d ++ [n]) := by
  obtain ⟨h1, h2⟩ := h.todo (d ++ [n]) (by simp) hz (snoc_not_prefix d n)
  refine ⟨h1, ?_⟩
  unfold FS.obj
  rw [h1]
  cases hv : fs0.ent (d ++ [n]) with
  | none => rfl
  | some v =>
    cases v with
    | dir y => rfl
    | ino i => dsimp only; rw [h2 i hv]
theorem RInv.hereBelow (h : RInv cat fs0 Z d s) (hz : ∀ q, d ++ [n] <+: q → ¬ Z q) {q : List Bytes} (hq : d ++ [n] <+: q) : s.fs.ent q = fs0.ent q :=
  (h.todo q (by rintro rfl; have := hq.length_le; simp at this) (hz q hq) (fun h2 => snoc_not_prefix d n (hq.trans h2))).1

theorem step_node (hp : Plain o) (hw : FSWf fs0) (hr : Restorable o fs0 cat) (h : RInv cat fs0 Z d s) (hz : ∀ q, d ++ [n] <+: q → ¬ Z q) (x : Obj)
    (ht : treeAt cat.root (d ++ [n]) = some (.node x)) :
    ∃ s', rsStep o cat.stars s (.entry (.node x)) = .ok s' ∧ RInv cat fs0 (withBelow Z (d ++ [n])) d s' := by
  obtain ⟨hk, hen⟩ := hr.entries _ _ ht
  have hnm : x.name = n := treeAt_name ht
  obtain ⟨he1, he2⟩ := h.here (hz _ (List.prefix_refl _))
  have hcd := h.cdir
  have hname : s.cdir ++ [BEntry.name (.node x)] = d ++ [n] := by rw [hcd]; show d ++ [x.name] = _; rw [hnm]
  obtain ⟨base, z, dn, hok, hb, hdn, hsm, hm⟩ := writeInode_ok hp s (.node x) x rfl rfl (by simp [BEntry.isDir, hk])
    (by rw [hcd]; exact opened_isDir h.opened h.root) (by rw [hname, he2]; exact hen)
  rw [hname] at hok hb
  obtain ⟨hed, -, hino⟩ := based_edit z h.ids (fun i hi => by
    have hi0 := hi; rw [he1] at hi
    have := (h.todo (d ++ [n]) (by simp) (hz _ (List.prefix_refl _)) (snoc_not_prefix d n)).2 i hi
    rw [this]; exact hw.kinds _ i hi) (fun y hy => hw.dirs (d ++ [n]) y (by simp) (by rw [← he1]; exact hy)) hb
  obtain ⟨i, hi1, hi2, hi3, hi4⟩ := hino hk
  -- no directory here
  have hnd : fs0.isDir (d ++ [n]) = false := by
    unfold FS.isDir
    cases hv : fs0.ent (d ++ [n]) with
    | none => rfl
    | some v =>
      cases v with
      | ino j => rfl
      | dir y =>
        exfalso
        have hyd := hw.dirs _ _ (by simp) hv
        have : fs0.obj (d ++ [n]) = some y := by unfold FS.obj; rw [hv]
        rw [this] at hen
        obtain ⟨e1, -⟩ := hen
        cases hst : x.ino.status <;> rw [hst] at e1 <;> first | exact hk (e1 hyd) | exact hk (e1.1.symm.trans hyd) | exact e1
  refine ⟨_, rsStep_write hp h.skip hok, ?_⟩
  have hent : RsSt.enter ({ (if dn = .restored then s.flag else s) with fs := base.setAt (d ++ [n]) z } : RsSt) (.node x) x (s.fs.obj (d ++ [n])) dn =
      { (if dn = .restored then s.flag else s) with fs := base.setAt (d ++ [n]) z } := rfl
  rw [hent]
  have hlab : ∀ k, RsSt.label ({ ({ (if dn = .restored then s.flag else s) with fs := base.setAt (d ++ [n]) z } : RsSt) with
      st := Stats.done (if dn = .restored then s.flag else s).st dn } : RsSt) k = s.label k := by
    intro k
    rw [flag_eq]
    split <;> rfl
  refine h.leaf (b := decide (dn = .restored)) hz hed ?_ ?_ ?_ ?_ ?_ ?_ ?_ ?_ ?_ ?_
  · rw [flag_eq]; split <;> rfl
  · rw [flag_eq]; split <;> rfl
  · show ((if dn = .restored then s.flag else s).st.done dn).errored = _
    rw [done_err, flag_eq]; split <;> rfl
  · rw [flag_eq]; simp only [decide_eq_true_eq]; split <;> rfl
  · rw [ht]; exact ⟨i, hi1, by rw [hi2]; exact hm (Or.inl hk)⟩
  · intro q hq hqne
    refine ⟨?_, treeAt_below ht rfl hq hqne⟩
    rcases hed.inside q hq hqne with h3 | h3
    · exact h3.trans ((h.hereBelow hz hq).trans (hw.below' hnd hq hqne))
    · exact h3
  · intro j hj
    have : j = i := by
      have := hi1.symm.trans hj; cases this; rfl
    subst this
    exact ⟨hi3, Or.inl hi4⟩
  · intro k v hv; rw [hlab] at hv; exact Or.inl hv
  · intro k v hv; rw [hlab]; exact hv
  · intro m k hmk; rw [ht] at hmk; cases hmk

theorem step_det (hp : Plain o) (hr : Restorable o fs0 cat) (h : RInv cat fs0 Z d s) (hz : ∀ q, d ++ [n] <+: q → ¬ Z q) (m : Bytes) (k : InoKind) (t : DateT)
    (ht : treeAt cat.root (d ++ [n]) = some (.detruit m k t)) :
    ∃ s', rsStep o cat.stars s (.entry (.detruit m k t)) = .ok s' ∧ RInv cat fs0 (withBelow Z (d ++ [n])) d s' := by
  have hen := hr.entries _ _ ht
  have hnm : m = n := treeAt_name ht
  obtain ⟨he1, he2⟩ := h.here (hz _ (List.prefix_refl _))
  have hcd := h.cdir
  have hobj : ∃ y, s.fs.obj (d ++ [n]) = some y := by
    rw [he2]; unfold FS.obj
    cases hv : fs0.ent (d ++ [n]) with
    | none => exact absurd hv hen
    | some v => cases v <;> simp
  obtain ⟨y, hy⟩ := hobj
  have hwr : s.write o cat.stars (.detruit m k t) = .ok (({ s with fs := s.fs.remove o.now (d ++ [n]) } : RsSt).flag, .removed) := by
    unfold RsSt.write RsSt.writeDet
    dsimp only
    rw [show s.cdir ++ [BEntry.name (.detruit m k t)] = d ++ [n] by rw [hcd]; show d ++ [m] = _; rw [hnm], hy]
    dsimp only
    rw [hp.over]
    rfl
  refine ⟨_, rsStep_write hp h.skip hwr, ?_⟩
  rw [flag_eq]
  refine h.leaf (b := true) hz (remove_edit o.now s.fs d n) rfl rfl (done_err _ _) rfl ?_ ?_ ?_ (fun k v hv => Or.inl hv) (fun k v hv => hv) ?_
  · rw [ht]; exact remove_here _ _ _ _ (List.prefix_refl _)
  · intro q hq hqne
    exact ⟨remove_here _ _ _ _ hq, treeAt_below ht rfl hq hqne⟩
  · intro i hi
    rw [show (s.fs.remove o.now (d ++ [n])).ent (d ++ [n]) = none from remove_here _ _ _ _ (List.prefix_refl _)] at hi
    cases hi
  · intro m' k' hmk; rw [ht] at hmk; cases hmk

theorem upd_same {fs : FS} {p : List Bytes} {y : Obj} {f : Obj → Obj} (h : fs.obj p = some y) (hf : f y = y) : fs.upd p f = fs := by
  have hne : fs.ent p ≠ none := by intro h2; rw [FS.obj, h2] at h; cases h
  have h1 := FS.upd_setAt fs p y f hne
  rw [FS.setAt_self fs p y h, hf, FS.setAt_self fs p y h] at h1
  exact h1

theorem RsSt.label_record (s : RsSt) (k : Nat) (p : List Bytes) (b : Bool) (j : Nat) : (s.record k p b).label j = if j = k then some (p, b) else s.label j := by
  unfold RsSt.record RsSt.label
  by_cases h : j = k
  · simp [h]
  · rw [if_neg h]
    simp only [List.find?_cons]
    rw [decide_eq_false (fun hc => h hc.symm)]

theorem getEa_same {x : Obj} (h : Enough o none x) : x.getEa = x.eas := by
  obtain ⟨-, h2, -⟩ := h
  unfold Obj.getEa
  rcases h2 with h2 | h2
  · rw [if_pos h2]
  · rw [h2]; split <;> rfl

/-- a hard linked inode met for the first time -/
theorem writeNew_first (hp : Plain o) (m : Bytes) (k : Nat) (p : List Bytes) (x : Obj) (hl : s.label k = none) (h : s.fs.isDir p.dropLast = true) (hen : Enough o none x) :
    ∃ b, s.writeNew o (.mirage m k) x p = .ok ({ s.flag with fs := (s.fs.newObj o p x).setAt p (o.finish false x (o.blank x)), corres := (if b then [(k, p, true)] else []) ++ (k, p, false) :: s.corres }, .restored) ∧ b = x.eaSaved := by
  have hne := newObj_ne o s.fs p x
  refine ⟨x.eaSaved, ?_, rfl⟩
  have hg := getEa_same hen
  unfold RsSt.writeNew
  rw [if_pos ⟨Or.inl hen.1, hp.onlyDeleted⟩]
  unfold RsSt.makeFile
  dsimp only
  rw [hl]
  dsimp only
  unfold RsSt.createFirst
  rw [create_eq o s p x h]
  unfold RsOpts.finish
  simp only [bind, Except.bind]
  have hfl : ∀ fs, RsSt.flag (RsSt.record { s with fs := fs } k p false) = { s.flag with fs := fs, corres := (k, p, false) :: s.corres } := by
    intro fs; rw [flag_eq, flag_eq]; rfl
  rw [hfl]
  have hset : ∀ z : Obj, RsSt.setEa o ({ s.flag with fs := (s.fs.newObj o p x).setAt p z, corres := (k, p, false) :: s.corres } : RsSt) (.mirage m k) x.getEa p =
      (({ s.flag with fs := (s.fs.newObj o p x).setAt p { z with eas := o.eaOver z.eas x.getEa }, corres := (k, p, true) :: (k, p, false) :: s.corres } : RsSt), true) := by
    intro z
    unfold RsSt.setEa
    have : RsSt.label ({ s.flag with fs := (s.fs.newObj o p x).setAt p z, corres := (k, p, false) :: s.corres } : RsSt) k = some (p, false) := by
      unfold RsSt.label; simp
    dsimp only
    rw [this]
    dsimp only [RsSt.record]
    rw [FS.upd_setAt _ _ _ _ hne]
  have hset2 : ∀ (fs : FS) (l : List (Nat × List Bytes × Bool)), RsSt.setEa o ({ s.flag with fs := fs, corres := (k, p, true) :: l } : RsSt) (.mirage m k) x.getEa p =
      (({ s.flag with fs := fs, corres := (k, p, true) :: l } : RsSt), false) := by
    intro fs l
    unfold RsSt.setEa
    have : RsSt.label ({ s.flag with fs := fs, corres := (k, p, true) :: l } : RsSt) k = some (p, true) := by
      unfold RsSt.label; simp
    dsimp only
    rw [this]
  have hb : (o.blank x).eas = [] := rfl
  have hagain : ∀ z : Obj, z.eas = x.eas → ({ z with eas := o.eaOver z.eas x.getEa } : Obj) = z := by
    intro z hz
    exact eas_self _ _ (by rw [hg, hz, hp.eaSame])
  have hF := fun (L : List (Nat × List Bytes × Bool)) (z : Obj) => setFsa_at o ({ s.flag with corres := L } : RsSt) x.fsas p (s.fs.newObj o p x) z hne
  have hD := fun (L : List (Nat × List Bytes × Bool)) (z : Obj) => setDate_at o ({ s.flag with corres := L } : RsSt) x p (s.fs.newObj o p x) z hne
  have hO := fun (L : List (Nat × List Bytes × Bool)) (z : Obj) => setOwner_at o ({ s.flag with corres := L } : RsSt) x p (s.fs.newObj o p x) z hne
  dsimp only at hF hD hO
  cases hea : x.eaSaved <;> by_cases hf : x.fsa = .full <;>
    simp only [hf, hset, hset2, hea, BEntry.isDir, if_true, if_false, Bool.false_eq_true, hF, hD, hO, reduceCtorEq]
  · rfl
  · rfl
  · rw [hagain (o.ownerPerm x _) (by rw [ownerPerm_eas, date_eas]; show o.eaOver [] x.getEa = _; rw [hp.eaNew, hg])]
    rfl
  · rw [hagain (o.ownerPerm x _) (by rw [ownerPerm_eas, date_eas]; show o.eaOver [] x.getEa = _; rw [hp.eaNew, hg])]
    rfl

/-- another name of a hard linked inode already restored -/
theorem writeNew_link (hp : Plain o) (m : Bytes) (k : Nat) (p : List Bytes) (x : Obj) (v : List Bytes × Bool) (i : Nat) (hl : s.label k = some v) (hv : s.fs.ent v.1 = some (.ino i))
    (hm : Match (s.fs.ino i) x) (h : s.fs.isDir p.dropLast = true) (hen : Enough o none x) (hb : v.2 = true ∨ x.eaSaved = false) :
    s.writeNew o (.mirage m k) x p = .ok ({ s.flag with fs := s.fs.put o.now p (.ino i) }, .restored) := by
  have hobj : (s.fs.put o.now p (.ino i)).obj p = some (s.fs.ino i) := by unfold FS.put FS.obj; simp
  have hent : (s.fs.put o.now p (.ino i)).ent p = some (.ino i) := by unfold FS.put; simp
  unfold RsSt.writeNew
  rw [if_pos ⟨Or.inl hen.1, hp.onlyDeleted⟩]
  unfold RsSt.makeFile
  dsimp only
  obtain ⟨old, b⟩ := v
  rw [hl]
  dsimp only at hv ⊢
  rw [hv]
  dsimp only
  rw [if_pos h]
  simp only [bind, Except.bind, flag_fs]
  have hset : x.eaSaved = true → RsSt.setEa o ({ s.flag with fs := s.fs.put o.now p (.ino i) } : RsSt) (.mirage m k) x.getEa p =
      (({ s.flag with fs := s.fs.put o.now p (.ino i) } : RsSt), false) := by
    intro he
    have hbt : b = true := by
      rcases hb with hb | hb
      · exact hb
      · rw [he] at hb; cases hb
    subst hbt
    unfold RsSt.setEa
    have : RsSt.label ({ s.flag with fs := s.fs.put o.now p (.ino i) } : RsSt) k = some (old, true) := by
      rw [flag_eq]; exact hl
    dsimp only
    rw [this]
  have hfsa : x.fsa = .full → RsSt.setFsa o ({ s.flag with fs := s.fs.put o.now p (.ino i) } : RsSt) x.fsas p = ({ s.flag with fs := s.fs.put o.now p (.ino i) } : RsSt) := by
    intro hf
    unfold RsSt.setFsa
    dsimp only
    rw [upd_same hobj]
    have hfs := hm.fsas (by rw [hf]; simp)
    have hne : x.fsas ≠ [] := by
      rcases hen.2.2 with ⟨-, h⟩ | h
      · exact h
      · rw [hf] at h; cases h
    have : o.fsaOver (s.fs.ino i).fsas x.fsas = (s.fs.ino i).fsas := by rw [hp.fsaNew _ _ hne, hfs]
    rw [this]
  have hdate : RsSt.setDate o ({ s.flag with fs := s.fs.put o.now p (.ino i) } : RsSt) x p = .ok ({ s.flag with fs := s.fs.put o.now p (.ino i) } : RsSt) := by
    unfold RsSt.setDate
    dsimp only
    rw [hent]
    dsimp only
    rw [upd_same hobj]
    unfold RsOpts.date
    rw [hp.what, ← hm.mtime]
    simp
  have hown : RsSt.setOwner o ({ s.flag with fs := s.fs.put o.now p (.ino i) } : RsSt) x p = ({ s.flag with fs := s.fs.put o.now p (.ino i) } : RsSt) := by
    unfold RsSt.setOwner
    dsimp only
    rw [upd_same hobj]
    unfold RsOpts.ownerPerm
    rw [hp.what, ← hm.uid, ← hm.gid]
    by_cases hk : x.ino.kind = .symlink
    · simp [hk]
    · rw [← hm.perm hk]; simp
  cases hea : x.eaSaved <;> by_cases hf : x.fsa = .full <;> simp [hf, hset, hfsa, hdate, hown, hea, BEntry.isDir]

theorem step_mirage (hp : Plain o) (hw : FSWf fs0) (hr : Restorable o fs0 cat) (h : RInv cat fs0 Z d s) (hz : ∀ q, d ++ [n] <+: q → ¬ Z q) (m : Bytes) (k : Nat)
    (ht : treeAt cat.root (d ++ [n]) = some (.mirage m k)) :
    ∃ s', rsStep o cat.stars s (.entry (.mirage m k)) = .ok s' ∧ RInv cat fs0 (withBelow Z (d ++ [n])) d s' := by
  obtain ⟨hk, hno, hen⟩ := hr.entries _ _ ht
  have hnm : m = n := treeAt_name ht
  obtain ⟨he1, he2⟩ := h.here (hz _ (List.prefix_refl _))
  have hcd := h.cdir
  have hname : s.cdir ++ [BEntry.name (.mirage m k)] = d ++ [n] := by rw [hcd]; show d ++ [m] = _; rw [hnm]
  have hpar : s.fs.isDir (d ++ [n]).dropLast = true := by rw [List.dropLast_concat]; exact opened_isDir h.opened h.root
  have hent0 : s.fs.ent (d ++ [n]) = none := by rw [he1]; exact hno
  have hobj : s.fs.obj (d ++ [n]) = none := by unfold FS.obj; rw [hent0]
  have hwi : ∀ s', s.writeNew o (.mirage m k) (cat.stars k) (d ++ [n]) = .ok (s', .restored) → s.write o cat.stars (.mirage m k) = .ok (s', .restored) := by
    intro s' hs
    unfold RsSt.write RsSt.writeInode
    dsimp only
    rw [hname, hobj]
    dsimp only
    rw [if_neg (by rw [hen.1]; simp), hs]
    rfl
  have hin0 : ∀ q, d ++ [n] <+: q → q ≠ d ++ [n] → s.fs.ent q = none := by
    intro q hq hqne
    rw [h.hereBelow hz hq]
    exact hw.below' (by unfold FS.isDir; rw [hno]) hq hqne
  cases hl : s.label k with
  | none =>
    obtain ⟨b, hok, hb⟩ := writeNew_first hp m k (d ++ [n]) (cat.stars k) hl hpar hen
    refine ⟨_, rsStep_write hp h.skip (hwi _ hok), ?_⟩
    have hbd : Based o s.fs (d ++ [n]) (cat.stars k) (s.fs.newObj o (d ++ [n]) (cat.stars k)) .restored := .fresh hent0
    obtain ⟨hed, -, hino⟩ := based_edit (o.finish false (cat.stars k) (o.blank (cat.stars k))) h.ids (fun i hi => by rw [hent0] at hi; cases hi)
      (fun y hy => by rw [hent0] at hy; cases hy) hbd
    obtain ⟨i, hi1, hi2, hi3, hi4⟩ := hino hk
    have hlab : ∀ (fs : FS) (st : Stats) (j : Nat), RsSt.label ({ ({ s.flag with fs := fs, corres := (if b then [(k, d ++ [n], true)] else []) ++ (k, d ++ [n], false) :: s.corres } : RsSt) with
        st := st } : RsSt) j = if j = k then some (d ++ [n], b) else s.label j := by
      intro fs st j
      unfold RsSt.label
      by_cases hj : j = k
      · subst hj; cases b <;> simp
      · rw [if_neg hj]
        have hkj : ¬ k = j := fun hc => hj hc.symm
        cases b <;> simp [List.find?_cons, hkj]
    refine h.leaf (b := true) hz (by simpa using hed) ?_ ?_ ?_ ?_ ?_ ?_ ?_ ?_ ?_ ?_
    · rw [flag_eq]
    · rw [flag_eq]
    · rw [flag_eq]; exact done_err _ _
    · rw [flag_eq]; rfl
    · rw [ht]; exact ⟨i, hi1, by show Match ((FS.setAt _ _ _).ino i) _; rw [hi2]; exact (finish_match hp false hen).2 rfl⟩
    · intro q hq hqne
      refine ⟨?_, treeAt_below ht rfl hq hqne⟩
      rcases hed.inside q hq hqne with h3 | h3
      · exact h3.trans (hin0 q hq hqne)
      · exact h3
    · intro j hj
      have : j = i := by
        have := hi1.symm.trans hj; cases this; rfl
      subst this
      exact ⟨hi3, Or.inl hi4⟩
    · intro j v hv
      rw [hlab] at hv
      by_cases hj : j = k
      · rw [if_pos hj] at hv
        cases hv
        subst hj
        refine Or.inr ⟨rfl, ⟨m, ht⟩, ?_⟩
        cases hbe : (cat.stars j).eaSaved
        · exact Or.inr rfl
        · left; rw [hb, hbe]
      · rw [if_neg hj] at hv; exact Or.inl hv
    · intro j v hv
      rw [hlab, if_neg]
      · exact hv
      · rintro rfl; rw [hl] at hv; cases hv
    · intro m' k' hmk
      rw [ht] at hmk
      cases hmk
      exact ⟨_, by rw [hlab, if_pos rfl], rfl⟩
  | some v =>
    obtain ⟨zv, ⟨mv, tv⟩, bv⟩ := h.lab k v hl
    have hfv := h.done v.1 zv
    rw [tv] at hfv
    obtain ⟨i, hvi, hmv⟩ := hfv
    have hok := writeNew_link hp m k (d ++ [n]) (cat.stars k) v i hl hvi hmv hpar hen bv
    refine ⟨_, rsStep_write hp h.skip (hwi _ hok), ?_⟩
    have hed := put_edit o.now s.fs d n (.ino i)
    have hhere : (s.fs.put o.now (d ++ [n]) (.ino i)).ent (d ++ [n]) = some (.ino i) := by unfold FS.put; simp
    refine h.leaf (b := true) hz hed ?_ ?_ ?_ ?_ ?_ ?_ ?_ ?_ ?_ ?_
    · rw [flag_eq]
    · rw [flag_eq]
    · rw [flag_eq]; exact done_err _ _
    · rw [flag_eq]; rfl
    · rw [ht]; exact ⟨i, hhere, hmv⟩
    · intro q hq hqne
      refine ⟨?_, treeAt_below ht rfl hq hqne⟩
      rcases hed.inside q hq hqne with h3 | h3
      · exact h3.trans (hin0 q hq hqne)
      · exact h3
    · intro j hj
      have : j = i := by
        have := hhere.symm.trans hj; cases this; rfl
      subst this
      exact ⟨Nat.lt_of_lt_of_le (h.ids _ _ hvi) hed.next, Or.inr ⟨v, m, k, hl, ht, hvi⟩⟩
    · intro j w hw; rw [flag_eq] at hw; exact Or.inl hw
    · intro j w hw; rw [flag_eq]; exact hw
    · intro m' k' hmk
      rw [ht] at hmk
      cases hmk
      refine ⟨v, by rw [flag_eq]; exact hl, ?_⟩
      show (s.fs.put o.now (d ++ [n]) (.ino i)).ent (d ++ [n]) = (s.fs.put o.now (d ++ [n]) (.ino i)).ent v.1
      rw [hhere, hed.other v.1 (by rw [List.dropLast_concat]; intro hc; exact h.zopen _ zv (by rw [hc]; exact List.prefix_refl _)) (fun hc => hz _ hc zv), hvi]

/-- entering a directory -/
theorem step_dir (hp : Plain o) (hw : FSWf fs0) (hr : Restorable o fs0 cat) (h : RInv cat fs0 Z d s) (hz : ∀ q, d ++ [n] <+: q → ¬ Z q) (x : Obj) (c : List BEntry)
    (ht : treeAt cat.root (d ++ [n]) = some (.dir x c)) :
    ∃ s', rsStep o cat.stars s (.entry (.dir x c)) = .ok s' ∧ RInv cat fs0 Z (d ++ [n]) s' := by
  obtain ⟨hk, hen⟩ := hr.entries _ _ ht
  have hnm : x.name = n := treeAt_name ht
  obtain ⟨he1, he2⟩ := h.here (hz _ (List.prefix_refl _))
  have hcd := h.cdir
  have hname : s.cdir ++ [BEntry.name (.dir x c)] = d ++ [n] := by rw [hcd]; show d ++ [x.name] = _; rw [hnm]
  obtain ⟨base, z, dn, hok, hb, hdn, hsm, hm⟩ := writeInode_ok hp s (.dir x c) x rfl rfl (by simp [BEntry.isDir, hk])
    (by rw [hcd]; exact opened_isDir h.opened h.root) (by rw [hname, he2]; exact hen)
  rw [hname] at hok hb
  have hkinds : ∀ i, s.fs.ent (d ++ [n]) = some (.ino i) → (s.fs.ino i).ino.kind ≠ .dir := fun i hi => by
    rw [he1] at hi
    have := (h.todo (d ++ [n]) (by simp) (hz _ (List.prefix_refl _)) (snoc_not_prefix d n)).2 i hi
    rw [this]; exact hw.kinds _ i hi
  obtain ⟨hed, hdir, -⟩ := based_edit z h.ids hkinds (fun y hy => hw.dirs (d ++ [n]) y (by simp) (by rw [← he1]; exact hy)) hb
  have hhere := hdir hk
  generalize hfs : base.setAt (d ++ [n]) z = fs' at *
  -- the directory is entered
  have hent : ∀ t : RsSt, t.enter (.dir x c) x (s.fs.obj (d ++ [n])) dn = { t with cdir := t.cdir ++ [n], stack := (x, decide (dn = .restored)) :: t.stack } := by
    intro t
    unfold RsSt.enter
    have : ((match s.fs.obj (d ++ [n]) with
        | none => true
        | some y => decide (y.ino.kind = .dir)) || decide (dn = .restored)) = true := by
      cases hb with
      | keep y _ ho hky => rw [ho]; simp [hky, hk]
      | fresh _ => simp
      | replaced _ _ _ => simp
    dsimp only
    rw [if_pos (by
      show ((BEntry.isDir (.dir x c)) && _) = true
      rw [show BEntry.isDir (.dir x c) = true from rfl, Bool.true_and]
      exact this)]
    rw [show BEntry.name (.dir x c) = n from hnm]
  rw [hent] at hok
  refine ⟨_, rsStep_write hp h.skip hok, ?_⟩
  -- what is below is unchanged
  have hbelow : ∀ q, d ++ [n] <+: q → q ≠ d ++ [n] → fs'.ent q = fs0.ent q := by
    intro q hq hqne
    rw [← h.hereBelow hz hq, ← hfs, FS.setAt_ent, if_neg hqne]
    have hput : ∀ g : FS, (g.newObj o (d ++ [n]) x).ent q = g.ent q := by
      intro g
      have hqd : q ≠ d := by rintro rfl; exact snoc_not_prefix _ _ hq
      unfold FS.newObj FS.newIno FS.newDir FS.put
      rw [List.dropLast_concat]
      split <;> dsimp only <;> rw [if_neg hqne, if_neg hqd]
    cases hb with
    | keep y _ ho hky => rfl
    | fresh hno => exact hput _
    | replaced y ho hyk =>
      rw [hput, remove_here _ _ _ _ hq, h.hereBelow hz hq]
      refine (hw.below' ?_ hq hqne).symm
      unfold FS.isDir
      rw [he2] at ho
      unfold FS.obj at ho
      cases hv : fs0.ent (d ++ [n]) with
      | none => rfl
      | some v =>
        cases v with
        | ino j => rfl
        | dir y' => rw [hv] at ho; cases ho; exact absurd (hw.dirs _ _ (by simp) hv) hyk
  have hnz : ¬ Z (d ++ [n]) := hz _ (List.prefix_refl _)
  have hother : ∀ q, q ≠ d → ¬ d ++ [n] <+: q → fs'.ent q = s.fs.ent q := fun q h1 h2 => hed.other q (by rw [List.dropLast_concat]; exact h1) h2
  have hinos : ∀ q i, q ≠ d ++ [n] → s.fs.ent q = some (.ino i) → fs'.ino i = s.fs.ino i := by
    intro q i hq h1
    refine hed.inos i (h.ids q i h1) (fun h3 => ?_)
    rcases h.uniq _ _ i h1 h3 with h4 | ⟨-, h4, -⟩
    · exact hq h4
    · exact hnz h4
  have hdent : ∀ i, fs'.ent d ≠ some (.ino i) := by
    intro i hi
    have hd := opened_isDir h.opened h.root
    unfold FS.isDir at hd
    have hpp := hed.parent
    rw [List.dropLast_concat] at hpp
    cases hv : s.fs.ent d with
    | none => rw [hv] at hd; cases hd
    | some w =>
      rw [hv] at hd hpp
      cases w with
      | ino j => cases hd
      | dir y => rcases hpp with hpp | ⟨-, hpp⟩ <;> rw [hpp] at hi <;> cases hi
  have hback : ∀ q i, fs'.ent q = some (.ino i) → s.fs.ent q = some (.ino i) := by
    intro q i hi
    by_cases hpq : d ++ [n] <+: q
    · by_cases hq : q = d ++ [n]
      · rw [hq, hhere] at hi; cases hi
      · rw [hbelow q hpq hq] at hi
        rw [h.hereBelow hz hpq]; exact hi
    · rw [← hother q (by rintro rfl; exact hdent i hi) hpq]; exact hi
  have hlab : ∀ (a : List Bytes) (b : List (Obj × Bool)) (st : Stats) (j : Nat), RsSt.label ({ (if dn = .restored then s.flag else s) with fs := fs', cdir := a, stack := b, st := st } : RsSt) j = s.label j := by
    intro a b st j
    rw [flag_eq]; split <;> rfl
  have hcd' : (if dn = .restored then s.flag else s).cdir = d := by rw [flag_eq]; split <;> exact hcd
  refine ⟨?_, ?_, ?_, ?_, ?_, ?_, ?_, ?_, ?_, ?_, ?_, ?_, ?_⟩
  · show (if dn = .restored then s.flag else s).cdir ++ [n] = _
    rw [hcd']
  · show (if dn = .restored then s.flag else s).skip = 0
    rw [flag_eq]; split <;> exact h.skip
  · show ((if dn = .restored then s.flag else s).st.done dn).errored = 0
    rw [done_err, flag_eq]; split <;> exact h.err
  · show fs'.isDir [] = true
    have hr0 := h.root
    unfold FS.isDir at *
    by_cases hd : d = []
    · have hpp := hed.parent
      rw [List.dropLast_concat, hd] at hpp
      cases hv : s.fs.ent [] with
      | none => rw [hv] at hr0; cases hr0
      | some w =>
        rw [hv] at hr0 hpp
        cases w with
        | ino j => cases hr0
        | dir y => rcases hpp with hpp | ⟨-, hpp⟩ <;> rw [hpp] <;> rfl
    · rw [hother [] (fun hc => hd hc.symm) (by intro hc; have := hc.length_le; simp at this)]
      exact hr0
  · intro q hq hZ hqd
    have hqd1 : ¬ q <+: d := fun hc => hqd (hc.trans (List.prefix_append _ _))
    have hqne : q ≠ d ++ [n] := by rintro rfl; exact hqd (List.prefix_refl _)
    obtain ⟨t1, t2⟩ := h.todo q hq hZ hqd1
    refine ⟨?_, fun i hi => ?_⟩
    · by_cases hpq : d ++ [n] <+: q
      · exact hbelow q hpq hqne
      · exact (hother q (by rintro rfl; exact hqd1 (List.prefix_refl _)) hpq).trans t1
    · rw [show _ = fs'.ino i from rfl, hinos q i hqne (by rw [t1]; exact hi), t2 i hi]
  · intro q hq
    refine foundAt_congr (h.done q hq) (hother q ?_ (fun hc => hz q hc hq)) (fun i hi => hinos q i ?_ hi)
    · rintro rfl; exact h.zopen _ hq (List.prefix_refl _)
    · rintro rfl; exact hnz hq
  · intro q hq hc
    rcases List.prefix_concat_iff.1 hc with hc | hc
    · rw [hc] at hq; exact hnz hq
    · exact h.zopen q hq hc
  · show Opened cat fs' ((x, decide (dn = .restored)) :: (if dn = .restored then s.flag else s).stack) (d ++ [n])
    refine ⟨d, by rw [hnm], ⟨c, ht⟩, ⟨z, hhere, hsm, ?_⟩, ?_⟩
    · rcases hdn with hdn | hdn
      · left; simp [hdn]
      · right; exact hm (Or.inr hdn)
    · have := opened_edit h.opened hed
      rw [flag_eq]
      simp only [decide_eq_true_eq] at this
      split <;> rename_i hc <;> simp only [hc, if_true, if_false] at this <;> exact this
  · intro q i hi
    exact Nat.lt_of_lt_of_le (h.ids q i (hback q i hi)) hed.next
  · exact Nat.le_trans h.next hed.next
  · intro p q i h1 h2
    exact h.uniq p q i (hback p i h1) (hback q i h2)
  · intro k v hv
    rw [show _ = _ from hlab _ _ _ k] at hv
    exact h.lab k v hv
  · intro p m k hZ hpk
    obtain ⟨v, h1, h2⟩ := h.labels p m k hZ hpk
    refine ⟨v, (hlab _ _ _ k).trans h1, ?_⟩
    have hz1 := h.lab k v h1
    show fs'.ent p = fs'.ent v.1
    rw [hother p (by rintro rfl; exact h.zopen _ hZ (List.prefix_refl _)) (fun hc => hz p hc hZ),
      hother v.1 (by intro hc; exact h.zopen _ hz1.1 (by rw [hc]; exact List.prefix_refl _)) (fun hc => hz _ hc hz1.1)]
    exact h2

/-- leaving a directory -/
theorem step_eod (hp : Plain o) (hw : FSWf fs0) (hr : Restorable o fs0 cat) (h : RInv cat fs0 Z (d ++ [n]) s) (x : Obj) (c : List BEntry)
    (ht : treeAt cat.root (d ++ [n]) = some (.dir x c)) (hz : ∀ q, (∃ e ∈ c, d ++ [n] ++ [e.name] <+: q) → Z q) :
    ∃ s', rsStep o cat.stars s .eod = .ok s' ∧ RInv cat fs0 (withBelow Z (d ++ [n])) d s' := by
  obtain ⟨hk, -⟩ := hr.entries _ _ ht
  have hop := h.opened
  cases hst : s.stack with
  | nil => rw [hst] at hop; simp [Opened] at hop
  | cons a st =>
    obtain ⟨x', f⟩ := a
    rw [hst] at hop
    obtain ⟨d', h1, ⟨c', h2⟩, ⟨y, h3, h4, h5⟩, h6⟩ := hop
    rw [ht] at h2
    cases h2
    obtain ⟨hdd, hnm⟩ : d' = d ∧ x.name = n := by
      have e1 := congrArg List.dropLast h1
      have e2 := congrArg List.getLast? h1
      simp at e1 e2
      exact ⟨e1.symm, e2.symm⟩
    subst hdd
    -- the new state
    have hstep : ∃ fs' y', rsStep o cat.stars s .eod = .ok { s with fs := fs', cdir := d', stack := st } ∧ fs'.ent (d' ++ [n]) = some (.dir y') ∧ Match y' x ∧
        (∀ q, q ≠ d' ++ [n] → fs'.ent q = s.fs.ent q) ∧ fs'.ino = s.fs.ino ∧ fs'.next = s.fs.next := by
      unfold rsStep
      rw [if_neg (by rw [h.skip]; omega)]
      dsimp only
      unfold RsSt.writeEod
      rw [hst, h.cdir, List.dropLast_concat]
      dsimp only
      by_cases hf : f = true
      · subst hf
        rw [if_pos rfl, hnm]
        have hself := FS.setAt_self s.fs (d' ++ [n]) y (by unfold FS.obj; rw [h3])
        have hne : s.fs.ent (d' ++ [n]) ≠ none := by rw [h3]; simp
        have hD := setDate_at o ({ s with cdir := d', stack := st } : RsSt) x (d' ++ [n]) s.fs y hne
        have hO := setOwner_at o ({ s with cdir := d', stack := st } : RsSt) x (d' ++ [n]) s.fs (o.date x y) hne
        rw [hself] at hD
        simp only at hD hO
        simp only [hD, hO, bind, Except.bind]
        refine ⟨_, o.ownerPerm x (o.date x y), rfl, ?_, meta_match hp h4 (sameContent_dir _ hk), fun q hq => ?_, ?_, setAt_next _ _ _⟩
        · rw [FS.setAt_ent, if_pos rfl, h3]
        · rw [FS.setAt_ent, if_neg hq]
        · unfold FS.setAt FS.upd; rw [h3]
      · rw [if_neg hf]
        refine ⟨s.fs, y, rfl, h3, ?_, fun _ _ => rfl, rfl, rfl⟩
        rcases h5 with h5 | h5
        · exact absurd h5 hf
        · exact h5
    obtain ⟨fs', y', hok, g1, g2, g3, g4, g5⟩ := hstep
    refine ⟨_, hok, ?_⟩
    have hback : ∀ q i, fs'.ent q = some (.ino i) → s.fs.ent q = some (.ino i) := by
      intro q i hi
      by_cases hq : q = d' ++ [n]
      · rw [hq, g1] at hi; cases hi
      · rw [← g3 q hq]; exact hi
    have hzp : ∀ q, Z q → q ≠ d' ++ [n] := by rintro q hq rfl; exact h.zopen _ hq (List.prefix_refl _)
    refine ⟨rfl, h.skip, h.err, ?_, ?_, ?_, ?_, ?_, ?_, ?_, ?_, ?_, ?_⟩
    · show fs'.isDir [] = true
      unfold FS.isDir
      rw [g3 [] (by simp)]
      exact h.root
    · intro q hq hZ hqd
      have hZ1 : ¬ Z q := fun hc => hZ (Or.inl hc)
      have hZ2 : ¬ d' ++ [n] <+: q := fun hc => hZ (Or.inr hc)
      have hqne : q ≠ d' ++ [n] := by rintro rfl; exact hZ2 (List.prefix_refl _)
      obtain ⟨t1, t2⟩ := h.todo q hq hZ1 (by
        intro hc
        rcases List.prefix_concat_iff.1 hc with hc | hc
        · exact hqne hc
        · exact hqd hc)
      exact ⟨(g3 q hqne).trans t1, fun i hi => by rw [show _ = fs'.ino i from rfl, g4]; exact t2 i hi⟩
    · rintro q hq
      by_cases hZ : Z q
      · exact foundAt_congr (h.done q hZ) (g3 q (hzp q hZ)) (fun i _ => by rw [show _ = fs'.ino i from rfl, g4])
      · rcases hq with hq | hq
        · exact absurd hq hZ
        · by_cases hqe : q = d' ++ [n]
          · rw [hqe, ht]; exact ⟨y', g1, g2⟩
          · obtain ⟨r, rfl⟩ := hq
            cases r with
            | nil => simp at hqe
            | cons m r =>
              -- not a name of the directory
              have hno : findChild c m = none := by
                cases hfc : findChild c m with
                | none => rfl
                | some e =>
                  exfalso
                  refine hZ (hz _ ⟨e, ?_, ?_⟩)
                  · exact List.mem_of_find?_eq_some hfc
                  · rw [findChild_name hfc]; exact ⟨r, by simp⟩
              have htn : ∀ r, treeAt cat.root (d' ++ [n] ++ m :: r) = none := by
                intro r
                rw [treeAt_app m r _ _ (by simp), ht]
                show treeAt c (m :: r) = none
                cases r with
                | nil => exact hno
                | cons m' r => rw [treeAt_more, subOf, hno]; rfl
              rw [htn]
              show fs'.ent _ = none
              rw [g3 _ hqe, (h.todo _ (by simp) hZ (by intro hc; have := hc.length_le; simp at this)).1]
              have h0 : fs0.ent (d' ++ [n] ++ [m]) = none := by
                cases hv : fs0.ent (d' ++ [n] ++ [m]) with
                | none => rfl
                | some v => exact absurd (htn []) (hr.complete (d' ++ [n]) m (by rw [hv]; simp) (Or.inr ⟨x, c, ht⟩))
              cases r with
              | nil => exact h0
              | cons m' r =>
                have := hw.below (p := d' ++ [n] ++ [m]) (by unfold FS.isDir; rw [h0]) (m' :: r) (by simp)
                simpa using this
    · rintro q (hq | hq)
      · exact fun hc => h.zopen q hq (hc.trans (List.prefix_append _ _))
      · exact fun hc => snoc_not_prefix d' n (hq.trans hc)
    · exact opened_congr st d' h6 (fun q hq => g3 q (by rintro rfl; exact snoc_not_prefix d' n hq))
    · intro q i hi
      show i < fs'.next
      rw [g5]; exact h.ids q i (hback q i hi)
    · show fs0.next ≤ fs'.next
      rw [g5]; exact h.next
    · intro p q i hp1 hq1
      rcases h.uniq p q i (hback p i hp1) (hback q i hq1) with hh | ⟨a, b, e⟩
      · exact Or.inl hh
      · exact Or.inr ⟨Or.inl a, Or.inl b, e⟩
    · intro k v hv
      obtain ⟨a, b, e⟩ := h.lab k v hv
      exact ⟨Or.inl a, b, e⟩
    · rintro p m k hZ hpk
      have hzz : Z p := by
        rcases hZ with hZ | hZ
        · exact hZ
        · by_cases hpe : p = d' ++ [n]
          · rw [hpe, ht] at hpk; cases hpk
          · obtain ⟨r, rfl⟩ := hZ
            cases r with
            | nil => simp at hpe
            | cons m' r =>
              refine hz _ ?_
              rw [treeAt_app m' r _ _ (by simp), ht] at hpk
              obtain ⟨e, he, hen⟩ := treeAt_head (l := c) hpk
              exact ⟨e, he, r, by rw [hen]; simp⟩
      obtain ⟨v, l1, l2⟩ := h.labels p m k hzz hpk
      refine ⟨v, l1, ?_⟩
      show fs'.ent p = fs'.ent v.1
      rw [g3 p (hzp p hzz), g3 v.1 (hzp _ (h.lab k v l1).1)]
      exact l2

theorem rsLoop_append (stars : Nat → Obj) (l1 l2 : List BEv) (s s1 : RsSt) (h : rsLoop o stars s l1 = .ok s1) :
    rsLoop o stars s (l1 ++ l2) = rsLoop o stars s1 l2 := by
  induction l1 generalizing s with
  | nil => cases h; rfl
  | cons a l ih =>
    unfold rsLoop at h
    show rsLoop o stars s (a :: (l ++ l2)) = _
    rw [rsLoop]
    cases hs : rsStep o stars s a with
    | error e => rw [hs] at h; cases h
    | ok s2 =>
      rw [hs] at h
      exact ih s2 h

theorem RInv.congr {Z' : List Bytes → Prop} (h : RInv cat fs0 Z d s) (hZ : ∀ q, Z q ↔ Z' q) : RInv cat fs0 Z' d s := by
  have : Z = Z' := funext fun q => propext (hZ q)
  rw [← this]; exact h

mutual
/-- an entry with all it contains -/
theorem run_entry (hp : Plain o) (hw : FSWf fs0) (hr : Restorable o fs0 cat) (e : BEntry) (Z : List Bytes → Prop) (d : List Bytes) (s : RsSt) (h : RInv cat fs0 Z d s)
    (hz : ∀ q, d ++ [e.name] <+: q → ¬ Z q) (ht : treeAt cat.root (d ++ [e.name]) = some e) (hd : BEntry.Distinct e) :
    ∃ s', rsLoop o cat.stars s (BEntry.events e) = .ok s' ∧ RInv cat fs0 (withBelow Z (d ++ [e.name])) d s' := by
  cases e with
  | node x =>
    obtain ⟨s', h1, h2⟩ := step_node hp hw hr h hz x ht
    exact ⟨s', by unfold BEntry.events; unfold rsLoop; rw [h1]; rfl, h2⟩
  | mirage m k =>
    obtain ⟨s', h1, h2⟩ := step_mirage hp hw hr h hz m k ht
    exact ⟨s', by unfold BEntry.events; unfold rsLoop; rw [h1]; rfl, h2⟩
  | detruit m k t =>
    obtain ⟨s', h1, h2⟩ := step_det hp hr h hz m k t ht
    exact ⟨s', by unfold BEntry.events; unfold rsLoop; rw [h1]; rfl, h2⟩
  | ignored m => exact absurd (hr.entries _ _ ht) id
  | ignoredDir x => exact absurd (hr.entries _ _ ht) id
  | dir x c =>
    obtain ⟨s1, h1, h2⟩ := step_dir hp hw hr h hz x c ht
    have hd' : BEntry.DistinctL c := by unfold BEntry.Distinct at hd; exact hd
    obtain ⟨s2, h3, h4⟩ := run_list hp hw hr c Z _ s1 h2 (fun q hq => hz q (by
      obtain ⟨e, -, he⟩ := hq
      exact (List.prefix_append _ _).trans he)) (fun e he => by
      rw [treeAt_app _ _ _ _ (by simp), ht]
      exact findChild_mem hd' he) hd'
    obtain ⟨s3, h5, h6⟩ := step_eod hp hw hr h4 x c ht (fun q hq => Or.inr hq)
    refine ⟨s3, ?_, h6.congr (fun q => ?_)⟩
    · unfold BEntry.events
      unfold rsLoop
      rw [h1]
      show rsLoop o cat.stars s1 (BEntry.eventsList c ++ [BEv.eod]) = _
      rw [rsLoop_append _ _ _ _ _ h3]
      unfold rsLoop
      rw [h5]
      rfl
    · constructor
      · rintro ((hq | ⟨e, -, hq⟩) | hq)
        · exact Or.inl hq
        · exact Or.inr ((List.prefix_append _ _).trans hq)
        · exact Or.inr hq
      · rintro (hq | hq)
        · exact Or.inl (Or.inl hq)
        · exact Or.inr hq
/-- the entries of a directory -/
theorem run_list (hp : Plain o) (hw : FSWf fs0) (hr : Restorable o fs0 cat) (l : List BEntry) (Z : List Bytes → Prop) (d : List Bytes) (s : RsSt) (h : RInv cat fs0 Z d s)
    (hz : ∀ q, (∃ e ∈ l, d ++ [e.name] <+: q) → ¬ Z q) (ht : ∀ e ∈ l, treeAt cat.root (d ++ [e.name]) = some e) (hd : BEntry.DistinctL l) :
    ∃ s', rsLoop o cat.stars s (BEntry.eventsList l) = .ok s' ∧ RInv cat fs0 (fun q => Z q ∨ ∃ e ∈ l, d ++ [e.name] <+: q) d s' := by
  cases l with
  | nil => exact ⟨s, by unfold BEntry.eventsList; rfl, h.congr (fun q => by simp)⟩
  | cons e l =>
    unfold BEntry.DistinctL at hd
    obtain ⟨hd1, hd2, hd3⟩ := hd
    obtain ⟨s1, h1, h2⟩ := run_entry hp hw hr e Z d s h (fun q hq => hz q ⟨e, by simp, hq⟩) (ht e (by simp)) hd1
    obtain ⟨s2, h3, h4⟩ := run_list hp hw hr l (withBelow Z (d ++ [e.name])) d s1 h2 (fun q hq => by
      rintro (hc | hc)
      · obtain ⟨a, ha, haq⟩ := hq
        exact hz q ⟨a, by simp [ha], haq⟩ hc
      · obtain ⟨a, ha, haq⟩ := hq
        have := List.prefix_of_prefix_length_le haq hc (by simp)
        have heq := List.IsPrefix.eq_of_length this (by simp)
        exact hd2 a ha (by simpa using heq)) (fun a ha => ht a (by simp [ha])) hd3
    refine ⟨s2, ?_, h4.congr (fun q => ?_)⟩
    · unfold BEntry.eventsList
      rw [rsLoop_append _ _ _ _ _ h1, h3]
    · simp only [withBelow, List.mem_cons, exists_eq_or_imp, or_assoc]
end

end
end Dar
