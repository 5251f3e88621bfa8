import Verif.Props.Backup
/- C33: what is recorded for the entries the filters exclude. -/
namespace Dar

/-- What the archive has for an excluded entry `e` found at the path `p`: a mark that it was seen or, for a directory when this is asked, an empty directory with the
attributes of the directory, saved unless the archive of reference has it unchanged or no data is to be saved at all. -/
def ExcludedAs (o : BkOpts) (ref : BCat) (p : List Bytes) (e e' : BEntry) : Prop :=
  match e with
  | .dir x _ => (o.emptyDir = false ∧ e' = .ignored x.name) ∨
      (o.emptyDir = true ∧ ∃ s, e' = .ignoredDir { x with ino := { x.ino with status := s } } ∧ (s = .saved ∨ s = .notSaved) ∧
        (s = .saved ↔ o.snapshot = false ∧ ∀ b, Reference o ref p x b → Changed o x.ino b.ino))
  | e => e' = .ignored e.name

theorem emptyDir_spec (o : BkOpts) (ref : BCat) (p : List Bytes) (x : Obj) (f : Option Obj) (hf : RefIs o ref p x f)
    (hk : ∀ y, f = some y → y.ino.kind = x.ino.kind) :
    ∃ s, emptyDirStatus o x f = .ok s ∧ (s = .saved ∨ s = .notSaved) ∧ (s = .saved ↔ o.snapshot = false ∧ ∀ b, Reference o ref p x b → Changed o x.ino b.ino) := by
  unfold emptyDirStatus
  cases f with
  | none =>
    refine ⟨_, rfl, by cases o.snapshot <;> simp, ?_⟩
    have : ∀ b, ¬ Reference o ref p x b := by
      intro b hb
      have := (hf b).mpr hb
      cases hs : o.snapshot <;> rw [hs] at this <;> simp at this
    cases hs : o.snapshot
    · simp only [Bool.not_false, Bool.and_self, if_true, true_iff, true_and]
      exact fun b hb => absurd hb (this b)
    · simp
  | some y =>
    obtain ⟨r, h1, h2⟩ := hasChanged_spec o x.ino y.ino (hk y rfl)
    simp only [h1]
    refine ⟨_, rfl, by cases o.snapshot <;> cases r <;> simp, ?_⟩
    cases hs : o.snapshot
    · have hr : ∀ b, Reference o ref p x b ↔ y = b := by
        intro b; rw [← hf b, hs]; simp
      simp only [Bool.not_false, Bool.and_true, true_and]
      constructor
      · intro h b hb
        rw [hr] at hb
        subst hb
        apply h2.mp
        by_contra hc
        rw [if_neg hc] at h
        cases h
      · intro h
        rw [if_pos (h2.mpr (h y ((hr y).mpr rfl)))]
    · simp

theorem refObj_kind {o : BkOpts} {stars rstars : Nat → Obj} {refd : Option (List BEntry)} {e : BEntry} {x y : Obj} (hx : e.obj stars = some x)
    (h : refObj o stars rstars refd e = some y) : y.ino.kind = x.ino.kind := by
  unfold refObj at h
  split at h
  · split at h
    · cases h
    · split at h
      · cases h
      · rename_i g _
        rw [hx] at h
        cases hg : g.obj rstars with
        | none => rw [hg] at h; cases h
        | some b =>
          rw [hg] at h
          simp only at h
          by_cases hs : x.sameAs b = true
          · rw [if_pos hs] at h
            cases h
            unfold Obj.sameAs at hs
            simp only [Bool.and_eq_true, decide_eq_true_eq] at hs
            exact hs.2.symm
          · rw [if_neg hs] at h; cases h
  · cases h

theorem headSkip_spec {o : BkOpts} {ref : BCat} {refd : Option (List BEntry)} {path : List Bytes} {e : BEntry} {c : BkCore} {h : BkHead} (hr : RefDir ref path refd)
    (hh : headSkip o ref.stars refd e c = .ok h) : ∃ e' c', h = .leaf e' c' ∧ ExcludedAs o ref (path.reverse ++ [e.name]) e e' := by
  unfold headSkip at hh
  cases e with
  | dir x ch =>
    simp only at hh
    by_cases he : o.emptyDir = true
    · rw [if_pos he] at hh
      obtain ⟨s, h1, h2, h3⟩ := emptyDir_spec o ref (path.reverse ++ [x.name]) x (refObj o c.stars ref.stars refd (.dir x ch))
        (refObj_is hr c.stars (.dir x ch) x rfl) (fun y hy => refObj_kind (stars := c.stars) (e := .dir x ch) rfl hy)
      rw [h1] at hh
      cases hh
      exact ⟨_, _, rfl, Or.inr ⟨he, s, rfl, h2, h3⟩⟩
    · rw [if_neg he] at hh; cases hh; exact ⟨_, _, rfl, Or.inl ⟨by simpa using he, rfl⟩⟩
  | _ => cases hh; exact ⟨_, _, rfl, rfl⟩

theorem bkEntry_leaf {o : BkOpts} {rstars : Nat → Obj} {refd : Option (List BEntry)} {path : List Bytes} {e e' : BEntry} {c c' : BkCore}
    (h : bkHead o rstars refd path e c = .ok (.leaf e' c')) : bkEntry o rstars refd path e c = .ok (e', c') := by
  cases e with
  | dir x ch => rw [bkEntry, h]; rfl
  | _ => rw [bkEntry, h]
         · rfl
         · intro _ _ h; cases h
theorem bkEntry_err {o : BkOpts} {rstars : Nat → Obj} {refd : Option (List BEntry)} {path : List Bytes} {e : BEntry} {c : BkCore} {err : Err}
    (h : bkHead o rstars refd path e c = .error err) : bkEntry o rstars refd path e c = .error err := by
  cases e with
  | dir x ch => rw [bkEntry, h]; rfl
  | _ => rw [bkEntry, h]
         · rfl
         · intro _ _ h; cases h

/-- the filters exclude an entry; the second argument tells that the entry is a hard link to an inode already recorded -/
def Excluded (o : BkOpts) (p : List Bytes) (e : BEntry) : Prop := ∀ k, (k = true → ∃ n i, e = .mirage n i) → o.cov p k = false

theorem excl_path {o : BkOpts} {ref : BCat} : ∀ (p : List Bytes) (l : List BEntry) (refd : Option (List BEntry)) (path : List Bytes) (c : BkCore)
    (l' : List BEntry) (c' : BkCore) (e : BEntry),
    bkList o ref.stars refd path l c = .ok (l', c') → RefDir ref path refd → treeAt l p = some e →
    (∀ q, q ≠ [] → q <+: p → q ≠ p → o.cov (path.reverse ++ q) false = true ∧ o.fails (path.reverse ++ q) = none) →
    Excluded o (path.reverse ++ p) e → ∃ e', treeAt l' p = some e' ∧ ExcludedAs o ref (path.reverse ++ p) e e'
  | [], l, refd, path, c, l', c', e, h, hr, ht, hk, he => by simp [treeAt] at ht
  | [n], l, refd, path, c, l', c', e, h, hr, ht, hk, he => by
    have hf := bkList_find n l c l' c' h
    simp only [treeAt] at ht ⊢
    rw [ht] at hf
    obtain ⟨c0, e', c1, hb, hfind⟩ := hf
    have hn : e.name = n := by simpa using List.find?_some ht
    subst hn
    rw [hfind]
    have hkn : e.known c0.wrote = true → ∃ n i, e = .mirage n i := by
      cases e with
      | mirage n k => exact fun _ => ⟨_, _, rfl⟩
      | _ => intro h; cases h
    have hhead : bkHead o ref.stars refd path e c0 = headSkip o ref.stars refd e c0 := by
      unfold bkHead
      rw [if_neg (by rw [List.reverse_cons, he _ hkn]; simp)]
    cases hh : headSkip o ref.stars refd e c0 with
    | error err =>
      rw [hh] at hhead
      rw [bkEntry_err hhead] at hb
      cases hb
    | ok r =>
      obtain ⟨e2, c2, rfl, hx⟩ := headSkip_spec hr hh
      rw [hh] at hhead
      rw [bkEntry_leaf hhead] at hb
      cases hb
      exact ⟨_, rfl, hx⟩
  | n :: m :: p, l, refd, path, c, l', c', e, h, hr, ht, hk, he => by
    have hf := bkList_find n l c l' c' h
    simp only [treeAt] at ht ⊢
    cases hfd : l.find? (fun e => decide (e.name = n)) with
    | none => rw [hfd] at ht; cases ht
    | some d =>
      rw [hfd] at ht hf
      cases d with
      | dir y ch =>
        simp only at ht
        obtain ⟨c0, e', c1, hb, hfind⟩ := hf
        have hn : y.name = n := by have := List.find?_some hfd; exact of_decide_eq_true this
        obtain ⟨hcov, hfl⟩ := hk [n] (by simp) ⟨m :: p, rfl⟩ (by simp)
        have hhead : bkHead o ref.stars refd path (.dir y ch) c0 = headOne o ref.stars refd path (.dir y ch) y c0 := by
          unfold bkHead
          rw [show (BEntry.dir y ch).known c0.wrote = false from rfl, if_pos (by rw [List.reverse_cons]; simpa [BEntry.name, hn] using hcov), if_neg (by simp)]
          rfl
        rw [bkEntry, hhead] at hb
        cases hh : headOne o ref.stars refd path (.dir y ch) y c0 with
        | error err => rw [hh] at hb; cases hb
        | ok r =>
          rw [hh] at hb
          obtain ⟨x', hrec, st, rfl⟩ := headOne_ok hr rfl (by simpa [BEntry.name, hn] using hfl) hh
          simp only [bind, Except.bind, BEntry.isDir, if_true] at hb
          cases hl : bkList o ref.stars (refSub refd y.name) (y.name :: path) ch ⟨setStar c0.stars (.dir y ch) x', markWrote c0.wrote (.dir y ch), st⟩ with
          | error err => rw [hl] at hb; cases hb
          | ok r2 =>
            obtain ⟨l2, c2⟩ := r2
            rw [hl] at hb
            cases hb
            rw [hfind]
            obtain ⟨e2, h1, h2⟩ := excl_path (m :: p) ch (refSub refd y.name) (y.name :: path) _ l2 _ e hl (hr.sub y.name) ht (by
              intro q hq hpre hne
              have := hk (n :: q) (by simp) (by simpa using hpre) (by simpa using hne)
              simpa [hn] using this) (by simpa [hn] using he)
            exact ⟨e2, h1, by simpa [hn] using h2⟩
      | _ => simp at ht

/-- **C33**: an entry of the source that the filters exclude, in a directory which is kept, is never recorded with its data: the archive only has a mark (used to not
take it for a deleted file) or, for a directory when empty directories are asked, an empty directory, saved unless unchanged since the archive of reference. -/
theorem C33_excluded (o : BkOpts) (src ref cat : BCat) (st : Stats) (h : backup o src ref = .ok (cat, st)) (p : List Bytes) (e : BEntry)
    (ht : treeAt src.root p = some e) (hk : ∀ q, q ≠ [] → q <+: p → q ≠ p → o.cov q false = true ∧ o.fails q = none) (he : Excluded o p e) :
    ∃ e', treeAt cat.root p = some e' ∧ ExcludedAs o ref p e e' := by
  rw [backup_eq] at h
  cases hb : bkList o ref.stars (some ref.root) [] src.root ⟨src.stars, [], Stats.zero⟩ with
  | error e => rw [hb] at h; cases h
  | ok r =>
    obtain ⟨l', c'⟩ := r
    rw [hb] at h
    cases h
    exact excl_path p src.root _ [] _ l' c' e hb (fun q _ => rfl) ht hk he

private def exclObj (n : UInt8) (k : InoKind) (size : Nat) : Obj :=
  ⟨[n], ⟨k, 1000, 100, 420, ⟨7, .s⟩, ⟨8, .s⟩, .saved, size, false, false, false, 0, 0, [], .none, 0, 0⟩, .none, [], [], []⟩

/-- a kept directory "d" with an excluded directory "e" that has changed and an excluded file "f"; empty directories are asked -/
example : ∃ cat st, backup ⟨.us, 0, .all, false, 0, false, .anyInodeChange, true, fun p _ => decide (p.length = 1), fun _ => false, fun _ => none⟩
    ⟨[.dir (exclObj 100 .dir 0) [.dir (exclObj 101 .dir 0) [], .node (exclObj 102 .file 5)]], fun _ => exclObj 0 .file 0⟩
    ⟨[], fun _ => exclObj 0 .file 0⟩ = .ok (cat, st) ∧
    treeAt cat.root [[100], [101]] = some (.ignoredDir (exclObj 101 .dir 0)) ∧ treeAt cat.root [[100], [102]] = some (.ignored [102]) :=
  ⟨_, _, rfl, rfl, rfl⟩

end Dar
