import Verif.Lemmas.RestoreNames
/- The walk seen from one entry: what precedes and what follows does not concern its path. -/
namespace Dar

variable {o : RsOpts} {stars : Nat → Obj} {s s' : RsSt} {e : BEntry} {p w : List Bytes} {hard : Bool} {cat : BCat} {fs0 : FS}

theorem setDate_ok {x : Obj} (h : s.fs.ent p ≠ none) : s.setDate o x p = .ok { s with fs := s.fs.upd p (o.date x) } := by
  unfold RsSt.setDate
  cases hv : s.fs.ent p with
  | none => exact absurd hv h
  | some v => rfl

/-- errors other than the one of a bug are caught -/
theorem caught_bug {r : RsM (RsSt × Bool)} (hr : ∀ er t, r = .error (er, t) → er = .range ∨ er = .bug) : ∀ er t, caught s r = .error (er, t) → er = .bug := by
  intro er t h
  unfold caught at h
  split at h
  · cases h
  · cases h
  · rename_i v hne
    cases h
    rcases hr er t rfl with h1 | h1
    · exact absurd h1 (fun hc => hne t (by rw [hc]))
    · exact h1
theorem overEa_err (x y : Obj) (a : OverEa) : ∀ er t, s.overEa o e x y p a = .error (er, t) → er = .range ∨ er = .bug := by
  intro er t h
  unfold RsSt.overEa at h
  simp only at h
  generalize (if y.eas = [] ∧ (a = .mergePreserve ∨ a = .mergeOverwrite) then OverEa.overwrite else a) = c at h
  generalize (if x.ino.eaStatus = .removed ∧ (c = .mergePreserve ∨ c = .mergeOverwrite) then OverEa.clear else c) = b at h
  cases b with
  | undefined => cases h; exact Or.inl rfl
  | ask => cases h; exact Or.inr rfl
  | overwrite => simp only at h; split at h <;> cases h
  | overwriteMark => simp only at h; split at h <;> cases h
  | _ => cases h
theorem overFsa_err (x y : Obj) (a : OverEa) : ∀ er t, s.overFsa o e x y p a = .error (er, t) → er = .range ∨ er = .bug := by
  intro er t h
  unfold RsSt.overFsa at h
  simp only at h
  generalize (if y.fsas = [] ∧ (a = .mergePreserve ∨ a = .mergeOverwrite) then OverEa.overwrite else a) = b at h
  cases b with
  | undefined => cases h; exact Or.inl rfl
  | ask => cases h; exact Or.inr rfl
  | overwrite => simp only at h; split at h <;> cases h
  | overwriteMark => simp only at h; split at h <;> cases h
  | _ => cases h

/-- once the data is restored, only the error of a bug may be thrown -/
theorem over_rest_err (x y : Obj) (ad : OverData) (ae : OverEa) {s1 : RsSt} {d : RsDone} (hc : s.overContent o e x y p ad = .ok (s1, d)) (hne : s1.fs.ent p ≠ none) :
    ∀ er t, s.writeOver o e x y p ad ae = .error (er, t) → er = .bug := by
  intro er t h
  unfold RsSt.writeOver at h
  rw [hc] at h
  change Except.bind _ _ = _ at h
  simp only [Except.bind, bind] at h
  have hea : ∀ (s1 : RsSt) er t, (if ad ≠ .remove ∧ x.eaSaved = true then caught s1 (s1.overEa o e x y p ae) else .ok (s1, false)) = .error (er, t) → er = .bug := by
    intro s1 er t h
    by_cases hif : ad ≠ .remove ∧ x.eaSaved = true
    · rw [if_pos hif] at h; exact caught_bug (overEa_err x y ae) er t h
    · rw [if_neg hif] at h; cases h
  have hfa : ∀ (s1 : RsSt) er t, (if ad ≠ .remove ∧ x.fsa = .full then caught s1 (s1.overFsa o e x y p ae) else .ok (s1, false)) = .error (er, t) → er = .bug := by
    intro s1 er t h
    by_cases hif : ad ≠ .remove ∧ x.fsa = .full
    · rw [if_pos hif] at h; exact caught_bug (overFsa_err x y ae) er t h
    · rw [if_neg hif] at h; cases h
  have r1 : Runs o e p false s1 Prod.fst (if ad ≠ .remove ∧ x.eaSaved = true then caught s1 (s1.overEa o e x y p ae) else .ok (s1, false)) := by
    split
    · exact runs_caught (runs_overEa ..)
    · exact .refl
  have he1 := hea s1
  generalize (if ad ≠ .remove ∧ x.eaSaved = true then caught s1 (s1.overEa o e x y p ae) else .ok (s1, false)) = g1 at h r1 he1
  cases g1 with
  | error v => cases h; exact he1 er t rfl
  | ok v1 =>
    obtain ⟨s2, eaD⟩ := v1
    have n2 : s2.fs.ent p ≠ none := prims_stay r1 p (by intro h; cases h) hne
    dsimp only at h
    have r2 : Runs o e p false s2 Prod.fst (if ad ≠ .remove ∧ x.fsa = .full then caught s2 (s2.overFsa o e x y p ae) else .ok (s2, false)) := by
      split
      · exact runs_caught (runs_overFsa ..)
      · exact .refl
    have he2 := hfa s2
    generalize (if ad ≠ .remove ∧ x.fsa = .full then caught s2 (s2.overFsa o e x y p ae) else .ok (s2, false)) = g2 at h r2 he2
    cases g2 with
    | error v => cases h; exact he2 er t rfl
    | ok v2 =>
      obtain ⟨s3, fb⟩ := v2
      have n3 : s3.fs.ent p ≠ none := prims_stay r2 p (by intro h; cases h) n2
      dsimp only at h
      simp only [setDate_ok n3] at h
      generalize hg : (if x.fsa = .full ∨ x.eaSaved = true ∨ x.ino.status = .delta ∨ x.ino.status = .saved ∨ x.ino.status = .inodeOnly then _ else _) = g3 at h
      have h3 : ∃ s4, g3 = .ok s4 := by
        rw [← hg]
        split
        · split
          · split
            · exact ⟨_, rfl⟩
            · exact ⟨_, rfl⟩
          · exact ⟨_, rfl⟩
        · exact ⟨_, rfl⟩
      obtain ⟨s4, rfl⟩ := h3
      dsimp only at h
      by_cases hb : eaD = true
      · rw [if_pos hb] at h
        have he3 := caught_bug (s := s4) (overEa_err (o := o) (s := s4) (e := e) (p := p) x y ae)
        generalize caught s4 (s4.overEa o e x y p ae) = g4 at h he3
        cases g4 with
        | error v => cases h; exact he3 er t rfl
        | ok v => cases h
      · rw [if_neg hb] at h; cases h

/-- a directory is entered over an existing one, unless the policy says to remove it or is undefined -/
theorem write_dir_in (stars : Nat → Obj) (s : RsSt) (x y : Obj) (c : List BEntry) {ad : OverData} {ae : OverEa} (hk : x.ino.kind = .dir) (hy : s.fs.ent (s.cdir ++ [x.name]) = some (.dir y))
    (hyk : y.ino.kind = .dir) (hov : o.over y (.dir x c) = .ok (ad, ae)) (had : ad = .preserve ∨ ad = .preserveMark ∨ ad = .overwrite ∨ ad = .overwriteMark) :
    match s.write o stars (.dir x c) with
    | .ok (s', d) => ∃ s1, Prims o (.dir x c) (s.cdir ++ [(BEntry.dir x c).name]) false s s1 ∧ s' = s1.push x (decide (d = .restored))
    | .error (er, _) => er = .bug := by
  have hy2 : s.fs.obj (s.cdir ++ [(BEntry.dir x c).name]) = some y := by unfold FS.obj; rw [show s.fs.ent (s.cdir ++ [(BEntry.dir x c).name]) = _ from hy]
  have hs : sameInPlace x y = true := by simp [sameInPlace, BEntry.name, hk, hyk]
  have hf : y.ino.isFile = false := by simp [Ino.isFile, hyk]
  have hoc : ∃ s1 d, s.overContent o (.dir x c) x y (s.cdir ++ [(BEntry.dir x c).name]) ad = .ok (s1, d) ∧ Prims o (.dir x c) (s.cdir ++ [(BEntry.dir x c).name]) false s s1 := by
    unfold RsSt.overContent
    split
    · unfold RsSt.overData
      simp only [hs, BEntry.isDir, Bool.true_or, Bool.and_true, Bool.not_true, if_true, Bool.and_false, Bool.false_eq_true, if_false]
      rcases had with rfl | rfl | rfl | rfl
      · exact ⟨_, _, rfl, .refl⟩
      · exact ⟨_, _, rfl, .refl⟩
      · exact ⟨_, _, rfl, (Prim.update s _ (widen_kind o x)).one⟩
      · exact ⟨_, _, rfl, (Prim.update s _ (widen_kind o x)).one⟩
    · split
      · rw [hf]; exact ⟨_, _, rfl, .refl⟩
      · exact ⟨_, _, rfl, .refl⟩
  obtain ⟨s1, d1, hoc, hp1⟩ := hoc
  have hne : s1.fs.ent (s.cdir ++ [(BEntry.dir x c).name]) ≠ none := prims_stay hp1 _ (by intro h; cases h) (by rw [show s.fs.ent (s.cdir ++ [(BEntry.dir x c).name]) = _ from hy]; simp)
  have hrun := runs_over_of (hard := false) (o := o) x y ad ae (s := s) (e := .dir x c) (p := s.cdir ++ [(BEntry.dir x c).name]) (by rw [hoc]; exact hp1)
  have herr := over_rest_err (o := o) x y ad ae hoc hne
  show match s.writeInode o (.dir x c) x with
    | .ok (s', d) => ∃ s1, Prims o (.dir x c) (s.cdir ++ [(BEntry.dir x c).name]) false s s1 ∧ s' = s1.push x (decide (d = .restored))
    | .error (er, _) => er = .bug
  unfold RsSt.writeInode
  simp only [hy2, hov]
  cases hwo : s.writeOver o (.dir x c) x y (s.cdir ++ [(BEntry.dir x c).name]) ad ae with
  | error v => exact herr v.1 v.2 hwo
  | ok r =>
    obtain ⟨s2, d⟩ := r
    rw [hwo] at hrun
    refine ⟨s2, hrun, ?_⟩
    show s2.enter (.dir x c) x (some y) d = _
    unfold RsSt.enter RsSt.push
    simp [BEntry.isDir, hyk, BEntry.name]

/-- the directory can be entered -/
def Enters (o : RsOpts) (q : List Bytes) (e : BEntry) : Prop :=
  ∃ x c, e = .dir x c ∧ x.ino.kind = .dir ∧ Considered o q e ∧ ∀ y, ∃ ad ae, o.over y e = .ok (ad, ae) ∧ (ad = .preserve ∨ ad = .preserveMark ∨ ad = .overwrite ∨ ad = .overwriteMark)

/-- entries that have nothing to do with a path -/
def Aside (p d : List Bytes) (e : BEntry) : Prop := ¬ (d ++ [e.name] <+: p) ∧ ¬ (p <+: d ++ [e.name])

theorem aside_inv (o : RsOpts) (stars : Nat → Obj) (p : List Bytes) (hp : p ≠ []) (s0 : RsSt) : WalkInv o stars (Aside p) (FrameSt (fun q => q = p) s0) := by
  refine frame_inv o stars _ s0 (fun h => hp h.symm) _ (fun d e hc _ => ⟨?_, ?_⟩) (fun d x c hc _ e _ => ⟨fun h => ?_, fun h => ?_⟩)
  · rintro q rfl; exact hc.2
  · rintro ⟨q, rfl, h⟩; exact absurd h hc.1
  · exact hc.1 ((List.prefix_append _ _).trans h)
  · rcases List.prefix_concat_iff.1 h with h1 | h1
    · exact hc.1 (h1 ▸ List.prefix_append _ _)
    · exact hc.2 h1

theorem aside_sibling {d r : List Bytes} {n : Bytes} {e : BEntry} (h : e.name ≠ n) : Aside (d ++ n :: r) d e := by
  refine ⟨fun hc => ?_, fun hc => ?_⟩
  · rw [List.prefix_append_right_inj, List.cons_prefix_cons] at hc; exact h hc.1
  · rw [List.prefix_append_right_inj, List.cons_prefix_cons] at hc; exact h hc.1.symm

theorem childSplit : ∀ {l : List BEntry} {n : Bytes} {e : BEntry}, BEntry.DistinctL l → findChild l n = some e →
    ∃ l1 l2, l = l1 ++ e :: l2 ∧ e.name = n ∧ BEntry.Distinct e ∧ (∀ a ∈ l1, a.name ≠ n) ∧ ∀ a ∈ l2, a.name ≠ n
  | [], n, e, _, h => by simp [findChild] at h
  | a :: l, n, e, hd, h => by
    unfold BEntry.DistinctL at hd
    obtain ⟨h1, h2, h3⟩ := hd
    by_cases ha : a.name = n
    · have : a = e := by simpa [findChild, ha] using h
      subst this
      refine ⟨[], l, rfl, ha, h1, by simp, fun b hb => by rw [← ha]; exact h2 b hb⟩
    · have hf : findChild l n = some e := by
        unfold findChild at h ⊢
        rw [List.find?_cons, decide_eq_false ha] at h
        exact h
      obtain ⟨l1, l2, rfl, g1, g2, g3, g4⟩ := childSplit h3 hf
      refine ⟨a :: l1, l2, rfl, g1, g2, fun b hb => ?_, g4⟩
      rcases List.mem_cons.1 hb with rfl | hb
      · exact ha
      · exact g3 b hb

theorem walk_at : ∀ (rel d0 : List Bytes) (l : List BEntry) (s s' s0 : RsSt), rel ≠ [] → p = d0 ++ rel → s.cdir = d0 → BEntry.DistinctL l → treeAt l rel = some e → e.isDir = false →
    (∀ q f, q ≠ [] → q <+: rel → q ≠ rel → treeAt l q = some f → Enters o (d0 ++ q) f) → FrameSt (fun q => q = p) s0 s → walkL o stars l s = .ok s' → s'.stack.length = s.stack.length →
    ∃ s1 s2 b, FrameSt (fun q => q = p) s0 s1 ∧ s1.cdir ++ [e.name] = p ∧ rsTurn o stars s1 e = .ok (s2, b) ∧ ∀ base, FrameSt (fun q => q = p) base s2 → FrameSt (fun q => q = p) base s'
  | [], _, _, _, _, _, h, _, _, _, _, _, _, _, _, _ => absurd rfl h
  | [n], d0, l, s, s', s0, _, hp, hcd, hdl, he, hnd, hen, hi, hw, hlen => by
    have hpn : p ≠ [] := by rw [hp]; simp
    rw [treeAt_one] at he
    obtain ⟨l1, l2, rfl, hn, -, hl1, hl2⟩ := childSplit hdl he
    rw [walkL_append] at hw
    cases h1 : walkL o stars l1 s with
    | error er => rw [h1] at hw; cases hw
    | ok s1 =>
      rw [h1] at hw
      change walkL o stars (e :: l2) s1 = .ok s' at hw
      rw [walkL_cons, walkE_leaf hnd] at hw
      cases h2 : rsTurn o stars s1 e with
      | error er => rw [h2] at hw; cases hw
      | ok r =>
        obtain ⟨s2, b⟩ := r
        have h2' : walkE o stars e s1 = .ok s2 := by rw [walkE_leaf hnd, h2]; rfl
        rw [h2] at hw
        change walkL o stars l2 s2 = .ok s' at hw
        have a1 := walkL_len l1 s s1 h1
        have a2 := walkE_len e s1 s2 h2'
        have a3 := walkL_len l2 s2 s' hw
        have hc1 : ∀ a ∈ l1, Aside p s.cdir a := fun a ha => by rw [hcd, hp]; exact aside_sibling (hl1 a ha)
        obtain ⟨b1, b2, -, -⟩ := walkL_inv (aside_inv o stars p hpn s0) l1 s s1 h1 (by omega) hc1 hi
        have hcd2 : s2.cdir = d0 := by
          have htd := rsTurn_done h2
          cases htd with
          | passed => rw [b2]; exact hcd
          | failed s9 st h9 => show s9.cdir = d0; rw [(prims_frame h9).1, b2]; exact hcd
          | written s9 st h9 => show s9.cdir = d0; rw [(prims_frame h9).1, b2]; exact hcd
          | entered s9 st x c f he' h9 => rw [he'] at hnd; cases hnd
        refine ⟨s1, s2, b, b1, by rw [b2, hcd, hn, hp], h2, fun base hb => ?_⟩
        exact (walkL_inv (aside_inv o stars p hpn base) l2 s2 s' hw (by omega) (fun a ha => by rw [hcd2, hp]; exact aside_sibling (hl2 a ha)) hb).1
  | n :: m :: r, d0, l, s, s', s0, _, hp, hcd, hdl, he, hnd, hen, hi, hw, hlen => by
    have hpn : p ≠ [] := by rw [hp]; simp
    have hx : ∃ x c, findChild l n = some (.dir x c) ∧ treeAt c (m :: r) = some e := by
      unfold treeAt at he
      unfold findChild
      split at he
      · rename_i x c hf; exact ⟨x, c, hf, he⟩
      · cases he
    obtain ⟨x, c, hf, he'⟩ := hx
    obtain ⟨x', c', heq, hk, hcon, hov⟩ := hen [n] (.dir x c) (by simp) (by simp) (by simp) (by rw [treeAt_one]; exact hf)
    cases heq
    obtain ⟨l1, l2, rfl, hn, hdc, hl1, hl2⟩ := childSplit hdl hf
    have hn' : x.name = n := hn
    rw [walkL_append] at hw
    cases h1 : walkL o stars l1 s with
    | error er => rw [h1] at hw; cases hw
    | ok s1 =>
      rw [h1] at hw
      change walkL o stars (.dir x c :: l2) s1 = .ok s' at hw
      rw [walkL_cons] at hw
      cases h3 : walkE o stars (.dir x c) s1 with
      | error er => rw [h3] at hw; cases hw
      | ok s5 =>
        rw [h3] at hw
        change walkL o stars l2 s5 = .ok s' at hw
        have a1 := walkL_len l1 s s1 h1
        have a2 := walkE_len _ s1 s5 h3
        have a3 := walkL_len l2 s5 s' hw
        have hc1 : ∀ a ∈ l1, Aside p s.cdir a := fun a ha => by rw [hcd, hp]; exact aside_sibling (hl1 a ha)
        obtain ⟨b1, b2, -, -⟩ := walkL_inv (aside_inv o stars p hpn s0) l1 s s1 h1 (by omega) hc1 hi
        rw [walkE_dir] at h3
        cases h2 : rsTurn o stars s1 (.dir x c) with
        | error er => rw [h2] at h3; cases h3
        | ok rr =>
          obtain ⟨s2, b⟩ := rr
          rw [h2] at h3
          simp only [Except.bind] at h3
          have hpre : s1.cdir ++ [x.name] <+: p := by rw [b2, hcd, hn', hp, List.prefix_append_right_inj, List.cons_prefix_cons]; exact ⟨rfl, List.nil_prefix⟩
          have hpne : s1.cdir ++ [x.name] ≠ p := by
            intro hc; have := congrArg List.length hc
            rw [hp, b2, hcd] at this; simp at this
          obtain ⟨y, hy⟩ := ent_isDir (b1.prot.dirs p _ rfl hpre hpne)
          obtain ⟨ad, ae, hov, had⟩ := hov y
          have hwd := write_dir_in stars s1 x y c hk hy (b1.kinds _ _ (by simp) hy) hov had
          have hin : b = true ∧ ∃ s3 f st, Prims o (.dir x c) (s1.cdir ++ [(BEntry.dir x c).name]) false s1 s3 ∧ s2 = { s3.push x f with st := st } := by
            unfold rsTurn at h2
            rw [if_neg (by simp [BEntry.isDet])] at h2
            have hcov : (o.cov (s1.cdir ++ [(BEntry.dir x c).name]) (.dir x c) && (!o.onlyDeleted || (BEntry.dir x c).isDir || (BEntry.dir x c).isDet)) = true := by
              have := hcon.1
              rw [← hn', ← hcd, ← b2] at this
              change o.cov (s1.cdir ++ [(BEntry.dir x c).name]) (.dir x c) = true at this
              rw [this]; simp [BEntry.isDir]
            rw [if_pos hcov] at h2
            cases hr : s1.write o stars (.dir x c) with
            | error er =>
              obtain ⟨er, s9⟩ := er
              rw [hr] at hwd h2
              have : er = .bug := hwd
              subst this
              cases h2
            | ok r9 =>
              obtain ⟨s9, d⟩ := r9
              rw [hr] at hwd h2
              obtain ⟨s3, g1, g2⟩ := hwd
              cases h2
              exact ⟨rfl, s3, _, _, g1, by rw [g2]⟩
          obtain ⟨rfl, s3, f, st, hp3, rfl⟩ := hin
          rw [if_pos rfl] at h3
          cases h4 : walkL o stars c { s3.push x f with st := st } with
          | error er => rw [h4] at h3; cases h3
          | ok s4 =>
            rw [h4] at h3
            have h5 : rsLeave o s4 = .ok s5 := h3
            have fr := prims_frame hp3
            have hi3 : FrameSt (fun q => q = p) s0 { s3.push x f with st := st } := by
              refine b1.done (TurnDone.entered s3 st x c f rfl hp3) (fun q hq hc => ?_) (fun hh => by cases hh)
              rw [hq] at hc
              exact hpne (hpre.eq_of_length (Nat.le_antisymm hpre.length_le hc.length_le))
            have a4 := walkL_len c _ s4 h4
            obtain ⟨y', f', l', g3, g4⟩ := rsLeave_done h5
            have hs5 : s5.stack = l' := by rcases g4 with ⟨-, rfl⟩ | ⟨-, -, rfl⟩ <;> rfl
            have l3 : s3.stack.length = s1.stack.length := by simpa using congrArg List.length fr.2.1
            have hbal : s4.stack.length = ({ s3.push x f with st := st } : RsSt).stack.length := by
              rw [g3] at a4 ⊢
              simp only [RsSt.push, List.length_cons] at a4 ⊢
              rw [hs5] at a2 a3
              omega
            have hcd3 : ({ s3.push x f with st := st } : RsSt).cdir = d0 ++ [n] := by show s3.cdir ++ [x.name] = _; rw [fr.1, b2, hcd, hn']
            have hdlc : BEntry.DistinctL c := by unfold BEntry.Distinct at hdc; exact hdc
            obtain ⟨t1, t2, bb, c1, c2, c3, c4⟩ := walk_at (m :: r) (d0 ++ [n]) c _ s4 s0 (by simp) (by rw [hp]; simp) hcd3 hdlc he' hnd (fun q g hq hqr hqn hg => by
              have := hen (n :: q) g (by simp) (by rw [List.cons_prefix_cons]; exact ⟨rfl, hqr⟩) (by simpa using hqn) (by
                cases q with
                | nil => exact absurd rfl hq
                | cons q1 q2 =>
                  unfold treeAt
                  unfold findChild at hf
                  rw [hf]; exact hg)
              simpa using this) hi3 h4 hbal
            refine ⟨t1, t2, bb, c1, c2, c3, fun base hb => ?_⟩
            have d1 := c4 base hb
            have d2 := (aside_inv o stars p hpn base).leave _ _ _ _ _ d1 g3 h5
            have hcd5 : s5.cdir = d0 := by
              have hst := d1.stk
              have hcd4 : s4.cdir = d0 ++ [n] := by
                obtain ⟨-, g, -, -⟩ := walkL_inv (C := fun _ _ => True) (I := fun _ => True) (o := o) (stars := stars) ⟨fun _ _ _ _ _ _ _ => trivial, fun _ _ _ _ _ _ _ _ => trivial, fun _ _ _ _ _ _ _ => trivial⟩ c _ s4 h4 hbal (fun _ _ => trivial) trivial
                rw [g]; exact hcd3
              have : s5.cdir = s4.cdir.dropLast := by rcases g4 with ⟨-, rfl⟩ | ⟨-, -, rfl⟩ <;> rfl
              rw [this, hcd4, List.dropLast_concat]
            exact (walkL_inv (aside_inv o stars p hpn base) l2 s5 s' hw (by omega) (fun a ha => by rw [hcd5, hp]; exact aside_sibling (hl2 a ha)) d2).1

end Dar
