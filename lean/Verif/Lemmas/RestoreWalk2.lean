import Verif.Lemmas.RestoreWalk
/- The walk and the loop of filtre_restore are the same; what an invariant must satisfy to hold at the end of a restoration. -/
namespace Dar

variable {o : RsOpts} {stars : Nat → Obj} {s s' : RsSt} {e : BEntry} {p : List Bytes}

/-! ### the loop is the walk -/

theorem rskip_leaf {n : Nat} (e : BEntry) (hs : s.skip = n + 1) (he : e.isDir = false) : rsStep o stars s (.entry e) = .ok s := by
  unfold rsStep; rw [if_pos (by omega)]; simp [he]

mutual
theorem rskip_entry (e : BEntry) (n : Nat) (s : RsSt) (rest : List BEv) (hs : s.skip = n + 1) :
    rsLoop o stars s (BEntry.events e ++ rest) = rsLoop o stars s rest := by
  match e with
  | .dir x c =>
    rw [BEntry.events, List.cons_append, rsLoop]
    have h1 : rsStep o stars s (.entry (.dir x c)) = .ok { s with skip := s.skip + 1 } := by
      unfold rsStep; rw [if_pos (by omega)]; rfl
    rw [h1]
    show rsLoop o stars { s with skip := s.skip + 1 } (BEntry.eventsList c ++ [BEv.eod] ++ rest) = _
    rw [List.append_assoc, rskip_list c (n + 1) _ _ (by show s.skip + 1 = _; omega), List.cons_append, rsLoop]
    have h2 : rsStep o stars { s with skip := s.skip + 1 } .eod = .ok s := by
      unfold rsStep; rw [if_pos (by show s.skip + 1 > 0; omega)]
      show Except.ok { s with skip := s.skip + 1 - 1 } = _
      rw [Nat.add_sub_cancel]
    rw [h2]; rfl
  | .node x => rw [BEntry.events, List.cons_append, rsLoop, rskip_leaf _ hs rfl]; rfl
  | .mirage m k => rw [BEntry.events, List.cons_append, rsLoop, rskip_leaf _ hs rfl]; rfl
  | .detruit m k t => rw [BEntry.events, List.cons_append, rsLoop, rskip_leaf _ hs rfl]; rfl
  | .ignored m => rw [BEntry.events, List.cons_append, rsLoop, rskip_leaf _ hs rfl]; rfl
  | .ignoredDir x => rw [BEntry.events, List.cons_append, rsLoop, rskip_leaf _ hs rfl]; rfl
theorem rskip_list (l : List BEntry) (n : Nat) (s : RsSt) (rest : List BEv) (hs : s.skip = n + 1) :
    rsLoop o stars s (BEntry.eventsList l ++ rest) = rsLoop o stars s rest := by
  match l with
  | [] => rfl
  | e :: l => rw [BEntry.eventsList, List.append_assoc, rskip_entry e n s _ hs, rskip_list l n s rest hs]
end

/-- what a turn does: nothing but the counters, elementary changes that failed, or elementary changes with perhaps the entry in a directory -/
inductive TurnDone (o : RsOpts) (e : BEntry) (hard : Bool) (s : RsSt) : RsSt → Bool → Prop
  | passed (st : Stats) (b : Bool) (hb : b = false ∨ e.isDir = false) : TurnDone o e hard s { s with st := st } b
  | failed (s1 : RsSt) (st : Stats) (h : Prims o e (s.cdir ++ [e.name]) hard s s1) : TurnDone o e hard s { s1 with st := st } false
  | written (s1 : RsSt) (st : Stats) (h : Prims o e (s.cdir ++ [e.name]) hard s s1) : TurnDone o e hard s { s1 with st := st } true
  | entered (s1 : RsSt) (st : Stats) (x : Obj) (c : List BEntry) (f : Bool) (he : e = .dir x c) (h : Prims o e (s.cdir ++ [e.name]) hard s s1) :
      TurnDone o e hard s { s1.push x f with st := st } true

theorem rsTurn_done_of {b hard : Bool} (hw : WriteDone o hard s e (s.write o stars e)) (h : rsTurn o stars s e = .ok (s', b)) : TurnDone o e hard s s' b := by
  unfold rsTurn at h
  by_cases hd : (e.isDet && o.notDeleted) = true
  · rw [if_pos hd] at h
    cases h
    exact .passed s.st true (Or.inr (by cases e <;> simp_all [BEntry.isDet, BEntry.isDir]))
  rw [if_neg hd] at h
  by_cases hc : (o.cov (s.cdir ++ [e.name]) e && (!o.onlyDeleted || e.isDir || e.isDet)) = true
  · rw [if_pos hc] at h
    cases hr : s.write o stars e with
    | ok r =>
      obtain ⟨s2, d⟩ := r
      rw [hr] at h hw
      cases h
      obtain ⟨s1, h1, h2⟩ := hw
      rcases h2 with rfl | ⟨x, c, h2, rfl⟩
      · exact .written _ _ h1
      · exact .entered s1 _ x c _ h2 h1
    | error er =>
      obtain ⟨err, s2⟩ := er
      rw [hr] at h hw
      have key : (s', b) = ({ s2 with st := if o.onlyDeleted then s2.st else s2.st.err }, false) := by
        cases err <;> first | (cases h; done) | (exact (Except.ok.inj h).symm)
      cases key
      exact .failed s2 _ hw
  · rw [if_neg hc] at h
    cases h
    exact .passed _ false (Or.inl rfl)

theorem rsTurn_done {b : Bool} (h : rsTurn o stars s e = .ok (s', b)) : TurnDone o e true s s' b := rsTurn_done_of (write_prims stars s e) h

theorem rsTurn_skip {b : Bool} (h : rsTurn o stars s e = .ok (s', b)) : s'.skip = s.skip := by
  cases rsTurn_done h with
  | passed => rfl
  | failed s1 st h1 => exact (prims_frame h1).2.2.2.2
  | written s1 st h1 => exact (prims_frame h1).2.2.2.2
  | entered s1 st x c f he h1 => exact (prims_frame h1).2.2.2.2

theorem rsStep_entry (hs : s.skip = 0) : rsStep o stars s (.entry e) =
    (rsTurn o stars s e).map (fun r => if r.2 then r.1 else { r.1 with skip := if e.isDir then 1 else 0 }) := by
  unfold rsStep rsTurn
  rw [if_neg (by omega)]
  simp only
  by_cases hd : (e.isDet && o.notDeleted) = true
  · rw [if_pos hd, if_pos hd]; rfl
  rw [if_neg hd, if_neg hd]
  by_cases hc : (o.cov (s.cdir ++ [e.name]) e && (!o.onlyDeleted || e.isDir || e.isDet)) = true
  · rw [if_pos hc, if_pos hc]
    cases hr : s.write o stars e with
    | ok r => rfl
    | error er =>
      obtain ⟨err, s2⟩ := er
      cases err <;> rfl
  · rw [if_neg hc, if_neg hc]; rfl

theorem setDate_skip {x : Obj} {t : RsSt} (h : s.setDate o x p = .ok t) : t.skip = s.skip := by
  unfold RsSt.setDate at h
  split at h
  · split at h <;> cases h; rfl
  · cases h; rfl

theorem rsLeave_skip (h : rsLeave o s = .ok s') : s'.skip = s.skip := by
  unfold rsLeave RsSt.writeEod at h
  dsimp only at h
  cases hst : s.stack with
  | nil => rw [hst] at h; cases h
  | cons v l =>
    obtain ⟨x, f⟩ := v
    rw [hst] at h
    dsimp only at h
    cases f with
    | false => cases h; rfl
    | true =>
      simp only [if_true] at h
      cases hd : RsSt.setDate o ({ s with cdir := s.cdir.dropLast, stack := l } : RsSt) x (s.cdir.dropLast ++ [x.name]) with
      | error er => rw [hd] at h; cases h
      | ok t => rw [hd] at h; cases h; have a := setDate_skip hd; exact a

theorem set_skip {s : RsSt} (h : s.skip = 0) : ({ s with skip := 0 } : RsSt) = s := by
  cases s; cases h; rfl

mutual
theorem walkE_skip (e : BEntry) (s s' : RsSt) (h : walkE o stars e s = .ok s') : s'.skip = s.skip := by
  match e with
  | .dir x c =>
    rw [walkE_dir] at h
    cases ht : rsTurn o stars s (.dir x c) with
    | error er => rw [ht] at h; cases h
    | ok r =>
      obtain ⟨s1, b⟩ := r
      rw [ht] at h
      have h1 := rsTurn_skip ht
      simp only [Except.bind] at h
      cases b with
      | false => cases h; exact h1
      | true =>
        rw [if_pos rfl] at h
        cases hw : walkL o stars c s1 with
        | error er => rw [hw] at h; cases h
        | ok s2 =>
          rw [hw] at h
          exact (rsLeave_skip h).trans ((walkL_skip c s1 s2 hw).trans h1)
  | .node x => exact leaf _ rfl h
  | .mirage m k => exact leaf _ rfl h
  | .detruit m k t => exact leaf _ rfl h
  | .ignored m => exact leaf _ rfl h
  | .ignoredDir x => exact leaf _ rfl h
where
  leaf {o : RsOpts} {stars : Nat → Obj} {s s' : RsSt} (e : BEntry) (he : e.isDir = false) (h : walkE o stars e s = .ok s') : s'.skip = s.skip := by
    rw [walkE_leaf he] at h
    cases ht : rsTurn o stars s e with
    | error er => rw [ht] at h; cases h
    | ok r =>
      rw [ht] at h; cases h
      exact rsTurn_skip (b := r.2) ht
theorem walkL_skip (l : List BEntry) (s s' : RsSt) (h : walkL o stars l s = .ok s') : s'.skip = s.skip := by
  match l with
  | [] => rw [walkL_nil] at h; cases h; rfl
  | e :: l =>
    rw [walkL_cons] at h
    cases hw : walkE o stars e s with
    | error er => rw [hw] at h; cases h
    | ok s1 =>
      rw [hw] at h
      exact (walkL_skip l s1 s' h).trans (walkE_skip e s s1 hw)
end

theorem loop_leaf (e : BEntry) (he : e.isDir = false) (hs : s.skip = 0) (rest : List BEv) :
    rsLoop o stars s (.entry e :: rest) = (walkE o stars e s).bind (fun s' => rsLoop o stars s' rest) := by
  rw [rsLoop, rsStep_entry hs, walkE_leaf he, he]
  cases ht : rsTurn o stars s e with
  | error er => rfl
  | ok r =>
    obtain ⟨s1, b⟩ := r
    have h1 := (rsTurn_skip ht).trans hs
    cases b with
    | true => rfl
    | false =>
      show rsLoop o stars { s1 with skip := 0 } rest = _
      rw [set_skip h1]; rfl

mutual
theorem loop_walkE (e : BEntry) (s : RsSt) (rest : List BEv) (hs : s.skip = 0) :
    rsLoop o stars s (BEntry.events e ++ rest) = (walkE o stars e s).bind (fun s' => rsLoop o stars s' rest) := by
  match e with
  | .dir x c =>
    rw [BEntry.events, List.cons_append, rsLoop, rsStep_entry hs, walkE_dir]
    cases ht : rsTurn o stars s (.dir x c) with
    | error er => rfl
    | ok r =>
      obtain ⟨s1, b⟩ := r
      have h1 := (rsTurn_skip ht).trans hs
      simp only [Except.map, Except.bind, bind]
      cases b with
      | false =>
        show rsLoop o stars { s1 with skip := 1 } (BEntry.eventsList c ++ [BEv.eod] ++ rest) = rsLoop o stars s1 rest
        rw [List.append_assoc, rskip_list c 0 _ _ rfl, List.cons_append, rsLoop]
        have h2 : rsStep o stars { s1 with skip := 1 } .eod = .ok s1 := by
          unfold rsStep; rw [if_pos (by show 1 > 0; omega)]
          exact congrArg _ (set_skip h1)
        rw [h2]; rfl
      | true =>
        rw [if_pos rfl, if_pos rfl, List.append_assoc, loop_walkL c s1 _ h1]
        cases hw : walkL o stars c s1 with
        | error er => rfl
        | ok s2 =>
          have h2 := (walkL_skip c s1 s2 hw).trans h1
          show rsLoop o stars s2 (BEv.eod :: ([] ++ rest)) = _
          rw [rsLoop]
          have h3 : rsStep o stars s2 .eod = rsLeave o s2 := by
            unfold rsStep; rw [if_neg (by omega)]; rfl
          rw [h3]
          show (rsLeave o s2).bind _ = (rsLeave o s2).bind _
          rfl
  | .node x => rw [BEntry.events]; exact loop_leaf _ rfl hs rest
  | .mirage m k => rw [BEntry.events]; exact loop_leaf _ rfl hs rest
  | .detruit m k t => rw [BEntry.events]; exact loop_leaf _ rfl hs rest
  | .ignored m => rw [BEntry.events]; exact loop_leaf _ rfl hs rest
  | .ignoredDir x => rw [BEntry.events]; exact loop_leaf _ rfl hs rest
theorem loop_walkL (l : List BEntry) (s : RsSt) (rest : List BEv) (hs : s.skip = 0) :
    rsLoop o stars s (BEntry.eventsList l ++ rest) = (walkL o stars l s).bind (fun s' => rsLoop o stars s' rest) := by
  match l with
  | [] => rw [walkL_nil]; rfl
  | e :: l =>
    rw [BEntry.eventsList, List.append_assoc, loop_walkE e s _ hs, walkL_cons]
    cases hw : walkE o stars e s with
    | error er => rfl
    | ok s1 => exact loop_walkL l s1 rest ((walkE_skip e s s1 hw).trans hs)
end

/-- the restoration is a walk over the tree -/
theorem restore_walk (o : RsOpts) (cat : BCat) (fs : FS) :
    restore o cat fs = (walkL o cat.stars cat.root ⟨fs, [], [], [], Stats.zero, 0⟩).map (fun s => (s.fs, s.st)) := by
  unfold restore
  have := loop_walkL (o := o) (stars := cat.stars) cat.root ⟨fs, [], [], [], Stats.zero, 0⟩ [] rfl
  rw [List.append_nil] at this
  rw [this]
  cases walkL o cat.stars cat.root ⟨fs, [], [], [], Stats.zero, 0⟩ <;> rfl

/-! ### directories are left in the reverse order -/

/-- what the end of a directory does -/
theorem rsLeave_done (h : rsLeave o s = .ok s') : ∃ x f l, s.stack = (x, f) :: l ∧
    (f = false ∧ s' = { s with cdir := s.cdir.dropLast, stack := l } ∨
     f = true ∧ (s.fs.ent (s.cdir.dropLast ++ [x.name]) ≠ none ∨ o.what = .inodeType) ∧
       s' = { s with cdir := s.cdir.dropLast, stack := l, fs := s.fs.upd (s.cdir.dropLast ++ [x.name]) (fun y => o.ownerPerm x (o.date x y)) }) := by
  unfold rsLeave RsSt.writeEod at h
  dsimp only at h
  cases hst : s.stack with
  | nil => rw [hst] at h; cases h
  | cons v l =>
    obtain ⟨x, f⟩ := v
    rw [hst] at h
    dsimp only at h
    refine ⟨x, f, l, rfl, ?_⟩
    cases f with
    | false => cases h; exact Or.inl ⟨rfl, rfl⟩
    | true =>
      right
      simp only [if_true, RsSt.setDate] at h
      cases hv : s.fs.ent (s.cdir.dropLast ++ [x.name]) with
      | none =>
        rw [hv] at h
        by_cases hwt : o.what = .inodeType
        · simp only [hwt, if_true] at h
          refine ⟨rfl, Or.inr hwt, ?_⟩
          have h2 := Except.ok.inj h
          rw [← h2]
          unfold RsSt.setOwner FS.upd
          simp only [hv]
        · simp only [hwt, if_false] at h; cases h
      | some v =>
        rw [hv] at h
        refine ⟨rfl, by simp, ?_⟩
        have h2 := Except.ok.inj h
        rw [← h2]
        unfold RsSt.setOwner
        dsimp only
        have : (s.fs.upd (s.cdir.dropLast ++ [x.name]) (o.date x)).upd (s.cdir.dropLast ++ [x.name]) (o.ownerPerm x) =
            s.fs.upd (s.cdir.dropLast ++ [x.name]) (fun y => o.ownerPerm x (o.date x y)) := by
          unfold FS.upd
          rw [hv]
          cases v with
          | dir z =>
            simp only [if_true]
            congr 1; funext q; by_cases hq : q = s.cdir.dropLast ++ [x.name] <;> simp [hq]
          | ino i =>
            simp only [hv, if_true]
            congr 1; funext q; by_cases hq : q = i <;> simp [hq]
        rw [this]

mutual
theorem walkE_len (e : BEntry) (s s' : RsSt) (h : walkE o stars e s = .ok s') : s'.stack.length ≤ s.stack.length := by
  match e with
  | .dir x c =>
    rw [walkE_dir] at h
    cases ht : rsTurn o stars s (.dir x c) with
    | error er => rw [ht] at h; cases h
    | ok r =>
      obtain ⟨s1, b⟩ := r
      rw [ht] at h
      simp only [Except.bind] at h
      have hlen : s1.stack.length ≤ s.stack.length + if b then 1 else 0 := turn_len ht
      cases b with
      | false => cases h; simpa using hlen
      | true =>
        rw [if_pos rfl] at h hlen
        cases hw : walkL o stars c s1 with
        | error er => rw [hw] at h; cases h
        | ok s2 =>
          rw [hw] at h
          have h2 := walkL_len c s1 s2 hw
          obtain ⟨y, f, l, h3, h4⟩ := rsLeave_done h
          rw [h3, List.length_cons] at h2
          rcases h4 with ⟨-, rfl⟩ | ⟨-, -, rfl⟩ <;> (dsimp only; omega)
  | .node x => exact leaf _ rfl h
  | .mirage m k => exact leaf _ rfl h
  | .detruit m k t => exact leaf _ rfl h
  | .ignored m => exact leaf _ rfl h
  | .ignoredDir x => exact leaf _ rfl h
where
  turn_len {o : RsOpts} {stars : Nat → Obj} {s s1 : RsSt} {e : BEntry} {b : Bool} (ht : rsTurn o stars s e = .ok (s1, b)) : s1.stack.length ≤ s.stack.length + if b then 1 else 0 := by
    have len : ∀ {s1}, Prims o e (s.cdir ++ [e.name]) true s s1 → s1.stack.length = s.stack.length := fun h => by
      have := congrArg List.length (prims_frame h).2.1
      simpa using this
    cases rsTurn_done ht with
    | passed => dsimp only; omega
    | failed s1 st h1 => have := len h1; dsimp only; omega
    | written s1 st h1 => have := len h1; dsimp only; omega
    | entered s1 st x c f he h1 => have := len h1; simp only [RsSt.push, List.length_cons, if_true]; omega
  leaf {o : RsOpts} {stars : Nat → Obj} {s s' : RsSt} (e : BEntry) (he : e.isDir = false) (h : walkE o stars e s = .ok s') : s'.stack.length ≤ s.stack.length := by
    rw [walkE_leaf he] at h
    cases ht : rsTurn o stars s e with
    | error er => rw [ht] at h; cases h
    | ok r =>
      rw [ht] at h; cases h
      have len : ∀ {s1}, Prims o e (s.cdir ++ [e.name]) true s s1 → s1.stack.length = s.stack.length := fun h => by
        have := congrArg List.length (prims_frame h).2.1
        simpa using this
      obtain ⟨s1, b⟩ := r
      cases rsTurn_done ht with
      | passed => exact Nat.le_refl _
      | failed s1 st h1 => exact (len h1).le
      | written s1 st h1 => exact (len h1).le
      | entered s1 st x c f he' h1 => rw [he'] at he; cases he
theorem walkL_len (l : List BEntry) (s s' : RsSt) (h : walkL o stars l s = .ok s') : s'.stack.length ≤ s.stack.length := by
  match l with
  | [] => rw [walkL_nil] at h; cases h; exact Nat.le_refl _
  | e :: l =>
    rw [walkL_cons] at h
    cases hw : walkE o stars e s with
    | error er => rw [hw] at h; cases h
    | ok s1 =>
      rw [hw] at h
      exact (walkL_len l s1 s' h).trans (walkE_len e s s1 hw)
end

/-- What an invariant of a restoration must satisfy.  `C d e`: the entry `e` is looked at in the directory `d`. -/
structure WalkInv (o : RsOpts) (stars : Nat → Obj) (C : List Bytes → BEntry → Prop) (I : RsSt → Prop) : Prop where
  turn : ∀ s e s' b, I s → C s.cdir e → rsTurn o stars s e = .ok (s', b) → I s'
  leave : ∀ s s' x f l, I s → s.stack = (x, f) :: l → rsLeave o s = .ok s' → I s'
  below : ∀ d x c, C d (.dir x c) → o.cov (d ++ [x.name]) (.dir x c) = true → ∀ e ∈ c, C (d ++ [x.name]) e

theorem turn_cov {x : Obj} {c : List BEntry} (h : rsTurn o stars s (.dir x c) = .ok (s', true)) : o.cov (s.cdir ++ [x.name]) (.dir x c) = true := by
  unfold rsTurn at h
  rw [if_neg (by simp [BEntry.isDet])] at h
  by_cases hc : (o.cov (s.cdir ++ [(BEntry.dir x c).name]) (.dir x c) && (!o.onlyDeleted || (BEntry.dir x c).isDir || (BEntry.dir x c).isDet)) = true
  · simp only [Bool.and_eq_true] at hc; exact hc.1
  · rw [if_neg hc] at h; cases h

mutual
theorem walkE_inv {C : List Bytes → BEntry → Prop} {I : RsSt → Prop} (H : WalkInv o stars C I) (e : BEntry) (s s' : RsSt) (h : walkE o stars e s = .ok s')
    (hl : s'.stack.length = s.stack.length) (hc : C s.cdir e) (hi : I s) : I s' ∧ s'.cdir = s.cdir ∧ s'.stack.map (·.1) = s.stack.map (·.1) ∧ s'.stack.tail = s.stack.tail := by
  match e with
  | .dir x c =>
    rw [walkE_dir] at h
    cases ht : rsTurn o stars s (.dir x c) with
    | error er => rw [ht] at h; cases h
    | ok r =>
      obtain ⟨s1, b⟩ := r
      rw [ht] at h
      simp only [Except.bind] at h
      have h1 := H.turn _ _ _ _ hi hc ht
      have hd := rsTurn_done ht
      cases b with
      | false =>
        cases h
        refine ⟨h1, ?_⟩
        cases hd with
        | passed => exact ⟨rfl, rfl, rfl⟩
        | failed s9 st h9 => have := prims_frame h9; exact ⟨this.1, this.2.1, this.2.2.1⟩
      | true =>
        have hcv := turn_cov ht
        rw [if_pos rfl] at h
        cases hw : walkL o stars c s1 with
        | error er => rw [hw] at h; cases h
        | ok s2 =>
          rw [hw] at h
          have h2 := walkL_len c s1 s2 hw
          have h' : rsLeave o s2 = .ok s' := h
          obtain ⟨y, f, l, h3, h4⟩ := rsLeave_done h'
          have hs' : s'.cdir = s2.cdir.dropLast ∧ s'.stack = l := by rcases h4 with ⟨-, rfl⟩ | ⟨-, -, rfl⟩ <;> exact ⟨rfl, rfl⟩
          rw [h3, List.length_cons] at h2
          rw [hs'.2] at hl
          have len : ∀ {s1}, Prims o (.dir x c) (s.cdir ++ [(BEntry.dir x c).name]) true s s1 → s1.stack.length = s.stack.length := fun h => by
            have := congrArg List.length (prims_frame h).2.1
            simpa using this
          cases hd with
          | passed st _ hb => rcases hb with hb | hb <;> cases hb
          | written s3 st h5 => have := len h5; dsimp only at h2; omega
          | entered s3 st x' c' g he h5 =>
            cases he
            have h6 := len h5
            have h7 := prims_frame h5
            have hcd : ({ s3.push x g with st := st } : RsSt).cdir = s.cdir ++ [x.name] := by show s3.cdir ++ [x.name] = _; rw [h7.1]
            obtain ⟨g1, g2, g3, g4⟩ := walkL_inv H c _ s2 hw (by rw [h3]; simp only [RsSt.push, List.length_cons]; omega)
              (fun e he => by rw [hcd]; exact H.below _ x c hc hcv e he) h1
            refine ⟨H.leave _ _ _ _ _ g1 h3 h', ?_, ?_, ?_⟩
            · rw [hs'.1, g2, hcd, List.dropLast_concat]
            · rw [hs'.2]
              have : l = s3.stack := by rw [h3] at g4; exact g4
              rw [this]; exact h7.2.1
            · rw [hs'.2]
              have : l = s3.stack := by rw [h3] at g4; exact g4
              rw [this]; exact h7.2.2.1
  | .node x => exact leaf H _ rfl h hc hi
  | .mirage m k => exact leaf H _ rfl h hc hi
  | .detruit m k t => exact leaf H _ rfl h hc hi
  | .ignored m => exact leaf H _ rfl h hc hi
  | .ignoredDir x => exact leaf H _ rfl h hc hi
where
  leaf {o : RsOpts} {stars : Nat → Obj} {s s' : RsSt} {C : List Bytes → BEntry → Prop} {I : RsSt → Prop} (H : WalkInv o stars C I) (e : BEntry) (he : e.isDir = false) (h : walkE o stars e s = .ok s') (hc : C s.cdir e) (hi : I s) : I s' ∧ s'.cdir = s.cdir ∧ s'.stack.map (·.1) = s.stack.map (·.1) ∧ s'.stack.tail = s.stack.tail := by
    rw [walkE_leaf he] at h
    cases ht : rsTurn o stars s e with
    | error er => rw [ht] at h; cases h
    | ok r =>
      rw [ht] at h; cases h
      obtain ⟨s1, b⟩ := r
      refine ⟨H.turn _ _ _ _ hi hc ht, ?_⟩
      cases rsTurn_done ht with
      | passed => exact ⟨rfl, rfl, rfl⟩
      | failed s1 st h1 => have := prims_frame h1; exact ⟨this.1, this.2.1, this.2.2.1⟩
      | written s1 st h1 => have := prims_frame h1; exact ⟨this.1, this.2.1, this.2.2.1⟩
      | entered s1 st x c f he' h1 => rw [he'] at he; cases he
theorem walkL_inv {C : List Bytes → BEntry → Prop} {I : RsSt → Prop} (H : WalkInv o stars C I) (l : List BEntry) (s s' : RsSt) (h : walkL o stars l s = .ok s')
    (hl : s'.stack.length = s.stack.length) (hc : ∀ e ∈ l, C s.cdir e) (hi : I s) : I s' ∧ s'.cdir = s.cdir ∧ s'.stack.map (·.1) = s.stack.map (·.1) ∧ s'.stack.tail = s.stack.tail := by
  match l with
  | [] => rw [walkL_nil] at h; cases h; exact ⟨hi, rfl, rfl, rfl⟩
  | e :: l =>
    rw [walkL_cons] at h
    cases hw : walkE o stars e s with
    | error er => rw [hw] at h; cases h
    | ok s1 =>
      rw [hw] at h
      have h' : walkL o stars l s1 = .ok s' := h
      have b1 := walkE_len e s s1 hw
      have b2 := walkL_len l s1 s' h'
      obtain ⟨a1, a2, a3, a4⟩ := walkE_inv H e s s1 hw (by omega) (hc e (by simp)) hi
      obtain ⟨c1, c2, c3, c4⟩ := walkL_inv H l s1 s' h' (by omega) (fun a ha => by rw [a2]; exact hc a (by simp [ha])) a1
      exact ⟨c1, c2.trans a2, c3.trans a3, c4.trans a4⟩
end

end Dar
