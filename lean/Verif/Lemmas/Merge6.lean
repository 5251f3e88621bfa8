import Verif.Lemmas.Merge5
/- A conflict: the states it may lead to. -/
namespace Dar

/-- what is required when one of the entries is a hard link -/
def LinkCond (o : MgOpts) (T : Nat → Obj) (P : List Bytes) (a b : BEntry) : Prop :=
  (a.label ≠ none ∨ b.label ≠ none) → (∀ d e, Decided o T T P a b d e → Whole d e) ∧ (∀ k, b.label = some k → (T k).ino.status ≠ .delta)

theorem left_head (o : MgOpts) (al : BEntry) : (leftBehind o al).head? = emptyMark o al := by
  cases al <;> simp [leftBehind, emptyMark]
  split <;> simp

/-- what a conflict between `al`, in place, and `E` leads to -/
inductive Outcome (o : MgOpts) (T : Nat → Obj) (P : List Bytes) (n : Bytes) (at_ : Cursor) (dates : List DateT) (al E : BEntry) (s : MgSt) : Prop
  | keep (d : OverData) (a : OverEa) (x : Option Obj) (hd : Decided o T T P al E d a) (hk : KeepsOld d) (hh : HeadOf o T T d a al E (al.update x))
      (hb : ¬ (al.isDir = true ∧ E.isDir = true))
      (hat : s.at_ = ⟨at_.frames, beforeChild at_.cur n ++ al.update x :: afterChild at_.cur n⟩) (hs : s.skip = if E.isDir then 1 else 0)
      (hdt : s.dates = dates) (hi : MInv T none { s with skip := 0 })
  | both (d : OverData) (a : OverEa) (z x0 y : Obj) (ch c : List BEntry) (hal : al = .dir x0 ch) (hE : E = .dir y c) (hd : Decided o T T P al E d a) (hk : KeepsOld d ∨ TakesNew d)
      (hz : z.name = n) (hh : ∀ c', HeadOf o T T d a al E (.dir z c'))
      (hat : s.at_ = ⟨(beforeChild at_.cur n, z, afterChild at_.cur n) :: at_.frames, ch⟩)
      (hdt : s.dates = y.ino.mtime :: dates) (hi : MInv T none s)
  | take (d : OverData) (a : OverEa) (x : Option Obj) (hd : Decided o T T P al E d a) (hk : TakesNew d) (hh : HeadOf o T T d a al E (E.update x))
      (hb : E.isDir = false)
      (hat : s.at_ = ⟨at_.frames, without at_.cur n ++ [E.update x]⟩) (hdt : s.dates = dates) (hi : MInv T none s)
  | takeDir (d : OverData) (a : OverEa) (z y : Obj) (c : List BEntry) (hal : al.isDir = false) (hE : E = .dir y c) (hd : Decided o T T P al E d a) (hk : TakesNew d)
      (hz : z.name = n) (hh : ∀ c', HeadOf o T T d a al E (.dir z c'))
      (hat : s.at_ = ⟨(without at_.cur n, z, []) :: at_.frames, []⟩) (hdt : s.dates = y.ino.mtime :: dates) (hi : MInv T none s)
  | drop (a : OverEa) (hd : Decided o T T P al E .remove a)
      (hat : s.at_ = ⟨at_.frames, without at_.cur n ++ leftBehind o al⟩) (hs : s.skip = if E.isDir then 1 else 0)
      (hdt : s.dates = dates) (hi : MInv T none { s with skip := 0 })

theorem bind_ok {α β : Type} {r : Res α} {f : α → Res β} {b : β} (h : (r >>= f) = .ok b) : ∃ a, r = .ok a ∧ f a = .ok b := by
  cases r with
  | error e => cases h
  | ok a => exact ⟨a, rfl, h⟩

theorem skipIf_cleanNew {s s' : MgSt} {e d : BEntry} {T : Nat → Obj} (hi : MInv T d.label s) (h : (s.skipIf e).cleanNew d = .ok s') :
    s'.at_ = s.at_ ∧ s'.skip = (if e.isDir then 1 else 0) ∧ s'.dates = s.dates ∧ MInv T none { s' with skip := 0 } := by
  cases d with
  | mirage n k =>
    unfold MgSt.cleanNew at h
    obtain ⟨kn, h1, h2⟩ := bind_ok h
    cases h2
    exact ⟨rfl, rfl, rfl, ⟨rfl, (cleanKnown_inv hi h1).nodup, (cleanKnown_inv hi h1).known, (cleanKnown_inv hi h1).right⟩⟩
  | _ => cases h; exact ⟨rfl, rfl, rfl, ⟨rfl, hi.nodup, hi.known, hi.right⟩⟩

section
variable {o : MgOpts} {T : Nat → Obj} {P : List Bytes} {n : Bytes} {s s' : MgSt} {al E e : BEntry}

/-- the three entries are seen in the same way -/
structure SameKind (e E : BEntry) : Prop where
  dir : e.isDir = E.isDir
  time : e.isDir = true → e.mtime = E.mtime

theorem conflict_keep {d : OverData} {a : OverEa} (hi : MInv T E.label s) (hf : findChild s.at_.cur n = some al) (hig : al.isIgnoredDir = false)
    (hek : SameKind e E) (hal : al.obj s.stars = al.obj T) (hE : E.obj s.stars = E.obj T)
    (hl : LinkCond o T P al E) (hk : KeepsOld d)
    (hdec : Decided o T T P al E d (resolveEa o P .preserve a (keepMark d (al.obj T)) (E.obj T)))
    (h : mergeKeep o s P al e E.emptied d a = .ok s') : Outcome o T P n s.at_ s.dates al E s' := by
  unfold mergeKeep at h
  rw [emptied_obj, hal, hE] at h
  dsimp only at h
  generalize resolveEa o P .preserve a (keepMark d (al.obj T)) (E.obj T) = a' at h hdec
  obtain ⟨x, h1, h2⟩ := bind_ok h
  have hh := keep_head hk hig h1
  have hlab : ∀ k, al.label = some k → x = some { T k with name := al.name } := fun k hk2 =>
    keep_link ((hl (Or.inl (by rw [hk2]; simp))).1 d a' hdec) hk hk2 h1
  obtain ⟨w1, w2, w3⟩ := writeBack_inv (x := x) hi hf hlab
  have hn := findChild_name hf
  have other : ¬ (al.isDir = true ∧ E.isDir = true) → (((s.writeBack al x).skipIf e).cleanNew E.emptied = .ok s') → Outcome o T P n s.at_ s.dates al E s' := by
    intro hb hc
    obtain ⟨c1, c2, c3, c4⟩ := skipIf_cleanNew (by rw [emptied_label]; exact w1) hc
    exact .keep d a' x hdec hk hh hb (c1.trans w2) (c2.trans (by rw [hek.dir])) (c3.trans w3) c4
  cases al with
  | dir x0 ch =>
    cases he : e.isDir with
    | false =>
      apply other (by rw [← hek.dir, he]; simp)
      cases e <;> first | exact h2 | (cases he)
    | true =>
      have hEd : E.isDir = true := by rw [← hek.dir]; exact he
      cases hE2 : E <;> rw [hE2] at hEd <;> first | (cases hEd; done) | skip
      rename_i y c
      cases e <;> first | (cases he; done) | skip
      rename_i ex ec
      have hm := hek.time he
      rw [hE2] at hm
      change ex.ino.mtime = y.ino.mtime at hm
      have h3 : s' = (s.writeBack (.dir x0 ch) x).into (x.getD x0) ch y.ino.mtime := by
        rw [← hm]
        cases h2; rfl
      have hz : ∃ z, x.getD x0 = z ∧ BEntry.update (.dir x0 ch) x = .dir z ch ∧ z.name = n := by
        refine ⟨_, rfl, ?_, ?_⟩
        · cases x <;> rfl
        · have := keep_name hk hig hh
          rw [hn] at this
          cases x <;> exact this
      obtain ⟨z, hz1, hz2, hz3⟩ := hz
      rw [hz1] at h3
      rw [hz2] at w2 hh
      have hbef : ∀ a ∈ beforeChild s.at_.cur n, a.name ≠ n := by
        intro a ha
        unfold beforeChild at ha
        have := (List.all_eq_true.1 (List.all_takeWhile (p := fun e : BEntry => decide (e.name ≠ n)) (l := s.at_.cur))) a ha
        simpa using this
      have hat : s'.at_ = ⟨(beforeChild s.at_.cur n, z, afterChild s.at_.cur n) :: s.at_.frames, ch⟩ := by
        rw [h3]
        show (s.writeBack (.dir x0 ch) x).at_.enter z ch = _
        rw [w2]
        unfold Cursor.enter
        dsimp only
        rw [hz3, before_of (e := .dir z ch) hbef hz3, after_of (e := .dir z ch) hbef hz3]
      rw [hE2] at hdec hh hi w1
      refine .both d a' z x0 y ch c rfl rfl hdec (Or.inl hk) hz3 (fun c' => ?_) hat (by rw [h3]; show _ :: (s.writeBack (.dir x0 ch) x).dates = _; rw [w3]) ?_
      · unfold HeadOf at hh ⊢
        rw [if_neg (keeps_ne hk)] at hh ⊢
        obtain ⟨z', c0, q1, q2⟩ := hh
        cases q1
        exact ⟨z, c', rfl, q2⟩
      · refine w1.links_congr (by rw [h3]; exact w1.skip) (by rw [h3]; rfl) (fun j _ => by rw [h3]; rfl) (fun j => ?_)
        rw [hat, w2, up_links]
  | _ => exact other (by simp [BEntry.isDir]) h2

theorem conflict_take {d : OverData} {a : OverEa} (hi : MInv T E.label s) (hd : BEntry.DistinctL s.at_.cur) (hf : findChild s.at_.cur n = some al)
    (hEn : E.name = n) (hEig : E.isIgnoredDir = false)
    (hek : SameKind e E) (hal : al.obj s.stars = al.obj T) (hE : E.obj s.stars = E.obj T) (hx : ∀ j, E.label = some j → BEntry.links j al = 0)
    (hl : LinkCond o T P al E) (hk : TakesNew d)
    (hdec : Decided o T T P al E d (resolveEa o P .overwrite a (al.obj T) (takeData o d (al.obj T) (E.obj T))))
    (h : mergeTake o s P al e E.emptied d a = .ok s') : Outcome o T P n s.at_ s.dates al E s' := by
  unfold mergeTake at h
  rw [emptied_obj, hal, hE] at h
  dsimp only at h
  generalize resolveEa o P .overwrite a (al.obj T) (takeData o d (al.obj T) (E.obj T)) = a' at h hdec
  obtain ⟨x, h1, h2⟩ := bind_ok h
  have hh := take_head hk hEig h1
  have hname := (take_name hk hEig hh).trans hEn
  have hlab : ∀ k, E.emptied.label = some k → x = some { T k with name := E.emptied.name } := by
    rw [emptied_name]
    intro k hk2
    rw [emptied_label] at hk2
    have := hl (Or.inr (by rw [hk2]; simp))
    exact take_link (this.1 d a' hdec) hk hk2 (this.2 k hk2) h1
  obtain ⟨s1, n1, n2, n3, n4⟩ := setNew_inv (x := x) (s := s) (by rw [emptied_label]; exact hi) hlab
  rw [n1] at h2
  dsimp only at h2
  rw [emptied_label] at n4
  have hf1 : findChild s1.at_.cur n = some al := by rw [n2]; exact hf
  have hd1 : BEntry.DistinctL s1.at_.cur := by rw [n2]; exact hd
  cases hEd : E.isDir with
  | false =>
    have hem : E.emptied = E := by cases E <;> first | rfl | (cases hEd)
    rw [hem] at h2
    have hupd : (E.update x).isDir = false := by cases E <;> first | (cases hEd; done) | (cases x <;> rfl)
    have h3 : (s1.removeOld o al >>= fun s => .ok (s.putNew (E.update x) e.mtime)) = .ok s' := by
      cases al <;> first | exact h2 | skip
      cases E <;> first | (cases hEd; done) | (cases x <;> exact h2)
    obtain ⟨s2, r1, r2⟩ := bind_ok h3
    obtain ⟨kn, r3, r4⟩ := removeOld_inv n4 hd1 hf1 hx r1
    have hat : s'.at_ = ⟨s.at_.frames, without s.at_.cur n ++ [E.update x]⟩ := by
      cases r2
      show s2.at_.put (E.update x) = _
      rw [r4, n2]
      exact put_left_leaf hd hf hname hupd
    refine .take d a' x hdec hk hh hEd hat ?_ ?_
    · cases r2
      show (if (E.update x).isDir then _ else s2.dates) = _
      rw [hupd, r4]
      exact n3
    · have hk2 : s'.known = s2.known := by cases r2; rfl
      have hs2 : s'.stars = s2.stars := by cases r2; rfl
      have hsk : s'.skip = s2.skip := by cases r2; rfl
      refine ⟨hsk.trans r3.skip, hk2 ▸ r3.nodup, fun j => ?_, fun j hj => by rw [hs2]; exact r3.right j (hk2 ▸ hj)⟩
      rw [hk2, r3.known j, hat, r4, n2, cursor_links, cursor_links, left_links, linksL_append, linksL_cons, update_links]
      have hlj : BEntry.links j E = if E.label = some j then 1 else 0 := by
        cases E <;> simp [BEntry.links, BEntry.label, BEntry.isDir] at *
      rw [hlj]
      simp only [BEntry.linksL, Nat.add_zero]
      by_cases hc : E.label = some j
      · simp [hc]
      · simp only [hc, or_false, if_false, Nat.add_zero, reduceCtorEq]
  | true =>
    cases hE2 : E <;> rw [hE2] at hEd <;> first | (cases hEd; done) | skip
    rename_i y c
    have hxs : ∃ z, x = some z := by
      rw [hE2] at hh
      unfold HeadOf at hh
      rw [if_pos (show d = .overwrite ∨ d = .overwriteMark from hk)] at hh
      cases x with
      | some z => exact ⟨z, rfl⟩
      | none =>
        exfalso
        rw [hE2] at h1
        revert h1
        show takeAttr o a' (al.obj T) (takeData o d (al.obj T) (some y)) = .ok none → False
        generalize al.obj T = v
        cases v with
        | none =>
          intro h1
          obtain ⟨w, hw, _⟩ := take_lone hk h1
          cases hw
        | some v =>
          intro h1
          obtain ⟨w, hw, _⟩ := take_both hk h1
          cases hw
    obtain ⟨z, rfl⟩ := hxs
    rw [hE2] at h2 hname hh hdec
    change z.name = n at hname
    have hhc : ∀ c', HeadOf o T T d a' al (.dir y c) (.dir z c') := by
      intro c'
      unfold HeadOf at hh ⊢
      rw [if_pos (show d = .overwrite ∨ d = .overwriteMark from hk)] at hh ⊢
      obtain ⟨z', c0, q1, q2⟩ := hh
      cases q1
      exact ⟨z, c', rfl, q2⟩
    have hed : e.isDir = true := by rw [hek.dir, hE2]; rfl
    have hm : e.mtime = y.ino.mtime := by rw [hek.time hed, hE2]; rfl
    rw [hE2] at n4
    have hnl : MInv T none s1 := n4
    cases hald : al.isDir with
    | true =>
      cases al <;> first | (cases hald; done) | skip
      rename_i x0 ch
      have h3 : s' = s1.into z ch y.ino.mtime := by rw [← hm]; cases h2; rfl
      have hat : s'.at_ = ⟨(beforeChild s.at_.cur n, z, afterChild s.at_.cur n) :: s.at_.frames, ch⟩ := by
        rw [h3]
        show s1.at_.enter z ch = _
        rw [n2]
        unfold Cursor.enter
        rw [hname]
      refine .both d a' z x0 y ch c rfl rfl hdec (Or.inr hk) hname hhc hat (by rw [h3]; show _ :: s1.dates = _; rw [n3]) ?_
      refine hnl.links_congr (by rw [h3]; exact hnl.skip) (by rw [h3]; rfl) (fun j _ => by rw [h3]; rfl) (fun j => ?_)
      rw [hat, n2]
      exact enter_links hf j
    | false =>
      have h3 : (s1.removeOld o al >>= fun s => .ok (s.putNew (.dir z []) e.mtime)) = .ok s' := by
        cases al <;> first | exact h2 | (cases hald)
      obtain ⟨s2, r1, r2⟩ := bind_ok h3
      obtain ⟨kn, r3, r4⟩ := removeOld_inv hnl hd1 hf1 (fun j hj => by cases hj) r1
      have hat : s'.at_ = ⟨(without s.at_.cur n, z, []) :: s.at_.frames, []⟩ := by
        cases r2
        show s2.at_.put (.dir z []) = _
        rw [r4, n2]
        exact put_left_dir hd hf hname
      refine .takeDir d a' z y c hald rfl hdec hk hname hhc hat ?_ ?_
      · cases r2
        show e.mtime :: s2.dates = _
        rw [hm, r4]
        show _ :: s1.dates = _
        rw [n3]
      · have hk2 : s'.known = s2.known := by cases r2; rfl
        have hs2 : s'.stars = s2.stars := by cases r2; rfl
        have hsk : s'.skip = s2.skip := by cases r2; rfl
        refine ⟨hsk.trans r3.skip, hk2 ▸ r3.nodup, fun j => ?_, fun j hj => by rw [hs2]; exact r3.right j (hk2 ▸ hj)⟩
        rw [hk2, r3.known j, hat, r4, n2, cursor_links, cursor_links, left_links]
        simp only [BEntry.linksL, Nat.add_zero, List.map_cons, List.sum_cons]
        rw [Nat.add_comm]

theorem conflict_drop {a : OverEa} (hi : MInv T E.label s) (hd : BEntry.DistinctL s.at_.cur) (hf : findChild s.at_.cur n = some al)
    (hek : SameKind e E) (hdec : Decided o T T P al E .remove a)
    (h : mergeDrop o s al e E.emptied = .ok s') : Outcome o T P n s.at_ s.dates al E s' := by
  unfold mergeDrop at h
  obtain ⟨s1, h1, h2⟩ := bind_ok h
  obtain ⟨kn, h3, h4⟩ := cleanNew_inv (by rw [emptied_label]; exact hi) h1
  -- the directories to leave do not matter to the removal
  have key : ∃ s2, s1.removeOld o al = .ok s2 ∧ s' = { s2 with skip := if e.isDir then 1 else 0 } := by
    cases al with
    | mirage m k =>
      unfold MgSt.removeOld at h2 ⊢
      obtain ⟨kn, k1, k2⟩ := bind_ok h2
      change cleanKnown s1.known k (s1.at_.links k) = .ok kn at k1
      dsimp only
      rw [k1]
      cases k2
      exact ⟨_, rfl, rfl⟩
    | dir y c =>
      unfold MgSt.removeOld at h2 ⊢
      obtain ⟨kn, k1, k2⟩ := bind_ok h2
      change cleanTree s1.at_ c s1.known _ = .ok kn at k1
      dsimp only
      rw [k1]
      cases k2
      exact ⟨_, rfl, rfl⟩
    | _ => cases h2; exact ⟨_, rfl, rfl⟩
  obtain ⟨s2, k1, k2⟩ := key
  have ha1 : s1.at_ = s.at_ := by rw [h3]
  obtain ⟨kn2, r3, r4⟩ := removeOld_inv h4 (by rw [ha1]; exact hd) (by rw [ha1]; exact hf) (fun j hj => by cases hj) k1
  refine .drop a hdec (by rw [k2, r4, ha1]) (by rw [k2, hek.dir]) (by rw [k2, r4, h3]) ?_
  rw [k2]
  exact ⟨rfl, r3.nodup, r3.known, r3.right⟩

theorem conflict_outcome (hw : o.warn = true → o.acceptEa P = true) (hP : P = s.at_.path ++ [e.name])
    (hi : MInv T E.label s) (hd : BEntry.DistinctL s.at_.cur) (hf : findChild s.at_.cur n = some al) (hig : al.isIgnoredDir = false)
    (hEn : E.name = n) (hEig : E.isIgnoredDir = false) (hek : SameKind e E) (hx : ∀ j, E.label = some j → BEntry.links j al = 0)
    (hl : LinkCond o T P al E) (h : mergeConflict o s al e E.emptied = .ok s') : Outcome o T P n s.at_ s.dates al E s' := by
  have ral : ∀ k, al.label = some k → s.stars k = T k := by
    intro k hk
    apply hi.right
    rw [hi.known]
    left
    have h1 := links_without hf k
    have h2 : BEntry.links k al = 1 := by cases al <;> first | (cases hk; done) | (cases hk; simp [BEntry.links])
    unfold Cursor.links
    omega
  have rE : ∀ k, E.label = some k → s.stars k = T k := fun k hk => hi.right k ((hi.known k).2 (Or.inr hk))
  unfold mergeConflict at h
  dsimp only at h
  rw [← hP] at h
  obtain ⟨⟨act, a⟩, h1, h2⟩ := bind_ok h
  rw [emptied_crit, crit_congr _ ral, crit_congr _ rE] at h1
  dsimp only at h2
  have oal := obj_congr ral
  have oE := obj_congr rE
  cases act with
  | preserve => exact conflict_keep hi hf hig hek oal oE hl (by simp [KeepsOld]) (decided_keep hw h1 (by simp [KeepsOld])) h2
  | preserveMark => exact conflict_keep hi hf hig hek oal oE hl (by simp [KeepsOld]) (decided_keep hw h1 (by simp [KeepsOld])) h2
  | undefined => exact conflict_keep hi hf hig hek oal oE hl (by simp [KeepsOld]) (decided_keep hw h1 (by simp [KeepsOld])) h2
  | overwrite => exact conflict_take hi hd hf hEn hEig hek oal oE hx hl (by simp [TakesNew]) (decided_take hw h1 (by simp [TakesNew])) h2
  | overwriteMark => exact conflict_take hi hd hf hEn hEig hek oal oE hx hl (by simp [TakesNew]) (decided_take hw h1 (by simp [TakesNew])) h2
  | remove => exact conflict_drop hi hd hf hek (decided_drop hw h1 rfl) h2
  | ask => cases h2
end

end Dar
