import Verif.Lemmas.Merge9
/- The merging does not fail. -/
namespace Dar

theorem cleanKnown_ok {known : List Nat} {k n : Nat} (h0 : n ≠ 0) (h1 : k ∈ known) : ∃ kn, cleanKnown known k n = .ok kn := by
  unfold cleanKnown
  rw [if_neg h0]
  by_cases h2 : n = 1
  · rw [if_pos h2, if_pos h1]; exact ⟨_, rfl⟩
  · rw [if_neg h2]; exact ⟨_, rfl⟩

theorem cleanNew_ok {T : Nat → Obj} {s : MgSt} {d : BEntry} (hi : MInv T d.label { s with skip := 0 }) : ∃ s', s.cleanNew d = .ok s' := by
  cases d with
  | mirage n k =>
    obtain ⟨kn, hk⟩ := cleanKnown_ok (known := s.known) (k := k) (n := s.at_.links k + 1) (by omega) ((hi.known k).2 (Or.inr rfl))
    unfold MgSt.cleanNew
    dsimp only
    rw [hk]
    exact ⟨_, rfl⟩
  | _ => exact ⟨_, rfl⟩

theorem cleanTree_ok {c : Cursor} {ch : List BEntry} : ∀ (l known : List Nat), l.Nodup → (∀ k ∈ l, k ∈ known) → (∀ k ∈ l, BEntry.linksL k ch ≤ c.links k) →
    ∃ kn, cleanTree c ch known l = .ok kn
  | [], known, _, _, _ => ⟨known, rfl⟩
  | k :: l, known, hn, h1, h2 => by
    unfold cleanTree
    have hk1 := h1 k (List.mem_cons_self ..)
    have hk2 := h2 k (List.mem_cons_self ..)
    rw [if_neg (fun hc => hc hk1), if_neg (by omega)]
    have hn' := List.nodup_cons.1 hn
    refine cleanTree_ok l _ hn'.2 (fun j hj => ?_) (fun j hj => h2 j (List.mem_cons_of_mem _ hj))
    have := h1 j (List.mem_cons_of_mem _ hj)
    have hne : j ≠ k := by rintro rfl; exact hn'.1 hj
    split
    · simp [this, hne]
    · exact this

theorem eraseDups_nodup : ∀ (l : List Nat), l.eraseDups.Nodup
  | [] => by simp
  | a :: l => by
    rw [List.eraseDups_cons, List.nodup_cons]
    refine ⟨?_, eraseDups_nodup _⟩
    rw [List.mem_eraseDups]
    simp
termination_by l => l.length
decreasing_by
  simp only [List.length_cons]
  exact Nat.lt_succ_of_le (List.length_filter_le _ _)

theorem removeOld_ok {T : Nat → Obj} {o : MgOpts} {s : MgSt} {x : Option Nat} {al : BEntry} {n : Bytes} (hi : MInv T x { s with skip := 0 })
    (hf : findChild s.at_.cur n = some al) : ∃ s', s.removeOld o al = .ok s' := by
  have hle : ∀ k, BEntry.links k al ≤ s.at_.links k := by
    intro k
    unfold Cursor.links
    have := links_without hf k
    omega
  have hmem : ∀ k, 0 < BEntry.links k al → k ∈ s.known := by
    intro k hk
    refine (hi.known k).2 (Or.inl ?_)
    have := hle k
    show 0 < s.at_.links k
    omega
  cases al with
  | mirage m k =>
    have h1 : BEntry.links k (.mirage m k) = 1 := by simp [BEntry.links]
    have h2 := hle k
    obtain ⟨kn, hk⟩ := cleanKnown_ok (known := s.known) (k := k) (n := s.at_.links k) (by omega) (hmem k (by omega))
    unfold MgSt.removeOld
    dsimp only
    rw [hk]
    exact ⟨_, rfl⟩
  | dir y c =>
    have hl : ∀ k, BEntry.links k (.dir y c) = BEntry.linksL k c := fun k => by rw [BEntry.links]
    obtain ⟨kn, hk⟩ := cleanTree_ok (c := s.at_) (ch := c) (BEntry.labelsL c).eraseDups s.known (eraseDups_nodup _)
      (fun k hk => by
        rw [List.mem_eraseDups, mem_labelsL] at hk
        exact hmem k (by rw [hl]; exact hk))
      (fun k _ => by rw [← hl]; exact hle k)
    unfold MgSt.removeOld
    dsimp only
    rw [hk]
    exact ⟨_, rfl⟩
  | _ => exact ⟨_, rfl⟩

theorem highest_ok {known : List Nat} {search : Nat} : ∀ (max j : Nat), j ∈ known → search < j → j ≤ max →
    ∃ k m, highest known search max = .ok (k, m) ∧ (∀ i ∈ known, i ≤ max → i ≤ k) ∧ k = m + 1
  | 0, j, _, h1, h2 => by omega
  | x + 1, j, h0, h1, h2 => by
    unfold highest
    rw [if_neg (by omega)]
    by_cases hx : x + 1 ∈ known
    · rw [if_pos hx]
      exact ⟨x + 1, x, rfl, fun i _ h => h, rfl⟩
    · rw [if_neg hx]
      have hj : j ≠ x + 1 := by rintro rfl; exact hx h0
      obtain ⟨k, m, a, b, c⟩ := highest_ok x j h0 h1 (by omega)
      refine ⟨k, m, a, fun i hi hle => ?_, c⟩
      have : i ≠ x + 1 := by rintro rfl; exact hx hi
      exact b i hi (by omega)

/-- more labels than those below `search`: one is not below -/
theorem exists_above {known : List Nat} {search : Nat} (hn : known.Nodup) (hl : search < known.length) : ∃ j ∈ known, search ≤ j := by
  by_contra hc
  push Not at hc
  have hsub : known.Subperm (List.range search) := List.subperm_of_subset hn (fun i hi => List.mem_range.2 (hc i hi))
  have := hsub.length_le
  simp at this
  omega

theorem normLoop_ok : ∀ (n : Nat) (root : List BEntry) (stars : Nat → Obj) (known : List Nat) (max search : Nat), known.Nodup → known.length = search + n →
    (∀ j ∈ known, search ≤ j → j ≤ max) → ∃ r, normLoop root stars known max search n = .ok r
  | 0, root, stars, known, max, search, _, _, _ => ⟨_, rfl⟩
  | n + 1, root, stars, known, max, search, hn, hl, hm => by
    unfold normLoop
    by_cases h1 : search ∈ known
    · rw [if_pos h1]
      exact normLoop_ok n root stars known max (search + 1) hn (by omega) (fun j hj h => hm j hj (by omega))
    · rw [if_neg h1]
      obtain ⟨j, hj, hj2⟩ := exists_above hn (search := search) (by omega)
      have hne : j ≠ search := by rintro rfl; exact h1 hj
      obtain ⟨k, m, a, b, c⟩ := highest_ok (known := known) (search := search) max j hj (by omega) (hm j hj hj2)
      rw [a]
      have hk := highest_spec a
      refine normLoop_ok n _ _ _ m (search + 1) (List.nodup_cons.2 ⟨fun hc => h1 (List.mem_filter.1 hc).1, nodup_filter_ne hn k⟩) ?_ ?_
      · have := filter_length hn hk.1
        simp only [List.length_cons, ne_eq] at this ⊢
        omega
      · intro i hi hle
        rcases List.mem_cons.1 hi with rfl | hi
        · omega
        · simp only [List.mem_filter, decide_eq_true_eq, ne_eq] at hi
          have := b i hi.1 (hm i hi.1 (by omega))
          omega

theorem foldl_max (l : List Nat) : ∀ (a : Nat), a ≤ l.foldl max a ∧ ∀ j ∈ l, j ≤ l.foldl max a := by
  induction l with
  | nil => intro a; simp
  | cons b l ih =>
    intro a
    obtain ⟨h1, h2⟩ := ih (max a b)
    simp only [List.foldl_cons, List.mem_cons]
    refine ⟨by omega, ?_⟩
    rintro j (rfl | hj)
    · omega
    · exact h2 j hj

theorem normalize_ok {T : Nat → Obj} {s : MgSt} (hi : MInv T none s) : ∃ s', s.normalize = .ok s' := by
  obtain ⟨⟨r, st, kn⟩, hr⟩ := normLoop_ok s.known.length s.at_.cur s.stars s.known (s.known.foldl max 0) 0 hi.nodup (by omega) (fun j hj _ => (foldl_max s.known 0).2 j hj)
  unfold MgSt.normalize
  rw [hr]
  exact ⟨_, rfl⟩

/-! ### a conflict -/

theorem bind_exists {α β : Type} {r : Res α} {f : α → Res β} (h : ∃ v, r = .ok v ∧ ∃ b, f v = .ok b) : ∃ b, (r >>= f) = .ok b := by
  obtain ⟨v, rfl, b, hb⟩ := h
  exact ⟨b, hb⟩

theorem efsaOpt_ok (o : MgOpts) {act : OverEa} (h : act = .overwrite ∨ act = .overwriteMark ∨ act = .mergePreserve ∨ act = .mergeOverwrite) (x y : Option Obj) :
    ∃ z, efsaOpt o act x y = .ok z := by
  cases x <;> cases y <;> first | exact ⟨_, rfl⟩ | skip
  rcases h with rfl | rfl | rfl | rfl <;> exact ⟨_, rfl⟩
theorem keepAttr_ok (o : MgOpts) {a : OverEa} (h : a ≠ .ask) (x y : Option Obj) : ∃ z, keepAttr o a x y = .ok z := by
  cases a <;> first | exact absurd rfl h | exact ⟨_, rfl⟩ | exact efsaOpt_ok o (by simp) x y
theorem takeAttr_ok (o : MgOpts) {a : OverEa} (h : a ≠ .ask) (x y : Option Obj) (hc : a = .clear → x ≠ none ∧ y ≠ none) : ∃ z, takeAttr o a x y = .ok z := by
  cases a <;> first | exact absurd rfl h | exact ⟨_, rfl⟩ | exact efsaOpt_ok o (by simp) y x | skip
  obtain ⟨h1, h2⟩ := hc rfl
  cases x with
  | none => exact absurd rfl h1
  | some x => cases y with
    | none => exact absurd rfl h2
    | some y => exact ⟨_, rfl⟩
theorem resolveEa_ne {o : MgOpts} {p : List Bytes} {dflt a : OverEa} {x y : Option Obj} (h1 : dflt ≠ .ask) (h2 : o.askEa p ≠ .ask) : resolveEa o p dflt a x y ≠ .ask := by
  unfold resolveEa
  by_cases ha : a = .ask
  · rw [if_pos ha]
    by_cases hs : someAttr x y = true
    · rw [if_pos hs]; exact h2
    · rw [if_neg hs]; exact h1
  · rw [if_neg ha]; exact ha
theorem takeData_none (o : MgOpts) (d : OverData) (x y : Option Obj) : takeData o d x y = none ↔ y = none := by
  unfold takeData patchedOpt
  cases x <;> cases y <;> by_cases hd : d = .overwriteMark <;> simp [hd]

theorem warned_ne {o : MgOpts} {P : List Bytes} {d : OverData} {a : OverEa} (h : d ≠ .ask) : warned o P d a ≠ .ask := by
  unfold warned
  cases o.warn
  · exact h
  · cases d <;> first | exact absurd rfl h | (cases a <;> cases o.acceptData P <;> cases o.acceptEa P <;> simp)

/-- the decisions that cannot be applied -/
def ClearCond (o : MgOpts) (T : Nat → Obj) (P : List Bytes) (a b : BEntry) : Prop :=
  ∀ d, Decided o T T P a b d .clear → TakesNew d → a.obj T ≠ none ∧ b.obj T ≠ none

section
variable {o : MgOpts} {T : Nat → Obj} {P : List Bytes} {n : Bytes} {s : MgSt} {al E e : BEntry}

theorem conflict_ok (hw : o.warn = true → o.acceptEa P = true) (hP : P = s.at_.path ++ [e.name])
    (ht : ∀ x y, ∃ d a, o.policy.get o.capa x y = .ok (d, a)) (hqd : o.askData P ≠ .ask) (hqe : o.askEa P ≠ .ask)
    (hi : MInv T E.label s) (hd : BEntry.DistinctL s.at_.cur) (hf : findChild s.at_.cur n = some al)
    (hl : LinkCond o T P al E) (hc : ClearCond o T P al E) : ∃ s', mergeConflict o s al e E.emptied = .ok s' := by
  have ral : ∀ k, al.label = some k → s.stars k = T k := by
    intro k hk
    apply hi.right
    rw [hi.known]
    left
    have h1 := links_without hf k
    have h2 : BEntry.links k al = 1 := by cases al <;> first | (cases hk; done) | (cases hk; simp [BEntry.links])
    unfold Cursor.links
    omega
  have rE : ∀ k, E.label = some k → s.stars k = T k := fun k hk => hi.right k ((hi.known k).2 (Or.inr hk))
  have oal := obj_congr ral
  have oE := obj_congr rE
  have hskip : ({ s with skip := 0 } : MgSt) = s := by
    have := hi.skip
    cases s
    simp only at this
    rw [this]
  unfold mergeConflict
  dsimp only
  rw [← hP]
  refine bind_exists ?_
  rw [emptied_crit, crit_congr _ ral, crit_congr _ rE]
  suffices hall : ∀ f1 f2 : Bool, ∃ v : OverData × OverEa, decideConflict o P (al.crit T f1) (E.crit T f2) = .ok v ∧ ∃ s' : MgSt, (match v with
    | (act, a) => (match act with
      | .preserve => mergeKeep o s P al e E.emptied act a
      | .preserveMark => mergeKeep o s P al e E.emptied act a
      | .undefined => mergeKeep o s P al e E.emptied act a
      | .overwrite => mergeTake o s P al e E.emptied act a
      | .overwriteMark => mergeTake o s P al e E.emptied act a
      | .remove => mergeDrop o s al e E.emptied
      | .ask => .error .bug)) = .ok s' from hall _ _
  intro f1 f2
  obtain ⟨d0, a, hp⟩ := ht (al.crit T f1) (E.crit T f2)
  have hdc : decideConflict o P (al.crit T f1) (E.crit T f2) = .ok (warned o P (if d0 = .ask then o.askData P else d0) a, a) := by
    unfold decideConflict
    rw [hp]; rfl
  have hna : warned o P (if d0 = .ask then o.askData P else d0) a ≠ .ask := by
    have : (if d0 = .ask then o.askData P else d0) ≠ .ask := by
      by_cases h : d0 = .ask
      · rw [if_pos h]; exact hqd
      · rw [if_neg h]; exact h
    generalize (if d0 = .ask then o.askData P else d0) = d at this
    exact warned_ne this
  generalize warned o P (if d0 = .ask then o.askData P else d0) a = act at hdc hna
  refine ⟨(act, a), hdc, ?_⟩
  dsimp only
  have keep : KeepsOld act → ∃ s', mergeKeep o s P al e E.emptied act a = .ok s' := by
    intro hk
    have hdec := decided_keep hw hdc hk
    unfold mergeKeep
    rw [emptied_obj, oal, oE]
    dsimp only
    have hr := resolveEa_ne (o := o) (p := P) (dflt := .preserve) (a := a) (x := keepMark act (al.obj T)) (y := E.obj T) (by simp) hqe
    generalize resolveEa o P .preserve a (keepMark act (al.obj T)) (E.obj T) = a' at hdec hr
    obtain ⟨x, h1⟩ := keepAttr_ok o hr (keepMark act (al.obj T)) (E.obj T)
    rw [h1]
    have hlab : ∀ k, al.label = some k → x = some { T k with name := al.name } := fun k hk2 =>
      keep_link ((hl (Or.inl (by rw [hk2]; simp))).1 act a' hdec) hk hk2 h1
    obtain ⟨w1, w2, w3⟩ := writeBack_inv (x := x) hi hf hlab
    have other : ∃ s', ((s.writeBack al x).skipIf e).cleanNew E.emptied = .ok s' := by
      refine cleanNew_ok (T := T) ?_
      rw [emptied_label]
      exact w1.links_congr rfl rfl (fun _ _ => rfl) (fun _ => rfl)
    cases al with
    | dir x0 ch =>
      cases e with
      | dir ex ec => exact ⟨_, rfl⟩
      | _ => exact other
    | _ => exact other
  have take : TakesNew act → ∃ s', mergeTake o s P al e E.emptied act a = .ok s' := by
    intro hk
    have hdec := decided_take hw hdc hk
    unfold mergeTake
    rw [emptied_obj, oal, oE]
    dsimp only
    have hr := resolveEa_ne (o := o) (p := P) (dflt := .overwrite) (a := a) (x := al.obj T) (y := takeData o act (al.obj T) (E.obj T)) (by simp) hqe
    generalize resolveEa o P .overwrite a (al.obj T) (takeData o act (al.obj T) (E.obj T)) = a' at hdec hr
    obtain ⟨x, h1⟩ := takeAttr_ok o hr (al.obj T) (takeData o act (al.obj T) (E.obj T)) (fun hcl => by
      subst hcl
      obtain ⟨q1, q2⟩ := hc _ hdec hk
      exact ⟨q1, fun hn => q2 ((takeData_none ..).1 hn)⟩)
    rw [h1]
    have hlab : ∀ k, E.emptied.label = some k → x = some { T k with name := E.emptied.name } := by
      rw [emptied_name]
      intro k hk2
      rw [emptied_label] at hk2
      have := hl (Or.inr (by rw [hk2]; simp))
      exact take_link (this.1 act a' hdec) hk hk2 (this.2 k hk2) h1
    obtain ⟨s1, n1, n2, n3, n4⟩ := setNew_inv (x := x) (s := s) (by rw [emptied_label]; exact hi) hlab
    have hmain : ∃ s' : MgSt, (match al, E.emptied.update x with
        | .dir _ ch, .dir y _ => (Except.ok (s1.into y ch e.mtime) : Res MgSt)
        | al, d => (s1.removeOld o al >>= fun s => .ok (s.putNew d e.mtime))) = .ok s' := by
      have hrem : ∀ d : BEntry, ∃ s', (s1.removeOld o al >>= fun s => Except.ok (s.putNew d e.mtime)) = (.ok s' : Res MgSt) := by
        intro d
        obtain ⟨s2, h2⟩ := removeOld_ok (T := T) (o := o) (s := s1) (x := E.emptied.label) (n4.links_congr rfl rfl (fun _ _ => rfl) (fun _ => rfl)) (by rw [n2]; exact hf)
        rw [h2]
        exact ⟨_, rfl⟩
      generalize E.emptied.update x = d at *
      cases al with
      | dir x0 ch =>
        cases d with
        | dir y c => exact ⟨_, rfl⟩
        | _ => exact hrem _
      | _ => exact hrem _
    obtain ⟨s', hs'⟩ := hmain
    refine ⟨s', ?_⟩
    rw [← hs']
    show (match al, (s.setNew E.emptied x).1 with
        | .dir _ ch, .dir y _ => (Except.ok ((s.setNew E.emptied x).2.into y ch e.mtime) : Res MgSt)
        | al, d => ((s.setNew E.emptied x).2.removeOld o al >>= fun s => .ok (s.putNew d e.mtime))) = _
    rw [n1]
  have drop : ∃ s', mergeDrop o s al e E.emptied = .ok s' := by
    unfold mergeDrop
    obtain ⟨s1, h1⟩ := cleanNew_ok (T := T) (s := s) (d := E.emptied) (by rw [emptied_label, hskip]; exact hi)
    rw [h1]
    obtain ⟨kn, h3, h4⟩ := cleanNew_inv (by rw [emptied_label]; exact hi) h1
    exact removeOld_ok (T := T) (x := none) (n := n) (h4.links_congr rfl rfl (fun _ _ => rfl) (fun _ => rfl)) (by rw [h3]; exact hf)
  cases act with
  | preserve => exact keep (by simp [KeepsOld])
  | preserveMark => exact keep (by simp [KeepsOld])
  | undefined => exact keep (by simp [KeepsOld])
  | overwrite => exact take (by simp [TakesNew])
  | overwriteMark => exact take (by simp [TakesNew])
  | remove => exact drop
  | ask => exact absurd rfl hna
end

/-! ### the entries met at the same path -/

/-- a condition on the entries met at the same path -/
def PairQ (Q : List Bytes → BEntry → BEntry → Prop) (p : List Bytes) (l1 l2 : List BEntry) : Prop :=
  ∀ q a b, treeAt l1 q = some a → treeAt l2 q = some b → Q (p ++ q) a b

section
variable {Q : List Bytes → BEntry → BEntry → Prop} {p : List Bytes} {l1 l1' l2 l2' : List BEntry}

/-- only the names of the second list matter -/
theorem PairQ.sub (h : PairQ Q p l1 l2) (h1 : ∀ n b, findChild l2' n = some b → findChild l1' n = findChild l1 n ∧ findChild l2 n = some b) : PairQ Q p l1' l2' := by
  intro q a b ha hb
  cases q with
  | nil => cases hb
  | cons m q =>
    cases hm : findChild l2' m with
    | none =>
      exfalso
      cases q with
      | nil => rw [treeAt_one, hm] at hb; cases hb
      | cons k q => unfold findChild at hm; simp only [treeAt, hm] at hb; cases hb
    | some c =>
      obtain ⟨g1, g2⟩ := h1 m c hm
      refine h (m :: q) a b ?_ ?_
      · cases q with
        | nil => exact g1.symm.trans ha
        | cons k q => unfold findChild at g1; simp only [treeAt] at ha ⊢; rw [← g1]; exact ha
      · cases q with
        | nil => exact g2.trans (hm.symm.trans hb)
        | cons k q => unfold findChild at g2 hm; simp only [treeAt] at hb ⊢; rw [g2]; rw [hm] at hb; exact hb

theorem PairQ.below {n : Bytes} {x y : Obj} {c1 c2 : List BEntry} (h : PairQ Q p l1 l2) (h1 : findChild l1 n = some (.dir x c1)) (h2 : findChild l2 n = some (.dir y c2)) :
    PairQ Q (p ++ [n]) c1 c2 := by
  intro q a b ha hb
  have hq : q ≠ [] := by rintro rfl; cases ha
  have := h (n :: q) a b (by rw [treeAt_cons h1 hq]; exact ha) (by rw [treeAt_cons h2 hq]; exact hb)
  simpa using this
end

/-! ### the walk -/

/-- what makes the merging succeed, for each conflict -/
def OkCond (o : MgOpts) (T : Nat → Obj) (P : List Bytes) (a b : BEntry) : Prop := LinkCond o T P a b ∧ ClearCond o T P a b

theorem pairE_of {o : MgOpts} {T : Nat → Obj} {p : List Bytes} {l1 l2 : List BEntry} (h : PairQ (OkCond o T) p l1 l2) : PairE o T p l1 l2 :=
  fun q a b ha hb => (h q a b ha hb).1

section
variable {o : MgOpts} {T rs : Nat → Obj} {off : Nat}

mutual
theorem prog_entry (hT : ∀ k, T (k + off) = rs k) (hw : o.warn = true → ∀ p, o.acceptEa p = true)
    (hdec : o.decremental = true → ∀ t P e1 e2 d a, Decided o t t P e1 e2 d a → KeepsOld d)
    (ht : ∀ x y, ∃ d a, o.policy.get o.capa x y = .ok (d, a)) (hqd : ∀ p, o.askData p ≠ .ask) (hqe : ∀ p, o.askEa p ≠ .ask)
    (e : BEntry) (hde : e.Distinct) (hsrc : e.Src) (s : MgSt) (dt : DateT) (dr : List DateT)
    (hdt : s.dates = dt :: dr) (hi : MInv T none s) (hdc : BEntry.DistinctL s.at_.cur)
    (hcl : ∀ al, findChild s.at_.cur e.name = some al → al.Clean o off s.at_.path)
    (hpair : PairQ (OkCond o T) s.at_.path s.at_.cur ((e.relabel (· + off)).select o s.at_.path)) :
    ∃ s', mergeLoop o true rs off s e.events = .ok s' := by
  rw [events_rest, loop_one]
  cases hc : o.covers s.at_.path e with
  | false =>
    rw [step_excl hi.skip hc]
    show ∃ s', mergeLoop o true rs off (mergeExcl o s e) e.rest = .ok s'
    cases e with
    | dir x c =>
      show ∃ s', mergeLoop o true rs off (mergeExcl o s (.dir x c)) (BEntry.eventsList c ++ [BEv.eod]) = .ok s'
      rw [merge_skipped _ _ _ _ _ _ rfl]
      exact ⟨_, rfl⟩
    | _ => exact ⟨_, rfl⟩
  | true =>
    have hcE : o.covers s.at_.path (e.relabel (· + off)) = true := by rw [covers_relabel]; exact hc
    obtain ⟨E, e1, e2, e3, e4, e5, e6, e7⟩ := sel_some hcE
    rw [relabel_name] at e3
    have hEn : E.name = e.name := e3
    have hEig : E.isIgnoredDir = false := by
      cases hdd : e.isDir with
      | false =>
        rw [sel_leaf (by rw [relabel_isDir]; exact hdd), if_pos hcE] at e1
        cases e1
        exact relabel_src hsrc
      | true =>
        cases e <;> first | (cases hdd; done) | skip
        rw [e7 _ _ (by rw [BEntry.relabel])]
        rfl
    have hek : SameKind e E := ⟨by rw [← e4.dir, relabel_isDir], fun hd => by rw [← e4.time (by rw [relabel_isDir]; exact hd), relabel_mtime]⟩
    rw [step_cov hi.skip hc]
    obtain ⟨s1, c1, c2, c3, c4⟩ := clone_inv T rs off hT e hi
    rw [c1]
    dsimp only
    rw [c2]
    cases hf : findChild s.at_.cur e.name with
    | none =>
      dsimp only
      cases hdm : o.decremental with
      | false =>
        obtain ⟨s2, f1, _⟩ := fresh_entry hT (o := o) (b := true) (by rw [hdm]; rfl) e hde s hi hf
        rw [events_rest, loop_one, step_cov hi.skip hc, c1] at f1
        dsimp only at f1
        rw [c2, hf] at f1
        exact ⟨s2, f1⟩
      | true =>
        unfold mergeNew
        rw [hdm]
        simp only [Bool.and_self, if_true]
        obtain ⟨s3, g3⟩ := cleanNew_ok (T := T) (s := s1) (d := (e.relabel (· + off)).emptied)
          (by rw [emptied_label]; exact c4.links_congr rfl rfl (fun _ _ => rfl) (fun _ => rfl))
        rw [g3]
        show ∃ s', mergeLoop o true rs off ((s3.skipIf e).putNew (.detruit e.name (e.sigKind rs) (s3.dates.headD ⟨0, .s⟩)) ⟨0, .s⟩) e.rest = .ok s'
        rw [rest_skipped rfl]
        exact ⟨_, rfl⟩
    | some al =>
      dsimp only
      have hclean := hcl al hf
      have hig : al.isIgnoredDir = false := by
        have := clean_sub hclean
        rw [findChild_name hf] at this
        have hsub : o.subtree (s.at_.path ++ [e.name]) = true := by
          unfold MgOpts.covers at hc
          simp only [Bool.and_eq_true] at hc
          exact hc.1
        rw [hsub] at this
        cases hx : al.isIgnoredDir
        · rfl
        · rw [hx] at this; cases this
      have hP : s.at_.path ++ [e.name] = s1.at_.path ++ [e.name] := by rw [c2]
      have hsel : (e.relabel (· + off)).select o s.at_.path = [E] := by rw [sel_list, e1]; rfl
      rw [hsel] at hpair
      have hfE : findChild [E] e.name = some E := by simp [findChild, hEn]
      have hok := hpair [e.name] al E hf hfE
      have hd1 : BEntry.DistinctL s1.at_.cur := by rw [c2]; exact hdc
      have hf1 : findChild s1.at_.cur e.name = some al := by rw [c2]; exact hf
      have hi1 : MInv T E.label s1 := by rw [e5]; exact c4
      obtain ⟨s2, h1⟩ := conflict_ok (T := T) (P := s.at_.path ++ [e.name]) (n := e.name) (E := E) (e := e) (fun hw1 => hw hw1 _) hP ht (hqd _) (hqe _)
        hi1 hd1 hf1 hok.1 hok.2
      have out := conflict_outcome (T := T) (P := s.at_.path ++ [e.name]) (n := e.name) (E := E) (fun hw1 => hw hw1 _) hP hi1 hd1 hf1 hig hEn hEig hek
        (fun j hj => clean_links hclean (relabel_label_ge (by rw [← e5]; exact hj))) hok.1 h1
      rw [e2] at h1
      rw [h1]
      show ∃ s', mergeLoop o true rs off s2 e.rest = .ok s'
      rw [c2, c3] at out
      rcases out with ⟨d, a, x, hd, hk, hh, hb, hat, hs, hdt2, hi2⟩ | ⟨d, a, z, x0, y, ch, c, hal, hE, hd, hk, hz, hh, hat, hdt2, hi2⟩ |
        ⟨d, a, x, hd, hk, hh, hb, hat, hdt2, hi2⟩ | ⟨d, a, z, y, c, hal, hE, hd, hk, hz, hh, hat, hdt2, hi2⟩ | ⟨a, hd, hat, hs, hdt2, hi2⟩
      · rw [rest_skipped (by rw [hs, hek.dir])]
        exact ⟨_, rfl⟩
      · have hed : e.isDir = true := by rw [hek.dir, hE]; rfl
        cases he : e with
        | dir ex ec =>
          rw [he] at hde hsrc
          show ∃ s', mergeLoop o true rs off s2 (BEntry.eventsList ec ++ [BEv.eod]) = .ok s'
          rw [mergeLoop_append]
          have hpath : s2.at_.path = s.at_.path ++ [e.name] := by
            rw [hat]
            rw [path_cons s.at_.frames _ _ _ s.at_.cur z, hz]
          have hcE2 := e7 ex (BEntry.relabelL (· + off) ec) (by rw [he, BEntry.relabel])
          rw [hE] at hcE2
          have hexn : ex.name = e.name := by rw [he]; rfl
          have hcc : c = BEntry.selectL o (s.at_.path ++ [ex.name]) (BEntry.relabelL (· + off) ec) := by cases hcE2; rfl
          have hsp : PairQ (OkCond o T) s2.at_.path s2.at_.cur (BEntry.selectL o s2.at_.path (BEntry.relabelL (· + off) ec)) := by
            have hcur : s2.at_.cur = ch := by rw [hat]
            rw [hpath, hcur, ← hexn, ← hcc, hexn]
            exact hpair.below (by rw [hf, hal]) (by rw [hfE, hE])
          have hchd : BEntry.DistinctL ch := by
            have := distinct_child hdc hf
            rw [hal] at this
            unfold BEntry.Distinct at this
            exact this
          have hchc : BEntry.CleanL o off (s.at_.path ++ [e.name]) ch := by
            rw [hal] at hclean
            unfold BEntry.Clean at hclean
            have hx0 : x0.name = e.name := by have := findChild_name hf; rw [hal] at this; exact this
            rw [hx0] at hclean
            exact hclean.2
          have hdcl : BEntry.DistinctL s2.at_.cur := by rw [hat]; exact hchd
          have hclc : ∀ b ∈ ec, ∀ al', findChild s2.at_.cur b.name = some al' → al'.Clean o off s2.at_.path :=
            fun b hb al' hf' => by rw [hpath]; rw [hat] at hf'; exact cleanL_find hchc hf'
          have hdl : BEntry.DistinctL ec := by unfold BEntry.Distinct at hde; exact hde
          have hsl : BEntry.SrcL ec := by unfold BEntry.Src at hsrc; exact hsrc
          obtain ⟨s3, h3⟩ := prog_list hT hw hdec ht hqd hqe ec hdl hsl s2 y.ino.mtime s.dates hdt2 hi2 hdcl hclc hsp
          rw [h3]
          obtain ⟨a1, a2⟩ := second_list hT hw hdec ec hdl hsl s2 s3 y.ino.mtime s.dates hdt2 hi2 hdcl hclc (pairE_of hsp) h3
          have hat3 : s3.at_ = ⟨(beforeChild s.at_.cur e.name, z, afterChild s.at_.cur e.name) :: s.at_.frames, s3.at_.cur⟩ := by
            have := a1.frames
            rw [hat] at this
            dsimp only at this
            rw [← this]
          show ∃ s', mergeLoop o true rs off s3 [BEv.eod] = .ok s'
          rw [leave a1.inv.skip hat3]
          exact ⟨_, rfl⟩
        | _ => rw [he] at hed; cases hed
      · have hr : e.rest = [] := by
          have : e.isDir = false := by rw [hek.dir]; exact hb
          cases e <;> first | rfl | (cases this)
        rw [hr]
        exact ⟨_, rfl⟩
      · have hed : e.isDir = true := by rw [hek.dir, hE]; rfl
        cases he : e with
        | dir ex ec =>
          rw [he] at hde
          have hdm : o.decremental = false := by
            cases hx : o.decremental
            · rfl
            · exact absurd hk (takes_not_keeps (hdec hx T _ _ _ _ _ hd))
          show ∃ s', mergeLoop o true rs off s2 (BEntry.eventsList ec ++ [BEv.eod]) = .ok s'
          obtain ⟨s3, f1, f2, f3, f4⟩ := fresh_list hT (o := o) (b := true) (by rw [hdm]; rfl) ec (by unfold BEntry.Distinct at hde; exact hde) s2 hi2 (fun e _ => by rw [hat]; rfl)
          rw [mergeLoop_append, f1]
          show ∃ s', mergeLoop o true rs off s3 [BEv.eod] = .ok s'
          have hfr : s3.at_.frames = s2.at_.frames := by rw [f2]
          have hat3 : s3.at_ = ⟨(without s.at_.cur e.name, z, []) :: s.at_.frames, s3.at_.cur⟩ := by
            rw [hat] at hfr
            dsimp only at hfr
            rw [← hfr]
          rw [leave f4.skip hat3]
          exact ⟨_, rfl⟩
        | _ => rw [he] at hed; cases hed
      · rw [rest_skipped (by rw [hs, hek.dir])]
        exact ⟨_, rfl⟩
theorem prog_list (hT : ∀ k, T (k + off) = rs k) (hw : o.warn = true → ∀ p, o.acceptEa p = true)
    (hdec : o.decremental = true → ∀ t P e1 e2 d a, Decided o t t P e1 e2 d a → KeepsOld d)
    (ht : ∀ x y, ∃ d a, o.policy.get o.capa x y = .ok (d, a)) (hqd : ∀ p, o.askData p ≠ .ask) (hqe : ∀ p, o.askEa p ≠ .ask)
    (l : List BEntry) (hdl : BEntry.DistinctL l) (hsrc : BEntry.SrcL l) (s : MgSt) (dt : DateT) (dr : List DateT)
    (hdt : s.dates = dt :: dr) (hi : MInv T none s) (hdc : BEntry.DistinctL s.at_.cur)
    (hcl : ∀ e ∈ l, ∀ al, findChild s.at_.cur e.name = some al → al.Clean o off s.at_.path)
    (hpair : PairQ (OkCond o T) s.at_.path s.at_.cur (BEntry.selectL o s.at_.path (BEntry.relabelL (· + off) l))) :
    ∃ s', mergeLoop o true rs off s (BEntry.eventsList l) = .ok s' := by
  match l, hdl, hsrc, hcl, hpair with
  | [], _, _, _, _ => rw [BEntry.eventsList]; exact ⟨_, rfl⟩
  | e :: l, hdl, hsrc, hcl, hpair =>
    have hdr : BEntry.DistinctL (e.relabel (· + off) :: BEntry.relabelL (· + off) l) := by
      have := relabelL_distinct (· + off) (e :: l) hdl
      rwa [BEntry.relabelL] at this
    unfold BEntry.DistinctL at hdl
    unfold BEntry.SrcL at hsrc
    rw [BEntry.eventsList, mergeLoop_append]
    have hdr' := hdr
    unfold BEntry.DistinctL at hdr'
    rw [BEntry.relabelL] at hpair
    have hfind : ∀ n, findChild (BEntry.selectL o s.at_.path (e.relabel (· + off) :: BEntry.relabelL (· + off) l)) n =
        if n = e.name then (e.relabel (· + off)).sel o s.at_.path else findChild (BEntry.selectL o s.at_.path (BEntry.relabelL (· + off) l)) n := by
      intro n
      rw [selectL_find o _ _ hdr, selectL_find o _ _ hdr'.2.2]
      by_cases hn : n = e.name
      · rw [if_pos hn]
        have : findChild (e.relabel (· + off) :: BEntry.relabelL (· + off) l) n = some (e.relabel (· + off)) := by
          unfold findChild
          simp [List.find?_cons, relabel_name, hn]
        rw [this]; rfl
      · rw [if_neg hn]
        have : findChild (e.relabel (· + off) :: BEntry.relabelL (· + off) l) n = findChild (BEntry.relabelL (· + off) l) n := by
          unfold findChild
          simp [List.find?_cons, relabel_name, Ne.symm hn]
        rw [this]
    have hpe : PairQ (OkCond o T) s.at_.path s.at_.cur ((e.relabel (· + off)).select o s.at_.path) := by
      refine hpair.sub (fun n b hb => ⟨rfl, ?_⟩)
      rw [sel_list] at hb
      have hbm := List.mem_of_find?_eq_some hb
      have hbn := findChild_name hb
      rw [← sel_list] at hbm
      have hn : n = e.name := by
        rw [← hbn, select_names o _ _ _ hbm, relabel_name]
      rw [hfind, if_pos hn]
      rw [sel_list] at hbm
      cases hs : (e.relabel (· + off)).sel o s.at_.path with
      | none => rw [hs] at hbm; cases hbm
      | some E =>
        rw [hs] at hbm
        simp at hbm
        rw [hbm]
    obtain ⟨s1, h1⟩ := prog_entry hT hw hdec ht hqd hqe e hdl.1 hsrc.1 s dt dr hdt hi hdc (hcl e (List.mem_cons_self ..)) hpe
    obtain ⟨a1, a2, a3⟩ := second_entry hT hw hdec e hdl.1 hsrc.1 s s1 dt dr hdt hi hdc (hcl e (List.mem_cons_self ..)) (pairE_of hpe) h1
    rw [h1]
    have hp : s1.at_.path = s.at_.path := path_frames a1.frames
    have hnames : ∀ a ∈ l, a.name ≠ e.name := hdl.2.1
    have hpl : PairQ (OkCond o T) s1.at_.path s1.at_.cur (BEntry.selectL o s1.at_.path (BEntry.relabelL (· + off) l)) := by
      rw [hp]
      refine hpair.sub (fun n b hb => ?_)
      have hn : n ≠ e.name := by
        rintro rfl
        rw [selectL_find o _ _ hdr'.2.2] at hb
        have : findChild (BEntry.relabelL (· + off) l) e.name = none := by
          rw [find_none_iff]
          intro a ha
          have := hdr'.2.1 a ha
          rwa [relabel_name] at this
        rw [this] at hb
        cases hb
      refine ⟨a2 n hn, ?_⟩
      rw [hfind, if_neg hn]
      exact hb
    exact prog_list hT hw hdec ht hqd hqe l hdl.2.2 hsrc.2 s1 dt dr (a1.dates.trans hdt) a1.inv a1.distinct
      (fun b hb al hf => by rw [hp]; rw [a2 _ (hnames b hb)] at hf; exact hcl b (List.mem_cons_of_mem _ hb) al hf) hpl
end

theorem merge_total {d1 d2 : DateT} {r1 r2 : BCat} (h1 : FromArchive r1.root) (h2 : FromArchive r2.root) (hw : o.warn = true → ∀ p, o.acceptEa p = true)
    (hdec : o.decremental = true → ∀ x y d a, o.policy.get o.capa x y = .ok (d, a) → KeepsOld d)
    (hl : LinksWhole o r1.stars r2.stars (BEntry.selectL o [] r1.root) (BEntry.selectL o [] r2.root))
    (ha : Answers o r1.stars r2.stars (BEntry.selectL o [] r1.root) (BEntry.selectL o [] r2.root)) : ∃ r, merge o d1 d2 r1 r2 = .ok r := by
  obtain ⟨s0, a1, a2, a3⟩ := first_loop (o := o) d1 r1 h1.distinct
  obtain ⟨s1, b1⟩ := normalize_ok a3
  have g1 : mergePass o false d1 ⟨⟨[], []⟩, fun _ => r1.stars 0, [], [], 0⟩ r1 = .ok s1 := by
    unfold mergePass
    show (mergeLoop o false r1.stars 0 ⟨⟨[], []⟩, fun _ => r1.stars 0, [], [d1], 0⟩ (BEntry.eventsList r1.root) >>= fun s => s.normalize) = _
    rw [a1]
    exact b1
  obtain ⟨ρ, hs⟩ := first_done d1 r1 h1.distinct g1
  obtain ⟨hT, hinv, hlab, hpair⟩ := second_start (t2 := r2.stars) (l2 := r2.root) hs d2
  have hat0 : ({ s1 with dates := [d2], skip := 0 } : MgSt).at_ = ⟨[], BEntry.relabelL ρ (BEntry.selectL o [] r1.root)⟩ := hs.at_
  have hpath : ({ s1 with dates := [d2], skip := 0 } : MgSt).at_.path = [] := by rw [hat0]; rfl
  have hcur : ({ s1 with dates := [d2], skip := 0 } : MgSt).at_.cur = BEntry.relabelL ρ (BEntry.selectL o [] r1.root) := by rw [hat0]
  have hclean := selectL_clean (o := o) s1.known.length ρ [] r1.root (src_list _ h1.distinct (fun p a hp => notIgnored_of (h1.entries p a hp))) (fun k hk => (hlab k hk).2)
  have hpq : PairQ (OkCond o (bothStars s1 r2.stars)) [] s1.at_.cur (BEntry.selectL o [] (BEntry.relabelL (· + s1.known.length) r2.root)) := by
    intro q a b qa qb
    refine ⟨hpair hl q a b qa qb, ?_⟩
    rw [hs.at_] at qa
    rw [relabelL_select] at qb
    change treeAt (BEntry.relabelL ρ (BEntry.selectL o [] r1.root)) q = some a at qa
    rw [relabel_tree] at qa qb
    obtain ⟨a0, ga, rfl⟩ := Option.map_eq_some_iff.1 qa
    obtain ⟨b0, gb, rfl⟩ := Option.map_eq_some_iff.1 qb
    have la : ∀ k, a0.label = some k → bothStars s1 r2.stars (ρ k) = r1.stars k := fun k hk => (hlab k (labelsL_treeAt ga k (label_mem hk))).1
    have lb : ∀ k, b0.label = some k → bothStars s1 r2.stars (k + s1.known.length) = r2.stars k := fun k _ => hT k
    intro d hd htk
    rw [relabel_obj la, relabel_obj lb]
    exact ha.clear q a0 b0 d ga gb ((decided_relabel la lb).1 hd) htk
  have hsrc2 := src_list _ h2.distinct (fun p a hp => notIgnored_of (h2.entries p a hp))
  have hd0 : BEntry.DistinctL ({ s1 with dates := [d2], skip := 0 } : MgSt).at_.cur := by rw [hcur]; exact relabelL_distinct _ _ (selectL_distinct o _ _ h1.distinct)
  have hcl0 : ∀ e ∈ r2.root, ∀ al, findChild ({ s1 with dates := [d2], skip := 0 } : MgSt).at_.cur e.name = some al →
      al.Clean o s1.known.length ({ s1 with dates := [d2], skip := 0 } : MgSt).at_.path :=
    fun e he al hf => by rw [hpath]; rw [hcur] at hf; exact cleanL_find hclean hf
  obtain ⟨s2, g2⟩ := prog_list hT hw (decided_keeps hdec) ha.total ha.data ha.ea r2.root h2.distinct hsrc2 _ d2 [] rfl hinv hd0 hcl0 (by rw [hpath]; exact hpq)
  obtain ⟨c1, c2⟩ := second_list hT hw (decided_keeps hdec) r2.root h2.distinct hsrc2 _ s2 d2 [] rfl hinv hd0 hcl0 (by rw [hpath]; exact pairE_of hpq) g2
  obtain ⟨s3, g3⟩ := normalize_ok c1.inv
  refine ⟨⟨s3.at_.cur, s3.stars⟩, ?_⟩
  unfold merge
  rw [g1]
  show (mergePass o true d2 s1 r2 >>= _) = _
  unfold mergePass
  show ((mergeLoop o true r2.stars s1.known.length { s1 with dates := [d2], skip := 0 } (BEntry.eventsList r2.root) >>= fun s => s.normalize) >>= _) = _
  rw [g2]
  show (s2.normalize >>= _) = _
  rw [g3]
  rfl
end

end Dar
