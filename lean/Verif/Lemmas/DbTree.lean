import Verif.Lemmas.DbFin
/- Lemmas on the addition of an archive to a database: the second phase on the whole tree. -/
namespace Dar

theorem setData_keys {m m' : SMap StatP} {arch : Nat} {s : StatP} (h : setData m arch s = .ok m') (hs : m.Sorted) (ha : 0 < arch)
    (hk : ∀ q ∈ m, 0 < q.1 ∧ q.1 ≤ arch) : ∀ q ∈ m', 0 < q.1 ∧ q.1 ≤ arch := by
  intro q hq
  rcases (setData_facts h hs).2.2.2.1 q hq with h | ⟨q0, h0, h⟩
  · exact ⟨h ▸ ha, h.le⟩
  · rw [← h]; exact hk q0 h0

/-- the second phase keeps the records well-formed -/
theorem fin_ok {arch : Nat} {d : Bool} {del : DateT} {r r' : SMap StatP × SMap Stat} (ha : 0 < arch) (hm : Mid arch d r.1 r.2) (h : FinMaps arch del r r') :
    RecordsOk arch d r'.1 r'.2 := by
  obtain ⟨lm, h1, h2⟩ := h
  have hmods : r'.1.Sorted ∧ (∀ q ∈ r'.1, 0 < q.1 ∧ q.1 ≤ arch) ∧ checkDelta none r'.1 = .ok r'.1 ∧ (d = true → r'.1 ≠ []) := by
    unfold finalizeMods at h1
    generalize finLoop arch 0 r.1 {} = st at h1
    have same : r.1 = r'.1 → r'.1.Sorted ∧ (∀ q ∈ r'.1, 0 < q.1 ∧ q.1 ≤ arch) ∧ checkDelta none r'.1 = .ok r'.1 ∧ (d = true → r'.1 ≠ []) := by
      intro h; rw [← h]; exact ⟨hm.sorted, hm.keys, hm.delta, hm.dirs⟩
    by_cases hf : st.found = true
    · simp only [hf, if_true] at h1
      injection h1 with h1; injection h1 with h3 _
      exact same h3
    · simp only [hf, if_false] at h1
      by_cases hp : st.presenceMax = true
      · simp only [hp, if_true] at h1
        obtain ⟨g, -, h1⟩ := bind_ok h1
        obtain ⟨m1, h3, h1⟩ := bind_ok h1
        injection h1 with h1; injection h1 with h4 _
        rw [← h4]
        obtain ⟨k1, k2, k3, -, -⟩ := setData_facts h3 hm.sorted
        exact ⟨k1, setData_keys h3 hm.sorted ha hm.keys, k3, fun _ => k2⟩
      · simp only [hp, if_false] at h1
        cases hg : r.1.get arch with
        | none =>
          rw [hg] at h1
          injection h1 with h1; injection h1 with h3 _
          exact same h3
        | some s =>
          rw [hg] at h1
          dsimp only at h1
          rw [if_neg (hm.noAbs s hg)] at h1
          by_cases hr : s.present = .removed
          · rw [if_pos hr] at h1
            injection h1 with h1; injection h1 with h3 _
            exact same h3
          · rw [if_neg hr] at h1; cases h1
  have hchg : r'.2.Sorted ∧ (∀ q ∈ r'.2, 0 < q.1 ∧ q.1 ≤ arch) ∧
      (∀ q ∈ r'.2, q.2.present = .saved ∨ q.2.present = .present ∨ q.2.present = .removed ∨ q.2.present = .absent) := by
    unfold finalizeChgs at h2
    obtain ⟨st, -, h2⟩ := bind_ok h2
    have same : r.2 = r'.2 → r'.2.Sorted ∧ (∀ q ∈ r'.2, 0 < q.1 ∧ q.1 ≤ arch) ∧
      (∀ q ∈ r'.2, q.2.present = .saved ∨ q.2.present = .present ∨ q.2.present = .removed ∨ q.2.present = .absent) := by
      intro h; rw [← h]; exact ⟨hm.sortedEa, hm.keysEa, hm.etats⟩
    by_cases hf : st.found = true
    · rw [if_pos hf] at h2; injection h2 with h2; exact same h2
    · rw [if_neg hf] at h2
      by_cases hp : st.numMax ≠ 0 ∧ st.presenceMax = true
      · rw [if_pos hp] at h2
        obtain ⟨g, -, h2⟩ := bind_ok h2
        injection h2 with h2
        rw [← h2]
        refine ⟨sorted_put _ _ _ hm.sortedEa, ?_, ?_⟩
        · intro q hq
          rcases mem_put _ _ _ _ hq with rfl | hq
          · exact ⟨ha, Nat.le_refl _⟩
          · exact hm.keysEa q hq
        · intro q hq
          rcases mem_put _ _ _ _ hq with rfl | hq
          · simp
          · exact hm.etats q hq
      · rw [if_neg hp] at h2; injection h2 with h2; exact same h2
  exact ⟨hmods.1, hchg.1, hmods.2.1, hchg.2.1, hchg.2.2, hmods.2.2.1, hmods.2.2.2⟩

/-! ### No directory is dropped -/

theorem candAdd_ne {ewr : Bool} {st st' : List (Nat × Etat)} {n : Nat} {e : Etat} (hw : ewr = false) (h : candAdd ewr st n e = .ok st') : st' ≠ [] := by
  subst hw
  unfold candAdd at h
  cases hf : candFirst false st e with
  | none => cases e <;> simp [candFirst] at hf
  | some s1 =>
    rw [hf] at h
    dsimp only at h
    by_cases hi : s1.isEmpty = true
    · rw [if_pos hi] at h; injection h with h; subst h; simp
    · rw [if_neg hi] at h
      cases hs : candSecond s1 e with
      | error e => rw [hs] at h; cases h
      | ok r =>
        rw [hs] at h
        cases r with
        | none => injection h with h; subst h; intro h'; subst h'; exact hi rfl
        | some s2 => injection h with h; subst h; simp

theorem getDataLoop_ne (date : DateT) (m : SMap StatP) : ∀ (max : DateT) (st st' : List (Nat × Etat)), st ≠ [] → getDataLoop date false m max st = .ok st' → st' ≠ [] := by
  induction m with
  | nil => intro max st st' h1 h2; injection h2 with h2; subst h2; exact h1
  | cons x m ih =>
    obtain ⟨n, s⟩ := x
    intro max st st' h1 h2
    rw [getDataLoop] at h2
    obtain ⟨v, -, h2⟩ := bind_ok h2
    by_cases hv : v = true
    · rw [if_pos hv] at h2
      obtain ⟨st1, h3, h2⟩ := bind_ok h2
      exact ih _ _ _ (candAdd_ne rfl h3) h2
    · rw [if_neg hv] at h2
      exact ih _ _ _ h1 h2

theorem getData_found {m : SMap StatP} {set : List Nat} {r : Lookup} (hm : m ≠ []) (h : getData m ⟨0, .s⟩ false = .ok (set, r)) : r ≠ .notFound := by
  unfold getData at h
  obtain ⟨st, h1, h⟩ := bind_ok h
  injection h with h; injection h with h2 h3
  subst h3
  have hst : st ≠ [] := by
    cases m with
    | nil => exact absurd rfl hm
    | cons x m =>
      obtain ⟨n, s⟩ := x
      rw [getDataLoop] at h1
      obtain ⟨b, hb, hb'⟩ := dateVisible_spec ⟨0, .s⟩ ⟨0, .s⟩ s.date
      rw [hb] at h1
      have : b = true := hb'.mpr ⟨by simp [DateT.instant], .inl rfl⟩
      subst this
      simp only [bind, Except.bind, if_true] at h1
      cases hc : candAdd false [] n s.present with
      | error e => rw [hc] at h1; cases h1
      | ok st1 => rw [hc] at h1; exact getDataLoop_ne _ _ _ _ _ (candAdd_ne rfl hc) h1
  cases st with
  | nil => exact absurd rfl hst
  | cons x st => obtain ⟨n, e⟩ := x; cases e <;> simp [candStatus]

theorem deltaStep_err {p : Option Crc} {s : StatP} {e : Err} (h : deltaStep p s = .error e) : e = .bug := by
  unfold deltaStep at h
  split_ifs at h with h1 h2 h3
  cases hb : s.base with
  | none => rw [hb] at h; injection h with h; exact h.symm
  | some b =>
    rw [hb] at h
    cases p with
    | none => cases h
    | some q =>
      dsimp only at h
      cases hq : q.eqv b with
      | error e' =>
        rw [hq] at h
        unfold Crc.eqv at hq
        split_ifs at hq
        injection hq with hq
        subst hq
        injection h with h; exact h.symm
      | ok v => rw [hq] at h; cases v <;> cases h

theorem checkDelta_err (m : SMap StatP) : ∀ (p : Option Crc) (e : Err), checkDelta p m = .error e → e = .bug := by
  induction m with
  | nil => intro p e h; cases h
  | cons x m ih =>
    obtain ⟨n, s⟩ := x
    intro p e h
    rw [checkDelta] at h
    cases hd : deltaStep p s with
    | error e' => rw [hd] at h; injection h with h; subst h; exact deltaStep_err hd
    | ok r =>
      obtain ⟨s', p', b⟩ := r
      rw [hd] at h
      simp only [bind, Except.bind] at h
      cases hc : checkDelta p' m with
      | error e' => rw [hc] at h; injection h with h; subst h; exact ih _ _ hc
      | ok m' => rw [hc] at h; cases h

theorem bind_err {α β : Type} {x : Res α} {f : α → Res β} {e : Err} (h : (x >>= f) = .error e) : x = .error e ∨ ∃ a, x = .ok a ∧ f a = .error e := by
  cases x with
  | error e' => left; injection h with h; rw [h]
  | ok a => right; exact ⟨a, rfl, h⟩

theorem finalizeMods_err {arch ign : Nat} {del : DateT} {m : SMap StatP} {e : Err} (h : finalizeMods arch del ign m = .error e) : e = .bug := by
  unfold finalizeMods at h
  generalize finLoop arch ign m {} = st at h
  dsimp only at h
  split_ifs at h with h1 h2
  · rcases bind_err h with h | ⟨g, -, h⟩
    · obtain ⟨g, hg, -⟩ := C22_gt del st.lastMtime
      rw [hg] at h; cases h
    · rcases bind_err h with h | ⟨m1, -, h⟩
      · exact checkDelta_err _ _ _ h
      · cases h
  · cases hg : m.get arch with
    | none => rw [hg] at h; cases h
    | some s =>
      rw [hg] at h
      dsimp only at h
      split_ifs at h
      injection h with h; exact h.symm

theorem finLoopEa_err {arch ign : Nat} (m : SMap Stat) : ∀ (st : FinSt) (e : Err), finLoopEa arch ign m st = .error e → e = .bug := by
  induction m with
  | nil => intro st e h; cases h
  | cons x m ih =>
    obtain ⟨n, s⟩ := x
    intro st e h
    rw [finLoopEa] at h
    split_ifs at h
    · exact ih _ _ h
    · injection h with h; exact h.symm
    · exact ih _ _ h
    · exact ih _ _ h

theorem finalizeChgs_err {arch ign : Nat} {del lm : DateT} {m : SMap Stat} {e : Err} (h : finalizeChgs arch del ign lm m = .error e) : e = .bug := by
  unfold finalizeChgs at h
  rcases bind_err h with h | ⟨st, -, h⟩
  · exact finLoopEa_err _ _ _ h
  · split_ifs at h
    rcases bind_err h with h | ⟨g, -, h⟩
    · obtain ⟨g, hg, -⟩ := C22_lt lm del
      rw [hg] at h; cases h
    · cases h

/-! ### The tree -/

theorem finPass_ok {fin : DTree → Res DTree} (l : List DTree) : ∀ (done : List DTree), (∀ t ∈ l, fin t ≠ .error .data) →
    (∀ e, finPass fin done l = .error e → e ≠ .data) ∧
    ∀ l' b, finPass fin done l = .ok (l', b) → b = true ∧ ∃ l2, l' = done ++ l2 ∧ List.Forall₂ (fun t t' => fin t = .ok t') l l2 := by
  induction l with
  | nil =>
    intro done _
    refine ⟨(fun e h => by cases h), fun l' b h => ?_⟩
    injection h with h; injection h with h1 h2
    exact ⟨h2.symm, [], by rw [← h1, List.append_nil], .nil⟩
  | cons t l ih =>
    intro done hf
    rw [finPass]
    have ht := hf t List.mem_cons_self
    cases hc : fin t with
    | error e =>
      rw [hc] at ht
      cases e with
      | data => exact absurd rfl ht
      | _ => exact ⟨(fun e h => by injection h with h; subst h; simp), (fun l' b h => by cases h)⟩
    | ok t' =>
      dsimp only
      obtain ⟨h1, h2⟩ := ih (done ++ [t']) (fun x hx => hf x (List.mem_cons_of_mem _ hx))
      refine ⟨h1, fun l' b h => ?_⟩
      obtain ⟨h3, l2, h4, h5⟩ := h2 l' b h
      exact ⟨h3, t' :: l2, by rw [h4]; simp, .cons hc h5⟩

theorem finChildren_ok {fin : DTree → Res DTree} (k : Nat) (l : List DTree) (hf : ∀ t ∈ l, fin t ≠ .error .data) :
    (∀ e, finChildren fin (k + 1) l = .error e → e ≠ .data) ∧
    ∀ l', finChildren fin (k + 1) l = .ok l' → List.Forall₂ (fun t t' => fin t = .ok t') l l' := by
  obtain ⟨h1, h2⟩ := finPass_ok l [] hf
  rw [finChildren]
  refine ⟨fun e h => ?_, fun l' h => ?_⟩
  · rcases bind_err h with h | ⟨⟨l', b⟩, hp, h⟩
    · exact h1 e h
    · obtain ⟨rfl, -⟩ := h2 l' b hp
      cases h
  · obtain ⟨⟨l1, b⟩, hp, h⟩ := bind_ok h
    obtain ⟨rfl, l2, h3, h4⟩ := h2 l1 b hp
    injection h with h
    rw [← h]
    rw [h3]; exact h4

theorem forall2_name {l l' : List DTree} {R : DTree → DTree → Prop} (h : List.Forall₂ R l l') (hR : ∀ t t', t ∈ l → R t t' → t'.name = t.name) :
    l'.map DTree.name = l.map DTree.name := by
  induction h with
  | nil => rfl
  | cons h1 h2 ih =>
    simp only [List.map_cons]
    rw [hR _ _ List.mem_cons_self h1, ih (fun t t' ht => hR t t' (List.mem_cons_of_mem _ ht))]

theorem forall2_child {l l' : List DTree} {R : DTree → DTree → Prop} (h : List.Forall₂ R l l') (hR : ∀ t t', t ∈ l → R t t' → t'.name = t.name) (n : Bytes) :
    (readChild l n = none ∧ readChild l' n = none) ∨ ∃ t t', t ∈ l ∧ t' ∈ l' ∧ readChild l n = some t ∧ readChild l' n = some t' ∧ R t t' := by
  induction h with
  | nil => left; exact ⟨rfl, rfl⟩
  | @cons a b l l' h1 h2 ih =>
    rw [readChild_cons, readChild_cons, hR _ _ List.mem_cons_self h1]
    by_cases hn : a.name = n
    · rw [if_pos hn, if_pos hn]
      exact .inr ⟨a, b, List.mem_cons_self, List.mem_cons_self, rfl, rfl, h1⟩
    · rw [if_neg hn, if_neg hn]
      rcases ih (fun t t' ht => hR t t' (List.mem_cons_of_mem _ ht)) with h | ⟨t, t', k1, k2, k3⟩
      · exact .inl h
      · exact .inr ⟨t, t', List.mem_cons_of_mem _ k1, List.mem_cons_of_mem _ k2, k3⟩

theorem forall2_mem {α β : Type} {l : List α} {l' : List β} {R : α → β → Prop} (h : List.Forall₂ R l l') (b : β) (hb : b ∈ l') : ∃ a ∈ l, R a b := by
  induction h with
  | nil => cases hb
  | cons h1 h2 ih =>
    rcases List.mem_cons.mp hb with rfl | hb
    · exact ⟨_, List.mem_cons_self, h1⟩
    · obtain ⟨a, ha, h⟩ := ih hb
      exact ⟨a, List.mem_cons_of_mem _ ha, h⟩

/-- what the second phase does to the children of a directory -/
def FinList (arch : Nat) (del : DateT) (l l' : List DTree) : Prop :=
  (l'.map DTree.name).Nodup ∧ DTree.EachL (RecordsOk arch) l' ∧
  ∀ x p, FinMaps arch (deletionDate del l' x p) (recordsAt l x p) (recordsAt l' x p)
def FinTree (arch : Nat) (del : DateT) (t t' : DTree) : Prop :=
  t'.name = t.name ∧ t'.isDir = t.isDir ∧ t'.Each (RecordsOk arch) ∧ FinMaps arch del (t.mods, t.chgs) (t'.mods, t'.chgs) ∧
  ∀ x p, FinMaps arch (if p = [] then stateDate t'.mods else stateDate (recordsAt t'.sub x p.dropLast).1) (recordsAt t.sub x p) (recordsAt t'.sub x p)

theorem finMaps_nil (arch : Nat) (del : DateT) : FinMaps arch del ([], []) ([], []) := ⟨⟨0, .s⟩, rfl, rfl⟩

theorem fin_list {arch : Nat} {del : DateT} {l l' : List DTree} (hn : (l.map DTree.name).Nodup)
    (h : List.Forall₂ (FinTree arch del) l l') : FinList arch del l l' := by
  have hname : ∀ t t', t ∈ l → FinTree arch del t t' → t'.name = t.name := fun t t' _ h => h.1
  refine ⟨by rw [forall2_name h hname]; exact hn, ?_, ?_⟩
  · rw [eachL_iff]
    intro t' ht'
    obtain ⟨t, -, h1⟩ := forall2_mem h t' ht'
    exact h1.2.2.1
  · intro x p
    unfold deletionDate
    rcases forall2_child h hname x with ⟨h1, h2⟩ | ⟨t, t', -, -, h1, h2, hR⟩
    · have e1 : recordsAt l x p = ([], []) := by cases p <;> simp only [recordsAt_nil, recordsAt_cons, h1]
      have e2 : recordsAt l' x p = ([], []) := by cases p <;> simp only [recordsAt_nil, recordsAt_cons, h2]
      rw [e1, e2]; exact finMaps_nil _ _
    · obtain ⟨-, -, -, hm, hs⟩ := hR
      cases p with
      | nil => rw [if_pos rfl, recordsAt_nil, recordsAt_nil, h1, h2]; exact hm
      | cons y q =>
        rw [if_neg (by simp), recordsAt_cons, recordsAt_cons, h1, h2]
        have := hs y q
        cases q with
        | nil =>
          rw [if_pos rfl] at this
          simp only [List.dropLast_singleton]
          rw [recordsAt_nil, h2]
          exact this
        | cons z q =>
          rw [if_neg (by simp)] at this
          rw [List.dropLast_cons_of_ne_nil (by simp), recordsAt_cons, h2]
          exact this

theorem lastDate_state {m : SMap StatP} {set : List Nat} {r : Lookup} {d : DateT} (h : getData m ⟨0, .s⟩ false = .ok (set, r)) (hd : lastDate set m = .ok d) :
    d = stateDate m := by
  unfold stateDate
  rw [h]
  unfold lastDate at hd
  cases hs : set.getLast? with
  | none => rw [hs] at hd; cases hd
  | some n =>
    rw [hs] at hd
    dsimp only at hd ⊢
    cases hg : m.get n with
    | none => rw [hg] at hd; cases hd
    | some s => rw [hg] at hd; injection hd with hd; simp [hg, hs, hd]

theorem lastDate_err {m : SMap StatP} {set : List Nat} {e : Err} (hd : lastDate set m = .error e) : e = .bug := by
  unfold lastDate at hd
  cases hs : set.getLast? with
  | none => rw [hs] at hd; injection hd with hd; exact hd.symm
  | some n =>
    rw [hs] at hd
    dsimp only at hd
    cases hg : m.get n with
    | none => rw [hg] at hd; injection hd with hd; exact hd.symm
    | some s => rw [hg] at hd; cases hd

theorem fin_tree {arch : Nat} (ha : 0 < arch) : ∀ (fuel : Nat) (del : DateT) (t : DTree), t.Each (Mid arch) →
    t.finalize arch 0 fuel del ≠ .error .data ∧ ∀ t', t.finalize arch 0 fuel del = .ok t' → FinTree arch del t t' := by
  intro fuel
  induction fuel with
  | zero => intro del t _; exact ⟨by simp [DTree.finalize], fun t' h => by simp [DTree.finalize] at h⟩
  | succ fuel ih =>
    intro del t ht
    obtain ⟨n, d, m, c, s⟩ := t
    obtain ⟨hM, hs0, hsn, hse⟩ := ht
    rw [DTree.finalize]
    cases hm : finalizeMods arch del 0 m with
    | error e => have := finalizeMods_err hm; subst this; exact ⟨by simp [bind, Except.bind], fun t' h => by cases h⟩
    | ok r =>
      obtain ⟨m', lm⟩ := r
      simp only [bind, Except.bind]
      cases hc : finalizeChgs arch del 0 lm c with
      | error e => have := finalizeChgs_err hc; subst this; exact ⟨by simp, fun t' h => by cases h⟩
      | ok c' =>
        dsimp only
        have hF : FinMaps arch del (m, c) (m', c') := ⟨lm, hm, hc⟩
        have hO := fin_ok ha (r := (m, c)) hM hF
        by_cases hd : d = true
        · rw [if_pos hd]
          cases hg : getData m' ⟨0, .s⟩ false with
          | error e => obtain ⟨r, hr⟩ := C29_data_total m' ⟨0, .s⟩ false; rw [hr] at hg; cases hg
          | ok r =>
            obtain ⟨set, lk⟩ := r
            dsimp only
            rw [if_neg (getData_found (hO.dirs hd) hg)]
            cases hl : lastDate set m' with
            | error e => have := lastDate_err hl; subst this; exact ⟨by simp, fun t' h => by cases h⟩
            | ok nd =>
              dsimp only
              obtain ⟨k1, k2⟩ := finChildren_ok (fin := DTree.finalize arch 0 fuel nd) s.length s
                (fun t ht => (ih nd t ((eachL_iff _ s).mp hse t ht)).1)
              cases hf : finChildren (DTree.finalize arch 0 fuel nd) (s.length + 1) s with
              | error e => exact ⟨(fun h => by injection h with h; exact k1 e hf h), (fun t' h => by cases h)⟩
              | ok s' =>
                refine ⟨by simp, fun t' h => ?_⟩
                injection h with h; subst h
                have hall : List.Forall₂ (FinTree arch nd) s s' := by
                  have h5 := k2 s' hf
                  clear hf k1 k2 hsn hs0
                  induction h5 with
                  | nil => exact .nil
                  | cons h6 _ ih2 =>
                    rw [DTree.EachL] at hse
                    exact .cons ((ih nd _ hse.1).2 _ h6) (ih2 hse.2)
                obtain ⟨f1, f2, f3⟩ := fin_list hsn hall
                have hnd := lastDate_state hg hl
                refine ⟨rfl, rfl, ⟨hO, fun h => (by rw [hd] at h; cases h), f1, f2⟩, hF, fun x p => ?_⟩
                have := f3 x p
                unfold deletionDate at this
                rw [hnd] at this
                exact this
        · rw [if_neg hd]
          refine ⟨by simp, fun t' h => ?_⟩
          injection h with h; subst h
          have hsub := hs0 (by simpa using hd)
          subst hsub
          refine ⟨rfl, rfl, ⟨hO, hs0, hsn, trivial⟩, hF, fun x p => ?_⟩
          have : recordsAt [] x p = ([], []) := recordsAt_empty x p
          show FinMaps _ _ (recordsAt [] x p) (recordsAt [] x p)
          rw [this]; exact finMaps_nil _ _

theorem fin_root {arch : Nat} (ha : 0 < arch) {del : DateT} {n : Bytes} {d : Bool} {m : SMap StatP} {c : SMap Stat} {l : List DTree} {t' : DTree}
    (hn : (l.map DTree.name).Nodup) (hl : DTree.EachL (Mid arch) l) (h : finalizeRoot arch del 0 (.node n d m c l) = .ok t') :
    ∃ l', t' = .node n d m c l' ∧ FinList arch del l l' := by
  unfold finalizeRoot at h
  obtain ⟨l', hf, h0⟩ := bind_ok h
  clear h
  injection h0 with h0
  refine ⟨l', h0.symm, ?_⟩
  obtain ⟨-, k2⟩ := finChildren_ok (fin := DTree.finalize arch 0 (DTree.depthList l) del) l.length l
    (fun t ht => (fin_tree ha _ del t ((eachL_iff _ l).mp hl t ht)).1)
  have h5 := k2 l' hf
  refine fin_list hn ?_
  generalize DTree.depthList l = fuel at h5
  clear hf k2 hn h0
  induction h5 with
  | nil => exact .nil
  | cons h6 _ ih2 =>
    rw [DTree.EachL] at hl
    exact .cons ((fin_tree ha fuel del _ hl.1).2 _ h6) (ih2 hl.2)

/-! ### Monotony of the invariants -/

mutual
theorem each_mono {P Q : Bool → SMap StatP → SMap Stat → Prop} (h : ∀ d m c, P d m c → Q d m c) (t : DTree) (ht : t.Each P) : t.Each Q :=
  match t with
  | .node _ d m c s => ⟨h d m c ht.1, ht.2.1, ht.2.2.1, eachL_mono h s ht.2.2.2⟩
theorem eachL_mono {P Q : Bool → SMap StatP → SMap Stat → Prop} (h : ∀ d m c, P d m c → Q d m c) (l : List DTree) (hl : DTree.EachL P l) : DTree.EachL Q l :=
  match l with
  | [] => trivial
  | t :: l => ⟨each_mono h t hl.1, eachL_mono h l hl.2⟩
end

theorem mid_of_old {n : Nat} (d : Bool) (m : SMap StatP) (c : SMap Stat) (hn : 0 < n) (h : RecordsOk (n - 1) d m c) : Mid n d m c := by
  refine ⟨⟨h.sorted, h.sortedEa, ?_, ?_, h.etats, h.delta, h.dirs⟩, ?_, ?_⟩
  · intro q hq; have := h.keys q hq; omega
  · intro q hq; have := h.keysEa q hq; omega
  · intro s hs; have := (h.keys _ (get_mem _ _ _ hs)).2; dsimp only at this; omega
  · intro s hs; have := (h.keysEa _ (get_mem _ _ _ hs)).2; dsimp only at this; omega

end Dar
