import Verif.Props.DbRestore
/- C54: adding archives to a database, then restoring from it. -/
namespace Dar

theorem candAdd_keys {ewr : Bool} {st st' : List (Nat × Etat)} {n : Nat} {e : Etat} (h : candAdd ewr st n e = .ok st') :
    ∀ q ∈ st', q ∈ st ∨ q = (n, e) := by
  unfold candAdd at h
  have h1 : ∀ st1, candFirst ewr st e = some st1 → ∀ q ∈ st1, q ∈ st := by
    intro st1 hf q hq
    cases e <;> cases ewr <;> simp [candFirst] at hf
    all_goals (try subst hf)
    all_goals first
      | exact hq
      | (cases hq)
  cases hf : candFirst ewr st e with
  | none => rw [hf] at h; injection h with h; subst h; exact fun q hq => Or.inl hq
  | some st1 =>
    rw [hf] at h
    dsimp only at h
    by_cases he : st1.isEmpty = true
    · rw [if_pos he] at h
      injection h with h; subst h
      intro q hq
      exact Or.inr (by simpa using hq)
    · rw [if_neg he] at h
      obtain ⟨o, ho, h⟩ : ∃ o, candSecond st1 e = .ok o ∧ (match o with | none => .ok st1 | some st2 => .ok (st2 ++ [(n, e)]) : Res _) = .ok st' := by
        cases hc : candSecond st1 e with
        | error er => rw [hc] at h; cases h
        | ok o => rw [hc] at h; exact ⟨o, rfl, by cases o <;> exact h⟩
      have h2 : ∀ st2, o = some st2 → ∀ q ∈ st2, q ∈ st1 := by
        intro st2 h2 q hq
        subst h2
        unfold candSecond at ho
        by_cases hp : e = .present
        · rw [if_pos hp] at ho; simp at ho
        · rw [if_neg hp] at ho
          cases hl : st1.getLast? with
          | none => rw [hl] at ho; simp at ho; subst ho; exact hq
          | some b =>
            obtain ⟨bn, be⟩ := b
            rw [hl] at ho
            cases be with
            | present =>
              simp only at ho
              by_cases hlen : st1.length > 1
              · rw [if_pos hlen] at ho; cases ho
              · rw [if_neg hlen] at ho; simp at ho; subst ho; cases hq
            | inode => simp at ho; subst ho; exact List.dropLast_subset _ hq
            | saved => simp at ho; subst ho; exact hq
            | patch => simp at ho; subst ho; exact hq
            | removed => simp at ho; subst ho; cases hq
            | absent => simp at ho; subst ho; cases hq
            | patchUnusable => simp at ho
      cases o with
      | none => injection h with h; subst h; exact fun q hq => Or.inl (h1 st1 hf q hq)
      | some st2 =>
        injection h with h; subst h
        intro q hq
        rcases List.mem_append.mp hq with hq | hq
        · exact Or.inl (h1 st1 hf q (h2 st2 rfl q hq))
        · exact Or.inr (List.mem_singleton.mp hq)

theorem getDataLoop_keys (date : DateT) (ewr : Bool) (m : SMap StatP) : ∀ (max : DateT) (st st' : List (Nat × Etat)),
    getDataLoop date ewr m max st = .ok st' → ∀ q ∈ st', q ∈ st ∨ ∃ s, (q.1, s) ∈ m := by
  induction m with
  | nil => intro max st st' h; injection h with h; subst h; exact fun q hq => Or.inl hq
  | cons p m ih =>
    obtain ⟨n, s⟩ := p
    intro max st st' h q hq
    rw [getDataLoop] at h
    obtain ⟨v, -, h⟩ := bind_ok h
    cases v with
    | false =>
      rcases ih _ _ _ h q hq with h1 | ⟨x, h1⟩
      · exact Or.inl h1
      · exact Or.inr ⟨x, by simp [h1]⟩
    | true =>
      obtain ⟨st1, h1, h⟩ := bind_ok h
      rcases ih _ _ _ h q hq with h2 | ⟨x, h2⟩
      · rcases candAdd_keys h1 q h2 with h3 | h3
        · exact Or.inl h3
        · subst h3; exact Or.inr ⟨s, by simp⟩
      · exact Or.inr ⟨x, by simp [h2]⟩

/-- The archives given by a lookup have a record. -/
theorem getData_keys {m : SMap StatP} {date : DateT} {ewr : Bool} {set : List Nat} {r : Lookup} (h : getData m date ewr = .ok (set, r)) :
    ∀ n ∈ set, ∃ s, (n, s) ∈ m := by
  unfold getData at h
  obtain ⟨st, h1, h⟩ := bind_ok h
  simp only [Except.ok.injEq, Prod.mk.injEq] at h
  intro n hn
  rw [← h.1] at hn
  obtain ⟨q, hq, rfl⟩ := List.mem_map.mp hn
  rcases getDataLoop_keys _ _ _ _ _ _ h1 q hq with h2 | h2
  · cases h2
  · exact h2

theorem history_mem {α : Type} {date : α → DateT} {et : α → Etat} {m : SMap α} {limit : DateT} {ewr : Bool} {n : Nat} {e : Etat}
    (h : (n, e) ∈ history date et m limit ewr) : ∃ s, (n, s) ∈ m := by
  unfold history at h
  obtain ⟨p, hp, hpq⟩ := List.mem_map.mp (List.mem_filter.mp h).1
  simp only [Prod.mk.injEq] at hpq
  exact ⟨p.2, by rw [← hpq.1]; exact (List.mem_filter.mp hp).1⟩

/-- The locations of a node whose dates are in order. -/
theorem own_total {n : Nat} {d : Bool} {m : SMap StatP} {c : SMap Stat} (date : DateT) (h : RecordsOk n d m c)
    (hoe : DatesOrdered Stat.date c) : ∃ locs, ownLocations date m c = .ok locs ∧ ∀ k ∈ locs, k ≤ n := by
  obtain ⟨⟨set, rd⟩, g1⟩ := C29_data_total m date false
  obtain ⟨ea, re, e1, -, e2⟩ := C29_ea c hoe (fun p hp => ⟨by have := (h.keysEa p hp).1; omega, h.etats p hp⟩) date false
  obtain ⟨e3, e4, e5, e6⟩ := e2 (Or.inl rfl)
  refine ⟨_, by unfold ownLocations; rw [g1, e1]; rfl, ?_⟩
  have hset : ∀ k ∈ toSet set, k ≤ n := by
    intro k hk
    obtain ⟨s, hs⟩ := getData_keys g1 k ((mem_toSet _ _).mp hk)
    exact (h.keys _ hs).2
  have hea : re = .foundPresent ∨ re = .foundRemoved → ea ≤ n := by
    intro hr
    have : ∃ s, (ea, s) ∈ c := by
      cases hh : replay (history Stat.date Stat.present c date false) with
      | unseen => rw [e3 hh] at hr; simp at hr
      | lost => rw [e5 hh] at hr; simp at hr
      | gone =>
        obtain ⟨-, h2⟩ := e4 hh
        obtain ⟨q, hq, hqe⟩ := Option.map_eq_some_iff.mp h2
        have := List.mem_of_getLast? hq
        rw [← hqe]
        exact history_mem (e := q.2) this
      | ok d' a' =>
        obtain ⟨-, h2, -⟩ := e6 d' a' hh
        obtain ⟨e, he⟩ := replay_mem _ d' a' hh a' (Or.inr rfl)
        rw [h2]
        exact history_mem he
    obtain ⟨s, hs⟩ := this
    exact (h.keysEa _ hs).2
  intro k hk
  by_cases c1 : rd = .foundPresent
  · rw [if_pos c1] at hk
    by_cases c2 : re = .foundPresent ∨ re = .foundRemoved
    · rw [if_pos c2] at hk
      rcases (mem_setInsert _ _ _).mp hk with rfl | hk
      · exact hea c2
      · exact hset k hk
    · rw [if_neg c2] at hk; exact hset k hk
  · rw [if_neg c1] at hk; cases hk

mutual
theorem tree_total {n : Nat} (date : DateT) (pre : List Bytes) (t : DTree) (h : t.Each (RecordsOk n)) (ho : ∀ q ∈ t.nodes pre, NodeOrdered q) :
    ∃ r, restoreTree date t = .ok r := by
  match t with
  | .node name dir m c s =>
    rw [DTree.Each] at h
    rw [DTree.nodes] at ho
    obtain ⟨locs, h1, -⟩ := own_total date h.1 (ho (pre ++ [name], m, c) (by simp)).2
    obtain ⟨ch, h2⟩ := treeList_total date (pre ++ [name]) s h.2.2.2 (fun q hq => ho q (by simp [hq]))
    exact ⟨_, by rw [restoreTree, h1]; show (restoreTreeList date s >>= _) = _; rw [h2]; rfl⟩
theorem treeList_total {n : Nat} (date : DateT) (pre : List Bytes) (l : List DTree) (h : DTree.EachL (RecordsOk n) l)
    (ho : ∀ q ∈ DTree.nodesList pre l, NodeOrdered q) : ∃ r, restoreTreeList date l = .ok r := by
  match l with
  | [] => exact ⟨[], rfl⟩
  | t :: l =>
    rw [DTree.EachL] at h
    rw [DTree.nodesList] at ho
    obtain ⟨r, h1⟩ := tree_total date pre t h.1 (fun q hq => ho q (by simp [hq]))
    obtain ⟨r', h2⟩ := treeList_total date pre l h.2 (fun q hq => ho q (by simp [hq]))
    exact ⟨r :: r', by rw [restoreTreeList, h1]; show (restoreTreeList date l >>= _) = _; rw [h2]; rfl⟩
end

theorem openAll_total (coord : List ArchData) (l : List Nat) (h : ∀ n ∈ l, n < coord.length) : ∃ r, openAll coord l = .ok r := by
  induction l with
  | nil => exact ⟨[], rfl⟩
  | cons n l ih =>
    obtain ⟨r, hr⟩ := ih (fun k hk => h k (by simp [hk]))
    have := h n (by simp)
    exact ⟨_, by rw [openAll, List.getElem?_eq_getElem this]; show (openAll coord l >>= _) = _; rw [hr]; rfl⟩

/-- The root directory of the database has no record. -/
def Database.RootBare (db : Database) : Prop := db.files.mods = [] ∧ db.files.chgs = []

theorem add_rootBare {db db' : Database} {a : ArchIn} {chemin basename : Bytes} (h0 : db.RootBare) (h : db.addArchive a chemin basename = .ok db') :
    db'.RootBare := by
  unfold Database.addArchive at h
  by_cases hb : basename = []
  · rw [if_pos hb] at h; cases h
  rw [if_neg hb] at h
  obtain ⟨t1, hu, h⟩ := bind_ok h
  obtain ⟨t2, hf, h⟩ := bind_ok h
  injection h with h
  unfold Database.RootBare at h0 ⊢
  cases hfiles : db.files with
  | node name dir m c l =>
  rw [hfiles] at hu h0
  unfold updateRoot at hu
  obtain ⟨l1, hu, ht⟩ := bind_ok hu
  injection ht with ht
  subst ht
  by_cases hc : db.coord.length > 1
  · rw [if_pos hc] at hf
    unfold finalizeRoot at hf
    obtain ⟨l2, -, ht⟩ := bind_ok hf
    injection ht with ht
    subst ht
    subst h
    exact h0
  · rw [if_neg hc] at hf
    injection hf with ht
    subst ht
    subst h
    exact h0

theorem addAll_rootBare (l : List (ArchIn × Bytes × Bytes)) : ∀ (db db' : Database), db.RootBare → db.addAll l = .ok db' → db'.RootBare := by
  induction l with
  | nil => intro db db' h0 h; injection h with h; subst h; exact h0
  | cons q l ih =>
    obtain ⟨a, chemin, basename⟩ := q
    intro db db' h0 h
    rw [Database.addAll] at h
    obtain ⟨db1, h1, h2⟩ := bind_ok h
    exact ih db1 db' (add_rootBare h0 h1) h2

theorem recordsAt_at (p : List Bytes) : ∀ (t : DTree) (x : Bytes), recordsAt t.sub x p = match t.at_ (x :: p) with
    | none => ([], [])
    | some u => (u.mods, u.chgs) := by
  induction p with
  | nil =>
    intro t x
    rw [recordsAt, dat_cons]
    cases t.sub.find? (fun c => c.name = x) <;> rfl
  | cons y p ih =>
    intro t x
    rw [recordsAt, dat_cons]
    cases h : t.sub.find? (fun c => c.name = x) with
    | none => rfl
    | some c => exact ih c y

theorem nodes_at (q : List Bytes) : ∀ (pre : List Bytes) (t u : DTree), t.at_ q = some u → ∃ k, (k, u.mods, u.chgs) ∈ t.nodes pre := by
  induction q with
  | nil =>
    intro pre t u h
    simp only [DTree.at_, Option.some.injEq] at h
    subst h
    obtain ⟨n, d, m, c, s⟩ := t
    exact ⟨pre ++ [n], by rw [DTree.nodes]; exact List.mem_cons_self⟩
  | cons x q ih =>
    intro pre t u h
    obtain ⟨n, d, m, c, s⟩ := t
    rw [dat_cons] at h
    simp only [DTree.sub] at h
    cases hf : s.find? (fun c => c.name = x) with
    | none => rw [hf] at h; cases h
    | some c' =>
      rw [hf] at h
      obtain ⟨k, hk⟩ := ih (pre ++ [n]) c' u h
      exact ⟨k, by rw [DTree.nodes]; exact List.mem_cons_of_mem _ (mem_nodesList _ _ _ (List.mem_of_find?_eq_some hf) _ hk)⟩

theorem each_at {P : Bool → SMap StatP → SMap Stat → Prop} (q : List Bytes) : ∀ (t u : DTree), t.Each P → t.at_ q = some u → u.Each P := by
  induction q with
  | nil => intro t u h h1; simp only [DTree.at_, Option.some.injEq] at h1; subst h1; exact h
  | cons x q ih =>
    intro t u h h1
    obtain ⟨n, d, m, c, s⟩ := t
    rw [dat_cons] at h1
    simp only [DTree.sub] at h1
    cases hf : s.find? (fun c => c.name = x) with
    | none => rw [hf] at h1; cases h1
    | some c' =>
      rw [hf] at h1
      rw [DTree.Each] at h
      exact ih c' u (each_mem s h.2.2.2 c' (List.mem_of_find?_eq_some hf)) h1

/-- **C54**: archives are added one after the other to a new database and the dates are then in order; restoring the latest state through the API under an absolute
directory works, and every path reached by the mask gets what the archives, restored all of them in order, give it: the same data and attributes, the same EA;
a path which is not there any more, or never was, gets nothing unless something below it does. -/
theorem C54_complete (v : Nat) (c : CryptoAlgo) (l : List (ArchIn × Bytes × Bytes)) (db : Database) (ignore : Bool) (root : PathT) (mask : PathT → Bool)
    (hd : ∀ q ∈ l, (q.1.root.map Entry.label).Nodup ∧ Entry.DistinctL q.1.root) (h : (newDatabase v c).addAll l = .ok db)
    (ho : db.checkOrder ignore = .ok true) (hnames : ∀ q u, db.files.at_ q = some u → ∀ x ∈ q, x ≠ pDot ∧ x ≠ pDotDot) (hr : root.Absolute) :
    ∃ r, db.restoreApi root mask ⟨0, .s⟩ = .ok r ∧ ∀ x p, Reached mask root (x :: p) → Unrevived 1 x p (l.map Prod.fst) (.unseen, none) →
      match (toldFrom 1 x p (l.map Prod.fst) (.unseen, none)).1 with
      | .ok d a => replay (restoredFrom StatP.present (recordsAt db.files.sub x p).1 r (root.below (x :: p))) = .ok d a ∧
          (∀ d' a', toldEaFrom 1 x p (l.map Prod.fst) .unseen = .ok d' a' →
            replay (restoredFrom Stat.present (recordsAt db.files.sub x p).2 r (root.below (x :: p))) = .ok d' a') ∧
          (toldEaFrom 1 x p (l.map Prod.fst) .unseen = .gone →
            replay (restoredFrom Stat.present (recordsAt db.files.sub x p).2 r (root.below (x :: p))) = .gone)
      | _ => ∀ t, db.files.at_ (x :: p) = some t → t.sub = [] → ∀ n, n ≠ 0 → r.covers n (root.below (x :: p)) = .ok false := by
  obtain ⟨hok, hlen, -⟩ := history_from l _ db (C53_new v c) hd h
  obtain ⟨rb1, rb2⟩ := addAll_rootBare l _ db ⟨rfl, rfl⟩ h
  obtain ⟨b, hb, hb'⟩ := C29_check_order db ignore
  rw [ho] at hb; injection hb with hb; subst hb
  have hord : ∀ n ∈ db.files.nodes [], NodeOrdered n := hb'.mp rfl
  obtain ⟨k1, k2, k3, k4⟩ := hok
  have hEach : db.files.Each (fun _ m e => RecordsOk (db.coord.length - 1) false m e) := by
    cases hf : db.files with
    | node name dir m e s =>
      rw [hf] at k2 k3 k4 rb1 rb2
      simp only [DTree.isDir, DTree.sub, DTree.mods, DTree.chgs] at k2 k3 k4 rb1 rb2
      subst k2 rb1 rb2
      rw [DTree.Each]
      refine ⟨⟨List.Pairwise.nil, List.Pairwise.nil, by simp, by simp, by simp, rfl, by simp⟩, by simp, k3, ?_⟩
      exact eachL_mono (fun d m c hm => ⟨hm.sorted, hm.sortedEa, hm.keys, hm.keysEa, hm.etats, hm.delta, by simp⟩) s k4
  have htidy : db.files.Tidy := ⟨each_mono (fun _ _ _ _ => trivial) _ hEach, hnames⟩
  have hnode : ∀ q u, db.files.at_ q = some u → RecordsOk (db.coord.length - 1) false u.mods u.chgs ∧
      DatesOrdered StatP.date u.mods ∧ DatesOrdered Stat.date u.chgs := by
    intro q u hq
    have h1 := each_at q _ u hEach hq
    obtain ⟨n, d, m, e, s⟩ := u
    rw [DTree.Each] at h1
    obtain ⟨k, hk⟩ := nodes_at q [] _ _ hq
    exact ⟨h1.1, hord _ hk⟩
  -- the restoration works
  have htree : ∃ tree, restoreTree ⟨0, .s⟩ db.files = .ok tree := by
    cases hf : db.files with
    | node name dir m e s =>
      rw [hf] at k4 rb1 rb2 hord
      simp only [DTree.sub, DTree.mods, DTree.chgs] at k4 rb1 rb2
      subst rb1 rb2
      rw [DTree.nodes] at hord
      obtain ⟨ch, hch⟩ := treeList_total ⟨0, .s⟩ ([] ++ [name]) s k4 (fun q hq => hord q (List.mem_cons_of_mem _ hq))
      have hown : ownLocations ⟨0, .s⟩ [] [] = .ok [] := rfl
      exact ⟨_, by rw [restoreTree, hown]; show (restoreTreeList ⟨0, .s⟩ s >>= _) = _; rw [hch]; rfl⟩
  obtain ⟨tree, htree⟩ := htree
  obtain ⟨-, s2, s3⟩ := restoreTree_spec ⟨0, .s⟩ db.files htidy tree htree
  obtain ⟨-, -, l2, l3⟩ := getLoc_spec mask tree root hr s2
  have hbound : ∀ n ∈ (tree.getLocations mask root).1.locs, n < db.coord.length := by
    intro n hn
    obtain ⟨u', e1, e2⟩ := (l3 []).2 tree rfl (reached_nil _ _)
    simp only [RTree.at_, Option.some.injEq] at e1
    subst e1
    obtain ⟨q, w, f1, -, f3⟩ := (e2 n).mp hn
    cases hq : db.files.at_ q with
    | none => rw [(s3 q).1 hq] at f1; cases f1
    | some u =>
      obtain ⟨w', g1, g2⟩ := (s3 q).2 u hq
      rw [f1] at g1; injection g1 with g1; subst g1
      obtain ⟨r1, r2, r3⟩ := hnode q u hq
      obtain ⟨locs, o1, o2⟩ := own_total ⟨0, .s⟩ r1 r3
      have := o2 n (((own_spec ⟨0, .s⟩ u locs o1).2 n).mpr ((g2 n).mp f3))
      have : 0 < db.coord.length := List.length_pos_iff.mpr k1
      omega
  obtain ⟨arch, harch⟩ := openAll_total db.coord _ hbound
  have hres : db.restoreApi root mask ⟨0, .s⟩ = .ok ⟨arch, maskDbCovers root mask (tree.getLocations mask root).1⟩ := by
    unfold Database.restoreApi
    rw [htree]
    show (openAll db.coord _ >>= _) = _
    rw [harch]; rfl
  refine ⟨_, hres, fun x p hre hu => ?_⟩
  generalize (⟨arch, maskDbCovers root mask (tree.getLocations mask root).1⟩ : DbRestore) = r at hres ⊢
  obtain ⟨hdat, hea⟩ := C53_history v c l db hd h x p
  have hdat1 := congrArg Prod.fst hdat
  dsimp only at hdat1
  have h0 : recordsAt (newDatabase v c).files.sub x p = ([], []) := recordsAt_empty x p
  have hnr : NoRevival (states StatP.present (recordsAt db.files.sub x p).1) := by
    refine noRevival_from l _ db (C53_new v c) hd h x p ?_ ?_
    · rw [h0]; exact noRevival_nil
    · rw [h0]; exact hu
  rw [← hdat1, ← hea]
  rw [recordsAt_at] at hnr ⊢
  cases ht : db.files.at_ (x :: p) with
  | none =>
    have hrep : replay (states StatP.present ([] : SMap StatP)) = .unseen := rfl
    dsimp only
    rw [hrep]
    intro t h1; cases h1
  | some t =>
    rw [ht] at hnr
    dsimp only at hnr ⊢
    obtain ⟨r1, r2, r3⟩ := hnode _ t ht
    obtain ⟨c1, c2⟩ := C54_restored db root mask ⟨0, .s⟩ r htidy hr hres (x :: p) (by simp) t ht hre r2 (by rw [history_all]; exact hnr) r3
      (fun q hq => by have := (r1.keys q hq).1; omega) (fun q hq => ⟨by have := (r1.keysEa q hq).1; omega, r1.etats q hq⟩)
      (fun q _ _ => Or.inl rfl) (fun q _ _ => Or.inl rfl)
    rw [history_all] at c1 c2
    rw [history_all] at c1
    cases hs : replay (states StatP.present t.mods) with
    | ok d a => exact c1 d a hs
    | _ =>
      rw [hs] at c2
      dsimp only
      intro t' ht' hsub n hn
      injection ht' with ht'
      subst ht'
      exact c2 (by simp) hsub n hn

end Dar
