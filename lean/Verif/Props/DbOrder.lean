import Verif.Props.DbAdd
/- Property theorems C29 (check of the order of dates) and C53 (lookups in a database made by additions). -/
namespace Dar

/-! ### check_order -/

theorem datesSorted_spec {α : Type} (date : α → DateT) (m : SMap α) : ∀ last : DateT, ∃ b, datesSorted date m last = .ok b ∧
    (b = true ↔ DatesOrdered date m ∧ ∀ q ∈ m, last.instant ≤ (date q.2).instant) := by
  induction m with
  | nil => intro last; exact ⟨true, rfl, by simp [DatesOrdered]⟩
  | cons x m ih =>
    obtain ⟨n, s⟩ := x
    intro last
    obtain ⟨g, hg, hg'⟩ := C22_ge (date s) last
    obtain ⟨b, hb, hb'⟩ := ih (date s)
    rw [datesSorted, hg]
    cases g with
    | false =>
      refine ⟨false, rfl, iff_of_false (by simp) (fun h => ?_)⟩
      have := hg'.mpr (h.2 (n, s) List.mem_cons_self)
      cases this
    | true =>
      refine ⟨b, by simp only [bind, Except.bind, if_true]; exact hb, ?_⟩
      rw [hb']
      have hge := hg'.mp rfl
      constructor
      · rintro ⟨h1, h2⟩
        refine ⟨List.Pairwise.cons (fun q hq => h2 q hq) h1, fun q hq => ?_⟩
        rcases List.mem_cons.mp hq with rfl | hq
        · exact hge
        · exact le_trans hge (h2 q hq)
      · rintro ⟨h1, -⟩
        obtain ⟨h3, h4⟩ := List.pairwise_cons.mp h1
        exact ⟨h4, fun q hq => h3 q hq⟩

/-- a step of the check: `ok` tells whether nothing had to be warned of -/
def OrderStep (ok : Prop) (warn : Bool) (r : Res (Bool × Bool)) : Prop :=
  ∃ a w, r = .ok (a, w) ∧ (warn = true → ((a = true ∧ w = true) ↔ ok)) ∧ (warn = false → w = false)

theorem checkMap_step {α : Type} (date : α → DateT) (ig : Bool) (m : SMap α) (warn : Bool) :
    OrderStep (DatesOrdered date m) warn (checkMapOrder date ig m warn) := by
  obtain ⟨b, hb, hb'⟩ := datesSorted_spec date m ⟨0, .s⟩
  have hb2 : b = true ↔ DatesOrdered date m := by
    rw [hb']; exact ⟨fun h => h.1, fun h => ⟨h, fun q _ => by simp [DateT.instant]⟩⟩
  unfold checkMapOrder OrderStep
  rw [hb]
  simp only [bind, Except.bind]
  rw [← hb2]
  cases b <;> cases warn <;> cases ig <;> simp

theorem orderStep_seq {p q : Prop} {warn : Bool} {r : Res (Bool × Bool)} {f : Bool → Res (Bool × Bool)} (h : OrderStep p warn r)
    (hf : ∀ w, OrderStep q w (f w)) :
    OrderStep (p ∧ q) warn (r >>= fun x => if x.1 then f x.2 else .ok (x.1, x.2)) := by
  obtain ⟨a, w, rfl, h1, h2⟩ := h
  simp only [bind, Except.bind]
  cases a with
  | false =>
    rw [if_neg (by simp)]
    refine ⟨false, w, rfl, fun hw => ?_, h2⟩
    have := h1 hw
    simp only [Bool.false_eq_true, false_and, false_iff] at this ⊢
    exact fun h => this h.1
  | true =>
    rw [if_pos rfl]
    obtain ⟨a', w', hf1, hf2, hf3⟩ := hf w
    refine ⟨a', w', hf1, fun hw => ?_, fun hw => hf3 (h2 hw)⟩
    have k := h1 hw
    simp only [true_and] at k
    cases w with
    | true => rw [hf2 rfl]; exact ⟨fun h => ⟨k.mp rfl, h⟩, fun h => h.2⟩
    | false =>
      have := hf3 rfl
      subst this
      simp only [Bool.false_eq_true, and_false, false_iff]
      rintro ⟨hp, -⟩
      have := k.mpr hp
      cases this

/-- all the dates of the node are in order -/
def NodeOrdered (n : List Bytes × SMap StatP × SMap Stat) : Prop := DatesOrdered StatP.date n.2.1 ∧ DatesOrdered Stat.date n.2.2

mutual
theorem checkOrder_step (ig : Bool) (pre : List Bytes) (t : DTree) (warn : Bool) :
    OrderStep (∀ n ∈ t.nodes pre, NodeOrdered n) warn (t.checkOrder ig warn) :=
  match t with
  | .node name d m c s => by
    have h1 := orderStep_seq (checkMap_step StatP.date ig m warn) (fun w => checkMap_step Stat.date ig c w)
    have h2 := orderStep_seq h1 (fun w => checkOrder_stepList ig (pre ++ [name]) s w)
    have e : (∀ n ∈ (DTree.node name d m c s).nodes pre, NodeOrdered n) ↔
        ((DatesOrdered StatP.date m ∧ DatesOrdered Stat.date c) ∧ ∀ n ∈ DTree.nodesList (pre ++ [name]) s, NodeOrdered n) := by
      rw [DTree.nodes]
      simp only [List.mem_cons, forall_eq_or_imp]
      exact Iff.rfl
    rw [DTree.checkOrder, e]
    refine Eq.mp ?_ h2
    congr 1
    simp only [bind, Except.bind]
    cases checkMapOrder StatP.date ig m warn with
    | error e => rfl
    | ok r =>
      obtain ⟨a, w⟩ := r
      dsimp only
theorem checkOrder_stepList (ig : Bool) (pre : List Bytes) (l : List DTree) (warn : Bool) :
    OrderStep (∀ n ∈ DTree.nodesList pre l, NodeOrdered n) warn (DTree.checkOrderList ig l warn) :=
  match l with
  | [] => ⟨true, warn, rfl, by simp [DTree.nodesList], id⟩
  | t :: l => by
    have h2 := orderStep_seq (checkOrder_step ig pre t warn) (fun w => checkOrder_stepList ig pre l w)
    have e : (∀ n ∈ DTree.nodesList pre (t :: l), NodeOrdered n) ↔
        ((∀ n ∈ t.nodes pre, NodeOrdered n) ∧ ∀ n ∈ DTree.nodesList pre l, NodeOrdered n) := by
      rw [DTree.nodesList]
      simp only [List.mem_append, or_imp, forall_and]
    rw [DTree.checkOrderList, e]
    exact h2
end

/-- **C29**: database::check_order answers true exactly when, for every file and for its EA, the recorded dates never decrease when the archive number grows,
whatever the user answers. -/
theorem C29_check_order (db : Database) (ignore : Bool) : ∃ b, db.checkOrder ignore = .ok b ∧
    (b = true ↔ ∀ n ∈ db.files.nodes [], DatesOrdered StatP.date n.2.1 ∧ DatesOrdered Stat.date n.2.2) := by
  obtain ⟨a, w, h1, h2, -⟩ := checkOrder_step ignore [] db.files true
  refine ⟨a && w, by unfold Database.checkOrder; rw [h1]; rfl, ?_⟩
  rw [Bool.and_eq_true]
  exact h2 rfl

/-! ### Lookups -/

theorem mem_nodesList (pre : List Bytes) (l : List DTree) (t : DTree) (ht : t ∈ l) (q : List Bytes × SMap StatP × SMap Stat) (h : q ∈ t.nodes pre) :
    q ∈ DTree.nodesList pre l := by
  induction l with
  | nil => cases ht
  | cons x l ih =>
    rw [DTree.nodesList, List.mem_append]
    rcases List.mem_cons.mp ht with rfl | ht
    · exact .inl h
    · exact .inr (ih ht)

theorem recordsAt_nodes (p : List Bytes) : ∀ (pre : List Bytes) (l : List DTree) (x : Bytes),
    recordsAt l x p = ([], []) ∨ ∃ q ∈ DTree.nodesList pre l, q.2 = recordsAt l x p := by
  induction p with
  | nil =>
    intro pre l x
    rw [recordsAt_nil]
    cases hc : readChild l x with
    | none => exact .inl rfl
    | some t =>
      right
      obtain ⟨n, d, m, c, s⟩ := t
      exact ⟨(pre ++ [n], m, c), mem_nodesList pre l _ (readChild_mem hc).1 _ (by rw [DTree.nodes]; exact List.mem_cons_self), rfl⟩
  | cons y p ih =>
    intro pre l x
    rw [recordsAt_cons]
    cases hc : readChild l x with
    | none => exact .inl rfl
    | some t =>
      obtain ⟨n, d, m, c, s⟩ := t
      rcases ih (pre ++ [n]) s y with h | ⟨q, h1, h2⟩
      · exact .inl h
      · exact .inr ⟨q, mem_nodesList pre l _ (readChild_mem hc).1 _ (by rw [DTree.nodes]; exact List.mem_cons_of_mem _ h1), h2⟩

theorem recordsAt_ordered {db : Database} (h : ∀ n ∈ db.files.nodes [], NodeOrdered n) (x : Bytes) (p : List Bytes) :
    DatesOrdered StatP.date (recordsAt db.files.sub x p).1 ∧ DatesOrdered Stat.date (recordsAt db.files.sub x p).2 := by
  cases hf : db.files with
  | node n d m c s =>
  rw [hf] at h
  rcases recordsAt_nodes p [n] s x with h1 | ⟨q, h1, h2⟩
  · rw [DTree.sub, h1]; exact ⟨List.Pairwise.nil, List.Pairwise.nil⟩
  · rw [DTree.sub, ← h2]
    exact h q (by rw [DTree.nodes]; exact List.mem_cons_of_mem _ h1)

theorem history_all {α : Type} (date : α → DateT) (et : α → Etat) (m : SMap α) : history date et m ⟨0, .s⟩ false = states et m := by
  unfold history states
  simp only [Bool.false_and, Bool.not_false, true_or, decide_true]
  rw [List.filter_eq_self.mpr (by simp), List.filter_eq_self.mpr (by simp)]

theorem noRevival_nil : NoRevival [] := by
  intro p n s h
  cases p <;> cases h

theorem noRevival_snoc {h : List (Nat × Etat)} (hh : NoRevival h) (n : Nat) (e : Etat) (he : e = .present → replay h ≠ .gone) : NoRevival (h ++ [(n, e)]) := by
  intro p k s hs
  rcases List.eq_nil_or_concat s with rfl | ⟨s', y, rfl⟩
  · have := List.append_inj' hs rfl
    obtain ⟨h1, h2⟩ := this
    injection h2 with h2
    injection h2 with _ h2
    rw [← h1]; exact he h2
  · rw [List.concat_eq_append, ← List.cons_append, ← List.append_assoc] at hs
    obtain ⟨h1, -⟩ := List.append_inj' hs rfl
    exact hh p k s' h1

/-- No archive tells a file is unchanged when the previous ones tell it is gone. -/
def Unrevived (k : Nat) (x : Bytes) (p : List Bytes) : List ArchIn → FState × Option Crc → Prop
  | [], _ => True
  | a :: l, s => (∀ i f, a.told x p = .inode i .notSaved f → s.1 ≠ .gone) ∧ Unrevived (k + 1) x p l ((a.told x p).next k s)

theorem missing_noRevival {h : SMap StatP} (n : Nat) (del : DateT) (hh : NoRevival (states StatP.present h)) :
    NoRevival (states StatP.present (appended h n (missingRecord del h))) := by
  unfold missingRecord
  split
  · simpa [appended] using hh
  · split_ifs
    · simpa [appended] using hh
    · unfold appended states
      simp only [Option.map_some, Option.toList_some, List.map_append, List.map_cons, List.map_nil]
      exact noRevival_snoc hh _ _ (by simp)

theorem told_noRevival (n : Nat) (del : DateT) (m : SMap StatP) (t : Told) (hh : NoRevival (states StatP.present m))
    (ht : ∀ i f, t = .inode i .notSaved f → replay (states StatP.present m) ≠ .gone) :
    NoRevival (states StatP.present (appended m n ((recordData del m t).map (StatP.checked (chainCrc m))))) := by
  have add : ∀ r : StatP, (r.present = .present → replay (states StatP.present m) ≠ .gone) → NoRevival (states StatP.present (appended m n (some r))) := by
    intro r hr
    unfold appended states
    simp only [Option.map_some, Option.toList_some, List.map_append, List.map_cons, List.map_nil]
    exact noRevival_snoc hh _ _ hr
  cases t with
  | nothing => simp only [recordData]; rw [missing_checked]; exact missing_noRevival n del hh
  | deleted d =>
    simp only [recordData]
    by_cases hf : foundThere m
    · rw [if_pos hf]
      refine add _ ?_
      simp [StatP.checked]
    · rw [if_neg hf, missing_checked]; exact missing_noRevival n del hh
  | inode i st f =>
    simp only [recordData, Option.map_some]
    refine add _ (fun hp => ?_)
    have : st = .notSaved := by
      unfold StatP.checked at hp
      split_ifs at hp
      revert hp
      cases st <;> simp [etatOf]
    subst this
    exact ht i f rfl

theorem noRevival_from (l : List (ArchIn × Bytes × Bytes)) : ∀ (db db' : Database), db.Ok →
    (∀ q ∈ l, (q.1.root.map Entry.label).Nodup ∧ Entry.DistinctL q.1.root) → db.addAll l = .ok db' → ∀ x p,
      NoRevival (states StatP.present (recordsAt db.files.sub x p).1) →
      Unrevived db.coord.length x p (l.map Prod.fst) (replay (states StatP.present (recordsAt db.files.sub x p).1), chainCrc (recordsAt db.files.sub x p).1) →
      NoRevival (states StatP.present (recordsAt db'.files.sub x p).1) := by
  induction l with
  | nil =>
    intro db db' hdb _ h x p h1 _
    injection h with h; subst h
    exact h1
  | cons q l ih =>
    obtain ⟨a, chemin, basename⟩ := q
    intro db db' hdb hd h x p h1 h2
    rw [Database.addAll] at h
    obtain ⟨db1, h3, h4⟩ := bind_ok h
    obtain ⟨d1, d2⟩ := hd _ List.mem_cons_self
    obtain ⟨k1, k2, -, -, -, -, -, k3⟩ := C53_add db db1 a chemin basename hdb d1 d2 h3
    have hlen : db1.coord.length = db.coord.length + 1 := by rw [k2]; simp
    have k := k3 x p
    dsimp only at k
    simp only [List.map_cons, Unrevived] at h2
    refine ih db1 db' k1 (fun q hq => hd q (List.mem_cons_of_mem _ hq)) h4 x p ?_ ?_
    · rw [k]; exact told_noRevival _ _ _ _ h1 h2.1
    · rw [hlen, k]
      dsimp only
      rw [next_told]
      exact h2.2

/-- **C53**: in a database made by adding archives one after the other and whose dates are in order (database::check_order), looking up a path tells what the
archives tell: unknown, removed, not restorable, or restorable from exactly the archives that hold its data and its attributes; and likewise for its EA. -/
theorem C53_lookup (v : Nat) (c : CryptoAlgo) (l : List (ArchIn × Bytes × Bytes)) (db : Database) (ignore : Bool)
    (hd : ∀ q ∈ l, (q.1.root.map Entry.label).Nodup ∧ Entry.DistinctL q.1.root) (h : (newDatabase v c).addAll l = .ok db)
    (ho : db.checkOrder ignore = .ok true) (x : Bytes) (p : List Bytes) (hu : Unrevived 1 x p (l.map Prod.fst) (.unseen, none)) :
    (∃ set r, getData (recordsAt db.files.sub x p).1 ⟨0, .s⟩ false = .ok (set, r) ∧
      match (toldFrom 1 x p (l.map Prod.fst) (.unseen, none)).1 with
      | .unseen => r = .notFound ∧ set = []
      | .gone => r = .foundRemoved
      | .lost => r = .notRestorable
      | .ok d a => r = .foundPresent ∧ ∀ n, n ∈ set ↔ n ∈ d ∨ n = a) ∧
    (∃ n r, getEA (recordsAt db.files.sub x p).2 ⟨0, .s⟩ false = .ok (n, r) ∧
      match toldEaFrom 1 x p (l.map Prod.fst) .unseen with
      | .unseen => r = .notFound
      | .gone => r = .foundRemoved
      | .lost => r = .notRestorable
      | .ok d a => r = .foundPresent ∧ n = a ∧ d = [a]) := by
  obtain ⟨hdat, hea⟩ := C53_history v c l db hd h x p
  obtain ⟨hok, hlen, -⟩ := history_from l _ db (C53_new v c) hd h
  obtain ⟨b, hb, hb'⟩ := C29_check_order db ignore
  rw [ho] at hb; injection hb with hb; subst hb
  obtain ⟨o1, o2⟩ := recordsAt_ordered (hb'.mp rfl) x p
  have h0 : recordsAt (newDatabase v c).files.sub x p = ([], []) := recordsAt_empty x p
  have hnr : NoRevival (states StatP.present (recordsAt db.files.sub x p).1) := by
    refine noRevival_from l _ db (C53_new v c) hd h x p ?_ ?_
    · rw [h0]; exact noRevival_nil
    · rw [h0]; exact hu
  constructor
  · obtain ⟨set, r, g1, g2, g3, g4, g5⟩ := C29_data_partial _ o1 ⟨0, .s⟩ false (by rw [history_all]; exact hnr)
    rw [history_all] at g2 g3 g4 g5
    refine ⟨set, r, g1, ?_⟩
    have e : replay (states StatP.present (recordsAt db.files.sub x p).1) = (toldFrom 1 x p (l.map Prod.fst) (.unseen, none)).1 := congrArg Prod.fst hdat
    rw [e] at g2 g3 g4 g5
    cases ht : (toldFrom 1 x p (l.map Prod.fst) (.unseen, none)).1 with
    | unseen => exact g2 ht
    | gone => exact g3 ht
    | lost => exact g4 ht
    | ok d a => exact ⟨(g5 d a ht).1, (g5 d a ht).2.1⟩
  · have hk : ∀ q ∈ (recordsAt db.files.sub x p).2, q.1 ≠ 0 ∧ EaEtat q.2.present := by
      rcases recordsAt_each p db.files.sub x hok.2.2.2 with hh | ⟨d, hh⟩
      · rw [hh]; simp
      · intro q hq
        exact ⟨by have := (hh.keysEa q hq).1; omega, hh.etats q hq⟩
    obtain ⟨n, r, g1, -, g2⟩ := C29_ea _ o2 hk ⟨0, .s⟩ false
    obtain ⟨g2, g3, g4, g5⟩ := g2 (.inl rfl)
    rw [history_all, hea] at g2 g3 g4 g5
    refine ⟨n, r, g1, ?_⟩
    cases ht : toldEaFrom 1 x p (l.map Prod.fst) .unseen with
    | unseen => exact g2 ht
    | gone => exact (g3 ht).1
    | lost => exact g4 ht
    | ok d a => exact g5 d a ht

end Dar
