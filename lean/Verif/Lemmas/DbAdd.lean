import Verif.Spec.DbAdd
import Verif.Lemmas.Database
import Verif.Props.Lookup
import Mathlib.Tactic.Ring
import Mathlib.Tactic.Tauto
import Mathlib.Data.List.Induction
/- Lemmas on the addition of an archive to a database. -/
namespace Dar

/-! ### Children -/

theorem eachL_iff (P : Bool → SMap StatP → SMap Stat → Prop) (l : List DTree) : DTree.EachL P l ↔ ∀ t ∈ l, t.Each P := by
  induction l with
  | nil => simp [DTree.EachL]
  | cons t l ih => simp [DTree.EachL, ih]

theorem distinctE_iff (l : List Entry) : Entry.DistinctL l ↔ ∀ e ∈ l, e.Distinct := by
  induction l with
  | nil => simp [Entry.DistinctL]
  | cons t l ih => simp [Entry.DistinctL, ih]

theorem readChild_mem {l : List DTree} {n : Bytes} {c : DTree} (h : readChild l n = some c) : c ∈ l ∧ c.name = n := by
  unfold readChild at h
  exact ⟨List.mem_of_find?_eq_some h, by simpa using List.find?_some h⟩

theorem readChild_none {l : List DTree} {n : Bytes} : readChild l n = none ↔ n ∉ l.map DTree.name := by
  unfold readChild
  simp only [List.find?_eq_none, decide_eq_true_eq, List.mem_map, not_exists, not_and]

theorem readChild_of_mem {l : List DTree} (hn : (l.map DTree.name).Nodup) {c : DTree} (hc : c ∈ l) : readChild l c.name = some c := by
  induction l with
  | nil => cases hc
  | cons t l ih =>
    simp only [List.map_cons, List.nodup_cons] at hn
    unfold readChild
    rcases List.mem_cons.mp hc with rfl | hc
    · simp
    · rw [List.find?_cons_of_neg (by simp only [decide_eq_true_eq]; intro he; exact hn.1 (he ▸ List.mem_map_of_mem hc))]
      exact ih hn.2 hc

theorem readChild_cons (t : DTree) (l : List DTree) (m : Bytes) : readChild (t :: l) m = if t.name = m then some t else readChild l m := by
  unfold readChild
  by_cases h : t.name = m
  · rw [if_pos h, List.find?_cons_of_pos (by simpa using h)]
  · rw [if_neg h, List.find?_cons_of_neg (by simpa using h)]

theorem readChild_append (l l' : List DTree) (m : Bytes) : readChild (l ++ l') m = (readChild l m).or (readChild l' m) := by
  unfold readChild
  rw [List.find?_append]

theorem readChild_repl (l : List DTree) (n : Bytes) (t c : DTree) (h : readChild l n = some c) (ht : t.name = n) (m : Bytes) :
    readChild (replChild l n t) m = if m = n then some t else readChild l m := by
  induction l with
  | nil => cases h
  | cons x l ih =>
    rw [readChild_cons] at h
    by_cases hx : x.name = n
    · rw [replChild, if_pos hx, readChild_cons, readChild_cons, ht, hx]
      by_cases hm : m = n
      · rw [if_pos hm.symm, if_pos hm]
      · rw [if_neg (fun h => hm h.symm), if_neg hm, if_neg (fun h => hm h.symm)]
    · rw [if_neg hx] at h
      rw [replChild, if_neg hx, readChild_cons, readChild_cons, ih h]
      by_cases hm : m = n
      · simp only [if_pos hm]; rw [if_neg (fun h => hx (by rw [h, hm]))]
      · simp only [if_neg hm]

theorem repl_names (l : List DTree) (n : Bytes) (t : DTree) (ht : t.name = n) : (replChild l n t).map DTree.name = l.map DTree.name := by
  induction l with
  | nil => rfl
  | cons x l ih =>
    by_cases hx : x.name = n
    · rw [replChild, if_pos hx]; simp [ht, hx]
    · rw [replChild, if_neg hx]; simp [ih]

theorem repl_mem (l : List DTree) (n : Bytes) (t x : DTree) (h : x ∈ replChild l n t) : x = t ∨ x ∈ l := by
  induction l with
  | nil => cases h
  | cons y l ih =>
    by_cases hx : y.name = n
    · rw [replChild, if_pos hx] at h
      rcases List.mem_cons.mp h with h | h
      · exact .inl h
      · exact .inr (List.mem_cons_of_mem _ h)
    · rw [replChild, if_neg hx] at h
      rcases List.mem_cons.mp h with h | h
      · exact .inr (h ▸ List.mem_cons_self)
      · exact (ih h).imp id (List.mem_cons_of_mem _)

theorem drop_sublist (l : List DTree) (n : Bytes) : (dropChild l n).Sublist l := by
  induction l with
  | nil => exact List.Sublist.refl _
  | cons y l ih =>
    rw [dropChild]
    split_ifs
    · exact List.sublist_cons_self _ _
    · exact ih.cons_cons _

theorem drop_not (l : List DTree) (n : Bytes) (hn : (l.map DTree.name).Nodup) : n ∉ (dropChild l n).map DTree.name := by
  induction l with
  | nil => simp [dropChild]
  | cons y l ih =>
    simp only [List.map_cons, List.nodup_cons] at hn
    rw [dropChild]
    split_ifs with h
    · rw [← h]; exact hn.1
    · simp only [List.map_cons, List.mem_cons, not_or]
      exact ⟨fun h' => h h'.symm, ih hn.2⟩

theorem readChild_drop (l : List DTree) (n m : Bytes) (hm : m ≠ n) : readChild (dropChild l n) m = readChild l m := by
  induction l with
  | nil => rfl
  | cons y l ih =>
    rw [dropChild]
    split_ifs with h
    · rw [readChild_cons, if_neg (fun h' => hm (by rw [← h', h]))]
    · rw [readChild_cons, readChild_cons, ih]

theorem foundOrNew_name (n : Bytes) (d : Bool) (c : Option DTree) (h : ∀ t, c = some t → t.name = n) : (foundOrNew n d c).name = n := by
  cases c with
  | none => rfl
  | some t =>
    obtain ⟨n', d', m, e, s⟩ := t
    have := h _ rfl
    simp only [foundOrNew]
    split_ifs <;> exact this

theorem storeChild_spec (l : List DTree) (n : Bytes) (d : Bool) (t : DTree) (ht : t.name = n) (hn : (l.map DTree.name).Nodup) :
    ((storeChild l n d (readChild l n) t).map DTree.name).Nodup ∧
    (∀ x ∈ storeChild l n d (readChild l n) t, x = t ∨ x ∈ l) ∧
    ∀ m, readChild (storeChild l n d (readChild l n) t) m = if m = n then some t else readChild l m := by
  have app : ∀ l0 : List DTree, (l0.map DTree.name).Nodup → n ∉ l0.map DTree.name → (∀ x ∈ l0, x ∈ l) → (∀ m, m ≠ n → readChild l0 m = readChild l m) →
      ((l0 ++ [t]).map DTree.name).Nodup ∧ (∀ x ∈ l0 ++ [t], x = t ∨ x ∈ l) ∧ ∀ m, readChild (l0 ++ [t]) m = if m = n then some t else readChild l m := by
    intro l0 h1 h2 h3 h4
    refine ⟨?_, ?_, fun m => ?_⟩
    · rw [List.map_append, List.nodup_append]
      refine ⟨h1, by simp, ?_⟩
      intro a ha b hb
      simp only [List.map_cons, List.map_nil, List.mem_singleton] at hb
      subst hb
      rw [ht]
      rintro rfl
      exact h2 ha
    · intro x hx
      rcases List.mem_append.mp hx with hx | hx
      · exact .inr (h3 x hx)
      · exact .inl (by simpa using hx)
    · rw [readChild_append]
      by_cases hm : m = n
      · subst hm
        rw [readChild_none.mpr h2, if_pos rfl]
        simp [readChild, ht]
      · rw [if_neg hm, h4 m hm]
        simp only [readChild, List.find?_cons, List.find?_nil, ht, decide_eq_false (fun h => hm (h : n = m).symm)]
        cases l.find? (fun c => decide (c.name = m)) <;> rfl
  cases hc : readChild l n with
  | none =>
    simp only [storeChild]
    exact app l hn (readChild_none.mp hc) (fun x hx => hx) (fun _ _ => rfl)
  | some c =>
    simp only [storeChild]
    split_ifs with hd
    · exact app _ ((drop_sublist l n).map _ |>.nodup hn) (drop_not l n hn) (fun x hx => (drop_sublist l n).mem hx) (fun m hm => readChild_drop l n m hm)
    · exact ⟨by rw [repl_names l n t ht]; exact hn, fun x hx => repl_mem l n t x hx, fun m => readChild_repl l n t c hc ht m⟩

/-! ### Records of a path -/

theorem recordsAt_nil (l : List DTree) (n : Bytes) :
    recordsAt l n [] = match readChild l n with | none => ([], []) | some t => (t.mods, t.chgs) := rfl
theorem recordsAt_cons (l : List DTree) (n x : Bytes) (p : List Bytes) :
    recordsAt l n (x :: p) = match readChild l n with | none => ([], []) | some t => recordsAt t.sub x p := rfl

theorem recordsAt_empty (n : Bytes) (p : List Bytes) : recordsAt [] n p = ([], []) := by
  cases p <;> rfl

/-- `recordsAt` depends on the child of that name only -/
theorem recordsAt_child {l l' : List DTree} {n : Bytes} (h : readChild l n = readChild l' n) (p : List Bytes) : recordsAt l n p = recordsAt l' n p := by
  cases p with
  | nil => rw [recordsAt_nil, recordsAt_nil, h]
  | cons x p => rw [recordsAt_cons, recordsAt_cons, h]

theorem recordsAt_each {P : Bool → SMap StatP → SMap Stat → Prop} : ∀ (p : List Bytes) (l : List DTree) (n : Bytes), DTree.EachL P l →
    recordsAt l n p = ([], []) ∨ ∃ d, P d (recordsAt l n p).1 (recordsAt l n p).2 := by
  intro p
  induction p with
  | nil =>
    intro l n h
    rw [recordsAt_nil]
    cases hc : readChild l n with
    | none => exact .inl rfl
    | some t =>
      right
      have := (eachL_iff P l).mp h t (readChild_mem hc).1
      obtain ⟨n', d, m, c, s⟩ := t
      exact ⟨d, this.1⟩
  | cons x p ih =>
    intro l n h
    rw [recordsAt_cons]
    cases hc : readChild l n with
    | none => exact .inl rfl
    | some t =>
      have := (eachL_iff P l).mp h t (readChild_mem hc).1
      obtain ⟨n', d, m, c, s⟩ := t
      exact ih s x this.2.2.2

/-! ### First phase: data_tree_update_with -/

/-- what the first phase does to the records of one path -/
def Updated (arch : Nat) (told : Told) (r r' : SMap StatP × SMap Stat) : Prop :=
  match told with
  | .nothing => r' = r
  | .deleted d => addGoneMaps arch d r.1 r.2 = .ok r'
  | .inode i st f => addInodeMaps arch i st f r.1 r.2 = .ok r'

/-- What is kept during the first phase. -/
structure Mid (arch : Nat) (dir : Bool) (mods : SMap StatP) (chgs : SMap Stat) : Prop extends RecordsOk arch dir mods chgs where
  noAbs : ∀ s, mods.get arch = some s → s.present ≠ .absent
  noAbsEa : ∀ s, chgs.get arch = some s → s.present ≠ .absent

theorem bind_ok {α β : Type} {x : Res α} {f : α → Res β} {b : β} (h : (x >>= f) = .ok b) : ∃ a, x = .ok a ∧ f a = .ok b := by
  cases x with
  | error e => cases h
  | ok a => exact ⟨a, rfl, h⟩

theorem put_ne_nil {α : Type} (m : SMap α) (k : Nat) (v : α) : SMap.put m k v ≠ [] := by
  cases m with
  | nil => simp [SMap.put]
  | cons x m => obtain ⟨a, b⟩ := x; simp only [SMap.put]; split_ifs <;> simp

theorem checkDelta_idem' (m m' : SMap StatP) (p : Option Crc) (h : checkDelta p m = .ok m') : checkDelta p m' = .ok m' := by
  rw [← checkDelta_of_core, checkDelta_core m p m' h, checkDelta_of_core]; exact h

theorem setData_facts {m m' : SMap StatP} {n : Nat} {s : StatP} (h : setData m n s = .ok m') (hs : m.Sorted) :
    m'.Sorted ∧ m' ≠ [] ∧ checkDelta none m' = .ok m' ∧ (∀ q ∈ m', q.1 = n ∨ ∃ q0 ∈ m, q0.1 = q.1) ∧
    (∀ x, m'.get n = some x → x.core = s.core) := by
  have hcore := checkDelta_core _ _ _ h
  refine ⟨checkDelta_sorted _ _ _ h (sorted_put _ _ _ hs), ?_, checkDelta_idem' _ _ _ h, ?_, ?_⟩
  · intro hm
    rw [hm, coreMap_put] at hcore
    exact put_ne_nil _ _ _ hcore.symm
  · intro q hq
    have : (q.1, q.2.core) ∈ coreMap m' := List.mem_map_of_mem (f := fun p : Nat × StatP => (p.1, p.2.core)) hq
    rw [hcore] at this
    obtain ⟨q1, h1, h2⟩ := List.mem_map.mp this
    have h2' : q1.1 = q.1 := by injection h2
    rcases mem_put _ _ _ _ h1 with h3 | h3
    · left; rw [← h2', h3]
    · exact .inr ⟨q1, h3, h2'⟩
  · intro x hx
    have := checkDelta_get _ _ _ h n
    rw [hx, get_put, if_pos rfl] at this
    simpa using this

theorem core_there {s s' : StatP} (h : s.core = s'.core) (ha : s'.present ≠ .absent) : s.present ≠ .absent := by
  intro h'
  apply ha
  have := congrArg StatP.present h
  simp only [StatP.core, h', Etat.norm] at this
  revert this
  cases s'.present <;> simp

theorem mid_set {arch : Nat} {d : Bool} {m m' : SMap StatP} {c : SMap Stat} {s : StatP} (hm : Mid arch d m c) (ha : 0 < arch) (hs : s.present ≠ .absent)
    (h : setData m arch s = .ok m') (d' : Bool) : Mid arch d' m' c := by
  obtain ⟨h1, h2, h3, h4, h5⟩ := setData_facts h hm.sorted
  refine ⟨⟨h1, hm.sortedEa, ?_, hm.keysEa, hm.etats, h3, fun _ => h2⟩, ?_, hm.noAbsEa⟩
  · intro q hq
    rcases h4 q hq with h | ⟨q0, h0, h⟩
    · exact ⟨h ▸ ha, h.le⟩
    · rw [← h]; exact hm.keys q0 h0
  · intro x hx
    exact core_there (h5 x hx) hs

theorem mid_setEa {arch : Nat} {d : Bool} {m : SMap StatP} {c : SMap Stat} {s : Stat} (hm : Mid arch d m c) (ha : 0 < arch)
    (hs : s.present = .saved ∨ s.present = .present ∨ s.present = .removed) : Mid arch d m (setEA c arch s) := by
  refine ⟨⟨hm.sorted, sorted_put _ _ _ hm.sortedEa, hm.keys, ?_, ?_, hm.delta, hm.dirs⟩, hm.noAbs, ?_⟩
  · intro q hq
    rcases mem_put _ _ _ _ hq with rfl | hq
    · exact ⟨ha, Nat.le_refl _⟩
    · exact hm.keysEa q hq
  · intro q hq
    rcases mem_put _ _ _ _ hq with rfl | hq
    · rcases hs with h | h | h <;> simp [h]
    · exact hm.etats q hq
  · intro x hx
    unfold setEA at hx
    rw [get_put, if_pos rfl] at hx
    injection hx with hx; subst hx
    rcases hs with h | h | h <;> simp [h]

theorem mid_removeEa {arch : Nat} {d : Bool} {m : SMap StatP} {c c' : SMap Stat} {date : DateT} (hm : Mid arch d m c) (ha : 0 < arch)
    (h : removeEaRecord arch date c = .ok c') : Mid arch d m c' := by
  unfold removeEaRecord at h
  obtain ⟨⟨n, r⟩, _, h2⟩ := bind_ok h
  injection h2 with h2
  subst h2
  split_ifs
  · exact mid_setEa hm ha (by simp)
  · exact hm

theorem dataRecord_spec {date : DateT} {st : SavedStatus} {f : Option FileB} {r : StatP} (h : dataRecord date st f = .ok r) :
    r = ⟨date, etatOf st, baseOf st f, resultOf st f⟩ := by
  cases st with
  | saved => injection h with h; exact h.symm
  | fake => injection h with h; exact h.symm
  | delta =>
    cases f with
    | none => cases h
    | some f =>
      obtain ⟨x, h1, h2⟩ := bind_ok h
      injection h2 with h2; subst h2
      simp only [etatOf, baseOf, resultOf, Option.bind_some]
      unfold FileB.patchResult at h1
      cases hsig : f.sig with
      | none => rw [hsig] at h1; simp at h1; subst h1; rfl
      | some d =>
        rw [hsig] at h1
        cases hr : d.result with
        | none => simp [hr] at h1
        | some c => simp [hr] at h1; subst h1; simp [hr]
  | inodeOnly =>
    cases f with
    | none => injection h with h; exact h.symm
    | some f =>
      obtain ⟨x, h1, h2⟩ := bind_ok h
      injection h2 with h2; subst h2
      simp only [etatOf, baseOf, resultOf, Option.bind_some]
      unfold FileB.anyCrc at h1
      cases hch : f.check with
      | some c => rw [hch] at h1; injection h1 with h1; subst h1; rfl
      | none =>
        rw [hch] at h1
        simp only [FileB.patchResult] at h1
        cases hsig : f.sig with
        | none => rw [hsig] at h1; simp at h1; subst h1; rfl
        | some d =>
          rw [hsig] at h1
          cases hr : d.result with
          | none => simp [hr] at h1
          | some c => simp [hr] at h1; subst h1; simp [hr]
  | notSaved =>
    cases f with
    | none => injection h with h; exact h.symm
    | some f =>
      obtain ⟨x, h1, h2⟩ := bind_ok h
      injection h2 with h2; subst h2
      simp only [etatOf, baseOf, resultOf, Option.bind_some]
      unfold FileB.anyCrc at h1
      cases hch : f.check with
      | some c => rw [hch] at h1; injection h1 with h1; subst h1; rfl
      | none =>
        rw [hch] at h1
        simp only [FileB.patchResult] at h1
        cases hsig : f.sig with
        | none => rw [hsig] at h1; simp at h1; subst h1; rfl
        | some d =>
          rw [hsig] at h1
          cases hr : d.result with
          | none => simp [hr] at h1
          | some c => simp [hr] at h1; subst h1; simp [hr]

theorem etatOf_ne (st : SavedStatus) : etatOf st ≠ .absent ∧ etatOf st ≠ .removed ∧ etatOf st ≠ .patchUnusable := by cases st <;> simp [etatOf]

/-- a directory keeps the nodes it has while its records are being set: no requirement on `dir` -/
theorem mid_any {arch : Nat} {m : SMap StatP} {c : SMap Stat} (h : Mid arch false m c) (hm : m ≠ []) (d : Bool) : Mid arch d m c :=
  ⟨⟨h.sorted, h.sortedEa, h.keys, h.keysEa, h.etats, h.delta, fun _ => hm⟩, h.noAbs, h.noAbsEa⟩
theorem mid_false {arch : Nat} {d : Bool} {m : SMap StatP} {c : SMap Stat} (h : Mid arch d m c) : Mid arch false m c :=
  ⟨⟨h.sorted, h.sortedEa, h.keys, h.keysEa, h.etats, h.delta, fun h => by cases h⟩, h.noAbs, h.noAbsEa⟩
theorem mid_nil (arch : Nat) : Mid arch false [] [] :=
  ⟨⟨by simp [SMap.Sorted], by simp [SMap.Sorted], by simp, by simp, by simp, rfl, by simp⟩, by simp [SMap.get], by simp [SMap.get]⟩

theorem mid_inode {arch : Nat} {m : SMap StatP} {c : SMap Stat} {i : InodeB} {st : SavedStatus} {f : Option FileB} {r : SMap StatP × SMap Stat}
    (hm : Mid arch false m c) (ha : 0 < arch) (h : addInodeMaps arch i st f m c = .ok r) (d : Bool) : Mid arch d r.1 r.2 := by
  unfold addInodeMaps at h
  obtain ⟨date, _, h⟩ := bind_ok h
  obtain ⟨s, h1, h⟩ := bind_ok h
  obtain ⟨m', h2, h⟩ := bind_ok h
  obtain ⟨c', h3, h⟩ := bind_ok h
  injection h with h; subst h
  have hs := dataRecord_spec h1
  have hM : Mid arch d m' c := mid_set hm ha (by rw [hs]; exact (etatOf_ne st).1) h2 d
  dsimp only
  unfold addEa at h3
  cases hea : i.ea with
  | none => rw [hea] at h3; injection h3 with h3; subst h3; exact hM
  | part => rw [hea] at h3; injection h3 with h3; subst h3; exact mid_setEa hM ha (by simp)
  | fake => rw [hea] at h3; injection h3 with h3; subst h3; exact mid_setEa hM ha (by simp)
  | full => rw [hea] at h3; injection h3 with h3; subst h3; exact mid_setEa hM ha (by simp)
  | removed => rw [hea] at h3; exact mid_removeEa hM ha h3

theorem mid_gone {arch : Nat} {d : Bool} {m : SMap StatP} {c : SMap Stat} {date : DateT} {r : SMap StatP × SMap Stat}
    (hm : Mid arch d m c) (ha : 0 < arch) (h : addGoneMaps arch date m c = .ok r) : Mid arch d r.1 r.2 := by
  unfold addGoneMaps at h
  obtain ⟨⟨set, lk⟩, _, h⟩ := bind_ok h
  obtain ⟨m', h2, h⟩ := bind_ok h
  obtain ⟨c', h3, h⟩ := bind_ok h
  injection h with h; subst h
  have hM : Mid arch d m' c := by
    cases hb : lk.mayBeThere with
    | true => rw [hb, if_pos rfl] at h2; exact mid_set hm ha (by simp) h2 d
    | false => rw [hb, if_neg (by simp)] at h2; injection h2 with h2; subst h2; exact hm
  exact mid_removeEa hM ha h3

/-- the child found or made, while it is not yet complete -/
theorem found_mid {arch : Nat} {l : List DTree} (hl : DTree.EachL (Mid arch) l) (n : Bytes) (dir : Bool) :
    ∃ d m c s, foundOrNew n dir (readChild l n) = .node n d m c s ∧ Mid arch false m c ∧ (dir = true → d = true) ∧
      (dir = false → Mid arch d m c) ∧ (d = false → s = []) ∧ (s.map DTree.name).Nodup ∧ DTree.EachL (Mid arch) s ∧
      recordsAt l n [] = (m, c) ∧ ∀ x p, recordsAt l n (x :: p) = recordsAt s x p := by
  cases hc : readChild l n with
  | none =>
    refine ⟨dir, [], [], [], rfl, mid_nil arch, id, ?_, fun _ => rfl, by simp, trivial, by rw [recordsAt_nil, hc], fun x p => by
      rw [recordsAt_cons, hc, recordsAt_empty]⟩
    rintro rfl; exact mid_nil arch
  | some t =>
    have ht := (eachL_iff _ l).mp hl t (readChild_mem hc).1
    have hname := (readChild_mem hc).2
    obtain ⟨n', d, m, c, s⟩ := t
    change n' = n at hname
    subst hname
    obtain ⟨h1, h2, h3, h4⟩ := ht
    simp only [foundOrNew]
    split_ifs with hd
    · have hs := h2 hd.1
      subst hs
      exact ⟨true, m, c, [], rfl, mid_false h1, fun _ => rfl, (fun h => by rw [hd.2] at h; cases h), (fun h => by cases h), by simp, trivial,
        by rw [recordsAt_nil, hc]; rfl, fun x p => by rw [recordsAt_cons, hc]; rfl⟩
    · refine ⟨d, m, c, s, rfl, mid_false h1, ?_, fun _ => h1, h2, h3, h4, by rw [recordsAt_nil, hc]; rfl, fun x p => by rw [recordsAt_cons, hc]; rfl⟩
      intro hdir
      cases d with
      | true => rfl
      | false => exact absurd ⟨rfl, hdir⟩ hd

/-- One child replaced: the new list. -/
theorem store_mid {arch : Nat} {l : List DTree} (hl : DTree.EachL (Mid arch) l) (hn : (l.map DTree.name).Nodup) (n : Bytes) (dir : Bool) (t : DTree)
    (ht : t.name = n) (hte : t.Each (Mid arch)) :
    ((storeChild l n dir (readChild l n) t).map DTree.name).Nodup ∧ DTree.EachL (Mid arch) (storeChild l n dir (readChild l n) t) ∧
    (∀ x p, x ≠ n → recordsAt (storeChild l n dir (readChild l n) t) x p = recordsAt l x p) ∧
    recordsAt (storeChild l n dir (readChild l n) t) n [] = (t.mods, t.chgs) ∧
    ∀ x p, recordsAt (storeChild l n dir (readChild l n) t) n (x :: p) = recordsAt t.sub x p := by
  obtain ⟨h1, h2, h3⟩ := storeChild_spec l n dir t ht hn
  refine ⟨h1, ?_, ?_, ?_, ?_⟩
  · rw [eachL_iff] at hl ⊢
    intro x hx
    rcases h2 x hx with rfl | hx
    · exact hte
    · exact hl x hx
  · intro x p hx
    exact recordsAt_child (by rw [h3, if_neg hx]) p
  · rw [recordsAt_nil, h3, if_pos rfl]
  · intro x p
    rw [recordsAt_cons, h3, if_pos rfl]

/-- what the first phase does for one entry -/
def UpdEntry (arch : Nat) (stars : Nat → Star) (e : Entry) (l l' : List DTree) : Prop :=
  (l'.map DTree.name).Nodup ∧ DTree.EachL (Mid arch) l' ∧ (∀ x p, x ≠ e.label → recordsAt l' x p = recordsAt l x p) ∧
  ∀ p, Updated arch (Told.of stars (entryAt [e] e.label p)) (recordsAt l e.label p) (recordsAt l' e.label p)
def UpdList (arch : Nat) (stars : Nat → Star) (es : List Entry) (l l' : List DTree) : Prop :=
  (l'.map DTree.name).Nodup ∧ DTree.EachL (Mid arch) l' ∧
  ∀ x p, Updated arch (Told.of stars (entryAt es x p)) (recordsAt l x p) (recordsAt l' x p)

theorem entryAt_single (e : Entry) (p : List Bytes) : entryAt [e] e.label p =
    match p with | [] => some e | x :: p => match e with | .dir _ _ _ c => entryAt c x p | _ => none := by
  cases p with
  | nil => simp [entryAt]
  | cons x p =>
    simp only [entryAt]
    rw [List.find?_cons_of_pos (by simp)]
    cases e <;> rfl

theorem entryAt_head (e : Entry) (es : List Entry) (x : Bytes) (p : List Bytes) :
    entryAt (e :: es) x p = if e.label = x then entryAt [e] e.label p else entryAt es x p := by
  by_cases h : e.label = x
  · rw [if_pos h]
    cases p with
    | nil => simp only [entryAt]; rw [List.find?_cons_of_pos (by simpa using h), List.find?_cons_of_pos (by simp)]
    | cons y p => simp only [entryAt]; rw [List.find?_cons_of_pos (by simpa using h), List.find?_cons_of_pos (by simp)]
  · rw [if_neg h]
    cases p with
    | nil => simp only [entryAt]; rw [List.find?_cons_of_neg (by simpa using h)]
    | cons y p => simp only [entryAt]; rw [List.find?_cons_of_neg (by simpa using h)]

theorem entryAt_absent (es : List Entry) (x : Bytes) (p : List Bytes) (h : x ∉ es.map Entry.label) : entryAt es x p = none := by
  have : es.find? (fun e => decide (e.label = x)) = none := by
    simp only [List.find?_eq_none, decide_eq_true_eq]
    intro e he h'
    exact h (h' ▸ List.mem_map_of_mem he)
  cases p with
  | nil => simp only [entryAt, this]
  | cons y p => simp only [entryAt, this]

/-- the case of an inode that is not a directory -/
theorem upd_inode {arch : Nat} (ha : 0 < arch) (stars : Nat → Star) (e : Entry) (i : InodeB) (st : SavedStatus) (f : Option FileB)
    {l l' : List DTree} (hl : DTree.EachL (Mid arch) l) (hn : (l.map DTree.name).Nodup)
    (he : Told.of stars (some e) = .inode i st f) (hdir : ∀ n s i c, e ≠ .dir n s i c)
    (h : (do let t ← addNode arch i st f .ok (foundOrNew e.label false (readChild l e.label))
             .ok (storeChild l e.label false (readChild l e.label) t)) = Except.ok l') : UpdEntry arch stars e l l' := by
  obtain ⟨t, h1, h2⟩ := bind_ok h
  injection h2 with h2; subst h2
  obtain ⟨d, m, c, s, hf, hM, -, hM', hs0, hsn, hse, hr0, hr⟩ := found_mid hl e.label false
  rw [hf] at h1
  unfold addNode at h1
  obtain ⟨r, hmaps, h1⟩ := bind_ok h1
  obtain ⟨m', c'⟩ := r
  simp only [bind, Except.bind] at h1
  injection h1 with h1; subst h1
  have hM2 := mid_inode hM ha hmaps d
  obtain ⟨k1, k2, k3, k4, k5⟩ := store_mid hl hn e.label false (.node e.label d m' c' s) rfl ⟨hM2, hs0, hsn, hse⟩
  refine ⟨k1, k2, fun x p hx => k3 x p hx, fun p => ?_⟩
  cases p with
  | nil =>
    rw [entryAt_single, hr0, k4]
    dsimp only
    rw [he]
    exact hmaps
  | cons x p =>
    have : entryAt [e] e.label (x :: p) = none := by
      rw [entryAt_single]
      cases e with
      | dir n s i c => exact absurd rfl (hdir n s i c)
      | _ => rfl
    rw [this, hr, k5]
    rfl

mutual
theorem upd_entry {arch : Nat} (ha : 0 < arch) (stars : Nat → Star) (e : Entry) {l l' : List DTree} (hl : DTree.EachL (Mid arch) l)
    (hn : (l.map DTree.name).Nodup) (hd : e.Distinct) (h : dbUpdate arch stars e l = .ok l') : UpdEntry arch stars e l l' :=
  match e with
  | .node n => upd_inode ha stars (.node n) n.inode n.status n.special.asFile hl hn rfl (by simp) (by rw [dbUpdate] at h; exact h)
  | .mirage name k => upd_inode ha stars (.mirage name k) (stars k).node.inode (stars k).node.status (stars k).node.special.asFile hl hn rfl (by simp)
      (by rw [dbUpdate] at h; exact h)
  | .ignored name => by
    rw [dbUpdate] at h
    injection h with h; subst h
    refine ⟨hn, hl, fun _ _ _ => rfl, fun p => ?_⟩
    cases p with
    | nil => rw [entryAt_single]; rfl
    | cons x p => rw [entryAt_single]; rfl
  | .detruit name sg date => by
    rw [dbUpdate] at h
    by_cases hdate : date.isNull = true
    · rw [if_pos hdate] at h
      injection h with h; subst h
      have hv : date.val = 0 := by simpa [DateT.isNull] using hdate
      refine ⟨hn, hl, fun _ _ _ => rfl, fun p => ?_⟩
      cases p with
      | nil => rw [entryAt_single]; simp only [Told.of, hv, if_true]; rfl
      | cons x p => rw [entryAt_single]; rfl
    · rw [if_neg hdate] at h
      obtain ⟨t, h1, h2⟩ := bind_ok h
      injection h2 with h2; subst h2
      obtain ⟨d, m, c, s, hf, -, -, hM', hs0, hsn, hse, hr0, hr⟩ := found_mid hl name false
      have hM := hM' rfl
      rw [hf] at h1
      unfold addGone at h1
      obtain ⟨r, hmaps, h1⟩ := bind_ok h1
      obtain ⟨m', c'⟩ := r
      injection h1 with h1; subst h1
      have hM2 := mid_gone hM ha hmaps
      obtain ⟨k1, k2, k3, k4, k5⟩ := store_mid hl hn name false (.node name d m' c' s) rfl ⟨hM2, hs0, hsn, hse⟩
      refine ⟨k1, k2, fun x p hx => k3 x p hx, fun p => ?_⟩
      have hv : ¬ date.val = 0 := by simpa [DateT.isNull] using hdate
      cases p with
      | nil =>
        rw [entryAt_single]
        simp only [Told.of, hv, if_false]
        show addGoneMaps _ _ (recordsAt l name []).1 (recordsAt l name []).2 = .ok (recordsAt _ name [])
        rw [hr0, k4]
        exact hmaps
      | cons x p =>
        rw [entryAt_single]
        show recordsAt _ name (x :: p) = recordsAt l name (x :: p)
        rw [hr, k5]; rfl
  | .dir name st i ch => by
    rw [dbUpdate] at h
    obtain ⟨t, h1, h2⟩ := bind_ok h
    injection h2 with h2; subst h2
    obtain ⟨d, m, c, s, hf, hM, hdt, -, hs0, hsn, hse, hr0, hr⟩ := found_mid hl name true
    rw [hf] at h1
    unfold addNode at h1
    obtain ⟨r, hmaps, h1⟩ := bind_ok h1
    obtain ⟨m', c'⟩ := r
    obtain ⟨s', hs', h1⟩ := bind_ok h1
    injection h1 with h1; subst h1
    have hM2 := mid_inode hM ha hmaps d
    rw [Entry.Distinct] at hd
    obtain ⟨u1, u2, u3⟩ := upd_list ha stars ch hse hsn hd.1 hd.2 hs'
    obtain ⟨k1, k2, k3, k4, k5⟩ := store_mid hl hn name true (.node name d m' c' s') rfl
      ⟨hM2, (fun h => by rw [hdt rfl] at h; cases h), u1, u2⟩
    refine ⟨k1, k2, fun x p hx => k3 x p hx, fun p => ?_⟩
    cases p with
    | nil =>
      rw [entryAt_single]
      show addInodeMaps _ _ _ _ (recordsAt l name []).1 (recordsAt l name []).2 = .ok (recordsAt _ name [])
      rw [hr0, k4]
      exact hmaps
    | cons x p =>
      rw [entryAt_single]
      dsimp only [Entry.label]
      rw [hr, k5]
      exact u3 x p
theorem upd_list {arch : Nat} (ha : 0 < arch) (stars : Nat → Star) (es : List Entry) {l l' : List DTree} (hl : DTree.EachL (Mid arch) l)
    (hn : (l.map DTree.name).Nodup) (hne : (es.map Entry.label).Nodup) (hd : Entry.DistinctL es) (h : dbUpdateList arch stars es l = .ok l') :
    UpdList arch stars es l l' :=
  match es with
  | [] => by
    rw [dbUpdateList] at h
    injection h with h; subst h
    refine ⟨hn, hl, fun x p => ?_⟩
    rw [entryAt_absent [] x p (by simp)]
    rfl
  | e :: es => by
    rw [dbUpdateList] at h
    obtain ⟨l1, h1, h2⟩ := bind_ok h
    rw [Entry.DistinctL] at hd
    simp only [List.map_cons, List.nodup_cons] at hne
    obtain ⟨u1, u2, u3, u4⟩ := upd_entry ha stars e hl hn hd.1 h1
    obtain ⟨v1, v2, v3⟩ := upd_list ha stars es u2 u1 hne.2 hd.2 h2
    refine ⟨v1, v2, fun x p => ?_⟩
    have := v3 x p
    rw [entryAt_head]
    by_cases hx : e.label = x
    · rw [if_pos hx]
      subst hx
      rw [entryAt_absent es e.label p hne.1] at this
      have this : recordsAt l' e.label p = recordsAt l1 e.label p := this
      rw [this]
      exact u4 p
    · rw [if_neg hx, ← u3 x p (fun h => hx h.symm)]
      exact this
end

end Dar
