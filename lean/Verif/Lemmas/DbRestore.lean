import Verif.Spec.DbRestore
import Verif.Lemmas.DbTree
import Verif.Lemmas.Path
/- Lemmas for the restoration from a database (C54). -/
namespace Dar

/-! ### Sets -/

theorem mem_setInsert (n k : Nat) (l : List Nat) : k ∈ setInsert n l ↔ k = n ∨ k ∈ l := by
  induction l with
  | nil => simp [setInsert]
  | cons a l ih =>
    unfold setInsert
    by_cases h1 : n < a
    · rw [if_pos h1]; simp
    · rw [if_neg h1]
      by_cases h2 : n = a
      · rw [if_pos h2]; subst h2; simp
      · rw [if_neg h2, List.mem_cons, ih, List.mem_cons]
        constructor
        · rintro (h | h | h)
          · exact Or.inr (Or.inl h)
          · exact Or.inl h
          · exact Or.inr (Or.inr h)
        · rintro (h | h | h)
          · exact Or.inr (Or.inl h)
          · exact Or.inl h
          · exact Or.inr (Or.inr h)

theorem sorted_setInsert (n : Nat) (l : List Nat) (h : l.Pairwise (· < ·)) : (setInsert n l).Pairwise (· < ·) := by
  induction l with
  | nil => simp [setInsert]
  | cons a l ih =>
    obtain ⟨h0, h1⟩ := List.pairwise_cons.mp h
    unfold setInsert
    by_cases c1 : n < a
    · rw [if_pos c1]
      refine List.pairwise_cons.mpr ⟨fun b hb => ?_, h⟩
      rcases List.mem_cons.mp hb with rfl | hb
      · exact c1
      · exact Nat.lt_trans c1 (h0 b hb)
    · rw [if_neg c1]
      by_cases c2 : n = a
      · rw [if_pos c2]; exact h
      · rw [if_neg c2]
        refine List.pairwise_cons.mpr ⟨fun b hb => ?_, ih h1⟩
        rcases (mem_setInsert n b l).mp hb with rfl | hb
        · omega
        · exact h0 b hb

theorem mem_setUnion (l : List Nat) : ∀ (s : List Nat) (k : Nat), k ∈ setUnion s l ↔ k ∈ s ∨ k ∈ l := by
  induction l with
  | nil => intro s k; simp [setUnion]
  | cons a l ih =>
    intro s k
    show k ∈ setUnion (setInsert a s) l ↔ _
    rw [ih, mem_setInsert, List.mem_cons]
    tauto

theorem sorted_setUnion (l : List Nat) : ∀ (s : List Nat), s.Pairwise (· < ·) → (setUnion s l).Pairwise (· < ·) := by
  induction l with
  | nil => intro s h; exact h
  | cons a l ih => intro s h; exact ih _ (sorted_setInsert a s h)

theorem mem_toSet (l : List Nat) (k : Nat) : k ∈ toSet l ↔ k ∈ l := by
  have := mem_setUnion l [] k
  simpa [setUnion, toSet] using this
theorem sorted_toSet (l : List Nat) : (toSet l).Pairwise (· < ·) := sorted_setUnion l [] List.Pairwise.nil

/-! ### Paths -/

theorem addName_below (cur : PathT) (h : cur.Absolute) (x : Bytes) (hx : x ≠ pDot ∧ x ≠ pDotDot) : cur.addName x = cur.below [x] := by
  obtain ⟨h1, h2⟩ := h
  unfold PathT.addName PathT.below
  congr 1
  have hall : ∀ d ∈ cur.dirs ++ [x], d ≠ pDot ∧ d ≠ pDotDot := by
    intro d hd
    rcases List.mem_append.mp hd with hd | hd
    · exact h2 d hd
    · rw [List.mem_singleton] at hd; subst hd; exact hx
  unfold pathReduce
  have hf : (cur.dirs ++ [x]).filter (· ≠ pDot) = cur.dirs ++ [x] := by
    rw [List.filter_eq_self]; intro d hd; simpa using (hall d hd).1
  rw [hf, h1]
  have := reduceLoop_push (cur.dirs ++ [x]) [] [] (fun d hd => (hall d hd).2)
  rw [List.append_nil, List.append_nil] at this
  simp only [Bool.false_eq_true, false_and, if_false]
  rw [this]
  unfold reduceLoop
  cases hr : (cur.dirs ++ [x]).reverse with
  | nil => simp at hr
  | cons a b => rw [← hr, List.reverse_reverse]

theorem below_absolute (cur : PathT) (h : cur.Absolute) (q : List Bytes) (hq : ∀ x ∈ q, x ≠ pDot ∧ x ≠ pDotDot) : (cur.below q).Absolute := by
  refine ⟨h.1, fun d hd => ?_⟩
  rcases List.mem_append.mp hd with hd | hd
  · exact h.2 d hd
  · exact hq d hd

theorem popped_below (cur : PathT) (h : cur.relative = false) (x : Bytes) : (cur.below [x]).popped = cur := by
  unfold PathT.popped PathT.pop PathT.below
  simp [h]
  cases cur; simp_all

theorem below_below (cur : PathT) (p q : List Bytes) : (cur.below p).below q = cur.below (p ++ q) := by
  unfold PathT.below; simp

theorem reached_nil (mask : PathT → Bool) (cur : PathT) : Reached mask cur [] := by
  intro k h1 h2; simp at h2; omega

theorem reached_cons (mask : PathT → Bool) (cur : PathT) (x : Bytes) (q : List Bytes) :
    Reached mask cur (x :: q) ↔ mask (cur.below [x]) = true ∧ Reached mask (cur.below [x]) q := by
  constructor
  · intro h
    refine ⟨h 1 (by omega) (by simp), fun k h1 h2 => ?_⟩
    have := h (k + 1) (by omega) (by simp; omega)
    rw [below_below]
    exact this
  · rintro ⟨h1, h2⟩ k hk hl
    cases k with
    | zero => omega
    | succ k =>
      by_cases h0 : k = 0
      · subst h0; simpa using h1
      · have := h2 k (by omega) (by simp at hl; omega)
        rw [below_below] at this
        exact this

/-! ### get_locations -/

def RTree.at_ (t : RTree) : List Bytes → Option RTree
  | [] => some t
  | x :: p => match t.children.find? (fun c => c.name = x) with
    | none => none
    | some c => c.at_ p

theorem rat_cons (t : RTree) (x : Bytes) (p : List Bytes) : t.at_ (x :: p) = match t.children.find? (fun c => c.name = x) with
    | none => none
    | some c => c.at_ p := rfl

theorem rlookup_eq (p : List Bytes) : ∀ t : RTree, t.lookup p = match t.at_ p with | none => .error .bug | some u => .ok u := by
  induction p with
  | nil => intro t; rfl
  | cons x p ih =>
    intro t
    unfold RTree.lookup RTree.at_
    cases h : t.children.find? (fun c => c.name = x) with
    | none => rfl
    | some c => exact ih c

mutual
/-- names distinct and proper, sets increasing -/
def RTree.Good (t : RTree) : Prop :=
  match t with
  | .node _ locs ch => locs.Pairwise (· < ·) ∧ (ch.map RTree.name).Nodup ∧ RTree.GoodL ch
def RTree.GoodL (l : List RTree) : Prop :=
  match l with
  | [] => True
  | t :: l => (t.name ≠ pDot ∧ t.name ≠ pDotDot) ∧ t.Good ∧ RTree.GoodL l
end

theorem find_of_mem {α β : Type} [DecidableEq β] (f : α → β) (l : List α) (h : (l.map f).Nodup) (t : α) (ht : t ∈ l) :
    l.find? (fun c => decide (f c = f t)) = some t := by
  induction l with
  | nil => cases ht
  | cons a l ih =>
    rw [List.map_cons, List.nodup_cons] at h
    rw [List.find?_cons]
    rcases List.mem_cons.mp ht with rfl | ht
    · simp
    · have : f a ≠ f t := fun he => h.1 (by rw [he]; exact List.mem_map_of_mem ht)
      simp only [this, decide_false]
      exact ih h.2 ht

/-- What getLocations does to a tree. -/
def LocSpec (mask : PathT → Bool) (cur : PathT) (t t' : RTree) : Prop :=
  t'.name = t.name ∧ t'.locs.Pairwise (· < ·) ∧ ∀ q,
    (t.at_ q = none → t'.at_ q = none) ∧
    ∀ u, t.at_ q = some u → Reached mask cur q → ∃ u', t'.at_ q = some u' ∧
      ∀ n, n ∈ u'.locs ↔ ∃ r v, u.at_ r = some v ∧ Reached mask (cur.below q) r ∧ n ∈ v.locs

theorem below_nil (cur : PathT) : cur.below [] = cur := by
  unfold PathT.below; simp

def Fwd (mask : PathT → Bool) (cur : PathT) (l l' : List RTree) : Prop :=
  ∀ x, (l.find? (fun c => c.name = x) = none → l'.find? (fun c => c.name = x) = none) ∧
    ∀ t, l.find? (fun c => c.name = x) = some t → ∃ t', l'.find? (fun c => c.name = x) = some t' ∧
      (mask (cur.below [x]) = true → LocSpec mask (cur.below [x]) t t') ∧ (mask (cur.below [x]) = false → t' = t)

mutual
theorem getLoc_spec (mask : PathT → Bool) (t : RTree) (cur : PathT) (hc : cur.Absolute) (hg : t.Good) :
    (t.getLocations mask cur).2 = cur ∧ LocSpec mask cur t (t.getLocations mask cur).1 := by
  match t with
  | .node name locs ch =>
    rw [RTree.Good] at hg
    obtain ⟨g1, g2, g3⟩ := hg
    obtain ⟨l', ret', e, e0, e1, e2⟩ := getLocList_spec mask ch locs cur hc g1 g3
    have hx : (RTree.node name locs ch).getLocations mask cur = (.node name ret' l', cur) := by
      rw [RTree.getLocations, e]
    rw [hx]
    refine ⟨rfl, rfl, e0, fun q => ?_⟩
    cases q with
    | nil =>
      refine ⟨fun h => by simp [RTree.at_] at h, ?_⟩
      rintro u hu -
      simp only [RTree.at_, Option.some.injEq] at hu
      subst hu
      refine ⟨_, rfl, fun n => ?_⟩
      show n ∈ ret' ↔ _
      rw [below_nil, e1 n]
      constructor
      · rintro (h | ⟨t, ht, hm, r, v, h1, h2, h3⟩)
        · exact ⟨[], _, rfl, reached_nil _ _, h⟩
        · refine ⟨t.name :: r, v, ?_, (reached_cons _ _ _ _).mpr ⟨hm, h2⟩, h3⟩
          unfold RTree.at_
          have : (RTree.node name locs ch).children.find? (fun c => c.name = t.name) = some t := find_of_mem RTree.name ch g2 t ht
          rw [this]; exact h1
      · rintro ⟨r, v, h1, h2, h3⟩
        cases r with
        | nil => simp only [RTree.at_, Option.some.injEq] at h1; subst h1; exact Or.inl h3
        | cons x r =>
          unfold RTree.at_ at h1
          cases hf : (RTree.node name locs ch).children.find? (fun c => c.name = x) with
          | none => rw [hf] at h1; cases h1
          | some c =>
            rw [hf] at h1
            obtain ⟨h4, h5⟩ := (reached_cons _ _ _ _).mp h2
            have hxn : c.name = x := by simpa using List.find?_some hf
            subst hxn
            exact Or.inr ⟨c, List.mem_of_find?_eq_some hf, h4, r, v, h1, h5, h3⟩
    | cons x q =>
      obtain ⟨f1, f2⟩ := e2 x
      refine ⟨?_, ?_⟩
      · intro h
        unfold RTree.at_ at h ⊢
        cases hf : (RTree.node name locs ch).children.find? (fun c => c.name = x) with
        | none =>
          have : (RTree.node name ret' l').children.find? (fun c => c.name = x) = none := f1 hf
          rw [this]
        | some c =>
          rw [hf] at h
          obtain ⟨t', h1, h2, h3⟩ := f2 c hf
          have : (RTree.node name ret' l').children.find? (fun c => c.name = x) = some t' := h1
          rw [this]
          cases hm : mask (cur.below [x]) with
          | true => exact ((h2 hm).2.2 q).1 h
          | false => rw [h3 hm]; exact h
      · intro u hu hr
        rw [rat_cons] at hu
        rw [rat_cons]
        obtain ⟨h4, h5⟩ := (reached_cons _ _ _ _).mp hr
        cases hf : (RTree.node name locs ch).children.find? (fun c => c.name = x) with
        | none => rw [hf] at hu; cases hu
        | some c =>
          rw [hf] at hu
          obtain ⟨t', h1, h2, -⟩ := f2 c hf
          have : (RTree.node name ret' l').children.find? (fun c => c.name = x) = some t' := h1
          rw [this]
          dsimp only
          have := ((h2 h4).2.2 q).2 u hu h5
          rw [below_below] at this
          exact this
theorem getLocList_spec (mask : PathT → Bool) (l : List RTree) (ret : List Nat) (cur : PathT) (hc : cur.Absolute) (hr : ret.Pairwise (· < ·))
    (hg : RTree.GoodL l) :
    ∃ l' ret', RTree.getLocationsList mask l ret cur = (l', ret', cur) ∧ ret'.Pairwise (· < ·) ∧
      (∀ n, n ∈ ret' ↔ n ∈ ret ∨ ∃ t ∈ l, mask (cur.below [t.name]) = true ∧ ∃ r v, t.at_ r = some v ∧ Reached mask (cur.below [t.name]) r ∧ n ∈ v.locs) ∧
      Fwd mask cur l l' := by
  match l with
  | [] =>
    refine ⟨[], ret, rfl, hr, by simp, fun x => ⟨fun h => h, fun t h => by cases h⟩⟩
  | t :: l =>
    rw [RTree.GoodL] at hg
    obtain ⟨g1, g2, g3⟩ := hg
    have hb : (cur.below [t.name]).Absolute := below_absolute cur hc _ (fun x hx => by rw [List.mem_singleton] at hx; subst hx; exact g1)
    obtain ⟨s1, s2⟩ := getLoc_spec mask t (cur.below [t.name]) hb g2
    obtain ⟨t', c', hgl⟩ : ∃ t' c', t.getLocations mask (cur.below [t.name]) = (t', c') := ⟨_, _, rfl⟩
    rw [hgl] at s1 s2
    simp only at s1 s2
    subst s1
    rw [RTree.getLocationsList]
    simp only [addName_below cur hc t.name g1, hgl]
    by_cases hm : mask (cur.below [t.name]) = true
    · obtain ⟨l', ret', e, e0, e1, e2⟩ := getLocList_spec mask l (setUnion ret t'.locs) cur hc (sorted_setUnion _ _ hr) g3
      simp only [if_pos hm, popped_below cur hc.1, e]
      refine ⟨_, _, rfl, e0, fun n => ?_, fun x => ?_⟩
      · rw [e1 n, mem_setUnion]
        have hk := (s2.2.2 []).2 t rfl (reached_nil _ _)
        obtain ⟨u', hu', hk⟩ := hk
        simp only [RTree.at_, Option.some.injEq] at hu'
        subst hu'
        rw [hk n, below_nil]
        constructor
        · rintro ((h | h) | ⟨u, hu, h⟩)
          · exact Or.inl h
          · exact Or.inr ⟨t, by simp, hm, h⟩
          · exact Or.inr ⟨u, by simp [hu], h⟩
        · rintro (h | ⟨u, hu, h⟩)
          · exact Or.inl (Or.inl h)
          · rcases List.mem_cons.mp hu with rfl | hu
            · exact Or.inl (Or.inr h.2)
            · exact Or.inr ⟨u, hu, h⟩
      · rw [List.find?_cons, List.find?_cons, s2.1]
        by_cases hx : t.name = x
        · subst hx
          simp only [decide_true]
          refine ⟨fun h => by simp at h, fun u hu => ?_⟩
          simp only [Option.some.injEq] at hu
          subst hu
          exact ⟨t', rfl, fun _ => s2, fun h => by rw [hm] at h; cases h⟩
        · simp only [hx, decide_false]
          exact e2 x
    · obtain ⟨l', ret', e, e0, e1, e2⟩ := getLocList_spec mask l ret cur hc hr g3
      simp only [if_neg hm, popped_below cur hc.1, e]
      refine ⟨_, _, rfl, e0, fun n => ?_, fun x => ?_⟩
      · rw [e1 n]
        constructor
        · rintro (h | ⟨u, hu, h⟩)
          · exact Or.inl h
          · exact Or.inr ⟨u, by simp [hu], h⟩
        · rintro (h | ⟨u, hu, h⟩)
          · exact Or.inl h
          · rcases List.mem_cons.mp hu with rfl | hu
            · exact absurd h.1 hm
            · exact Or.inr ⟨u, hu, h⟩
      · rw [List.find?_cons, List.find?_cons]
        by_cases hx : t.name = x
        · subst hx
          simp only [decide_true]
          refine ⟨fun h => by simp at h, fun u hu => ?_⟩
          simp only [Option.some.injEq] at hu
          subst hu
          exact ⟨t, rfl, fun h => absurd h hm, fun _ => rfl⟩
        · simp only [hx, decide_false]
          exact e2 x
end

/-! ### The tree of the archives needed -/

theorem dat_cons (t : DTree) (x : Bytes) (p : List Bytes) : t.at_ (x :: p) = match t.sub.find? (fun c => c.name = x) with
    | none => none
    | some c => c.at_ p := rfl

theorem each_mem {P : Bool → SMap StatP → SMap Stat → Prop} (l : List DTree) (h : DTree.EachL P l) (c : DTree) (hc : c ∈ l) : DTree.Each P c := by
  induction l with
  | nil => cases hc
  | cons a l ih =>
    rw [DTree.EachL] at h
    rcases List.mem_cons.mp hc with rfl | hc
    · exact h.1
    · exact ih h.2 hc

theorem tidy_child (t : DTree) (h : t.Tidy) (c : DTree) (hc : c ∈ t.sub) : c.Tidy ∧ c.name ≠ pDot ∧ c.name ≠ pDotDot := by
  obtain ⟨h1, h2⟩ := h
  obtain ⟨name, dir, m, e, s⟩ := t
  simp only [DTree.sub] at hc
  rw [DTree.Each] at h1
  obtain ⟨-, -, h3, h4⟩ := h1
  have hf : s.find? (fun d => d.name = c.name) = some c := find_of_mem DTree.name s h3 c hc
  refine ⟨⟨each_mem s h4 c hc, fun q u hq x hx => ?_⟩, ?_⟩
  · refine h2 (c.name :: q) u ?_ x (by simp [hx])
    rw [dat_cons]; simp only [DTree.sub, hf]; exact hq
  · refine h2 [c.name] c ?_ c.name (by simp)
    rw [dat_cons]; simp only [DTree.sub, hf]; rfl

theorem own_spec (date : DateT) (t : DTree) (locs : List Nat) (h : ownLocations date t.mods t.chgs = .ok locs) :
    locs.Pairwise (· < ·) ∧ ∀ n, n ∈ locs ↔ Needed date t n := by
  unfold ownLocations at h
  obtain ⟨⟨set, rd⟩, hd, h⟩ := bind_ok h
  obtain ⟨⟨ea, re⟩, he, h⟩ := bind_ok h
  simp only [Except.ok.injEq] at h
  unfold Needed
  by_cases c1 : rd = .foundPresent
  · subst c1
    rw [if_pos rfl] at h
    by_cases c2 : re = .foundPresent ∨ re = .foundRemoved
    · rw [if_pos c2] at h
      subst h
      refine ⟨sorted_setInsert _ _ (sorted_toSet _), fun n => ?_⟩
      rw [mem_setInsert, mem_toSet]
      constructor
      · rintro (h | h)
        · subst h; exact ⟨set, hd, Or.inr ⟨re, he, c2⟩⟩
        · exact ⟨set, hd, Or.inl h⟩
      · rintro ⟨set', h1, h2⟩
        rw [hd] at h1
        simp only [Except.ok.injEq, Prod.mk.injEq, and_true] at h1
        subst h1
        rcases h2 with h2 | ⟨r, h2, -⟩
        · exact Or.inr h2
        · rw [he] at h2
          simp only [Except.ok.injEq, Prod.mk.injEq] at h2
          exact Or.inl h2.1.symm
    · rw [if_neg c2] at h
      subst h
      refine ⟨sorted_toSet _, fun n => ?_⟩
      rw [mem_toSet]
      constructor
      · exact fun h => ⟨set, hd, Or.inl h⟩
      · rintro ⟨set', h1, h2⟩
        rw [hd] at h1
        simp only [Except.ok.injEq, Prod.mk.injEq, and_true] at h1
        subst h1
        rcases h2 with h2 | ⟨r, h2, h3⟩
        · exact h2
        · rw [he] at h2
          simp only [Except.ok.injEq, Prod.mk.injEq] at h2
          rw [← h2.2] at h3
          exact absurd h3 c2
  · rw [if_neg c1] at h
    subst h
    refine ⟨List.Pairwise.nil, fun n => ⟨fun h => (by cases h), ?_⟩⟩
    rintro ⟨set', h1, -⟩
    rw [hd] at h1
    simp only [Except.ok.injEq, Prod.mk.injEq] at h1
    exact absurd h1.2 c1

/-- What restoreTree gives. -/
def TreeSpec (date : DateT) (t : DTree) (r : RTree) : Prop :=
  r.name = t.name ∧ r.Good ∧ ∀ q, (t.at_ q = none → r.at_ q = none) ∧
    ∀ u, t.at_ q = some u → ∃ v, r.at_ q = some v ∧ ∀ n, n ∈ v.locs ↔ Needed date u n

mutual
theorem restoreTree_spec (date : DateT) (t : DTree) (ht : t.Tidy) (r : RTree) (h : restoreTree date t = .ok r) : TreeSpec date t r := by
  match t with
  | .node name dir mods chgs sub =>
    rw [restoreTree] at h
    obtain ⟨locs, h1, h⟩ := bind_ok h
    obtain ⟨ch, h2, h⟩ := bind_ok h
    simp only [Except.ok.injEq] at h
    have hchild : ∀ c ∈ sub, c.Tidy ∧ c.name ≠ pDot ∧ c.name ≠ pDotDot := fun c hc => tidy_child _ ht c hc
    obtain ⟨o1, o2⟩ := own_spec date (.node name dir mods chgs sub) locs h1
    obtain ⟨l1, l2, l3⟩ := restoreTreeList_spec date sub hchild ch h2
    have hE := ht.1
    rw [DTree.Each] at hE
    obtain ⟨-, hd, hn, -⟩ := hE
    have hch : (if dir then ch else []) = ch := by
      cases dir with
      | true => rfl
      | false =>
        have : sub = [] := hd rfl
        subst this
        cases ch with
        | nil => rfl
        | cons a b => simp at l1
    rw [hch] at h
    subst h
    refine ⟨rfl, ?_, fun q => ?_⟩
    · rw [RTree.Good]; exact ⟨o1, by rw [l1]; exact hn, l2⟩
    · cases q with
      | nil =>
        refine ⟨fun h => by simp [DTree.at_] at h, fun u hu => ?_⟩
        simp only [DTree.at_, Option.some.injEq] at hu
        subst hu
        exact ⟨_, rfl, o2⟩
      | cons x q =>
        rw [dat_cons, rat_cons]
        obtain ⟨m1, m2⟩ := l3 x
        simp only [DTree.sub, RTree.children]
        cases hf : sub.find? (fun c => c.name = x) with
        | none => rw [m1 hf]; exact ⟨fun _ => rfl, fun u hu => by cases hu⟩
        | some c =>
          obtain ⟨c', e1, e2⟩ := m2 c hf
          rw [e1]
          exact e2.2.2 q
theorem restoreTreeList_spec (date : DateT) (l : List DTree) (hl : ∀ c ∈ l, c.Tidy ∧ c.name ≠ pDot ∧ c.name ≠ pDotDot) (r : List RTree)
    (h : restoreTreeList date l = .ok r) :
    r.map RTree.name = l.map DTree.name ∧ RTree.GoodL r ∧ ∀ x, (l.find? (fun c => c.name = x) = none → r.find? (fun c => c.name = x) = none) ∧
      ∀ c, l.find? (fun c => c.name = x) = some c → ∃ c', r.find? (fun c => c.name = x) = some c' ∧ TreeSpec date c c' := by
  match l with
  | [] =>
    rw [restoreTreeList] at h
    simp only [Except.ok.injEq] at h
    subst h
    exact ⟨rfl, by rw [RTree.GoodL]; trivial, fun x => ⟨fun _ => rfl, fun c hc => by cases hc⟩⟩
  | t :: l =>
    rw [restoreTreeList] at h
    obtain ⟨t', h1, h⟩ := bind_ok h
    obtain ⟨l', h2, h⟩ := bind_ok h
    simp only [Except.ok.injEq] at h
    subst h
    have ht := hl t (by simp)
    have s := restoreTree_spec date t ht.1 t' h1
    obtain ⟨l1, l2, l3⟩ := restoreTreeList_spec date l (fun c hc => hl c (by simp [hc])) l' h2
    refine ⟨by simp [s.1, l1], ?_, fun x => ?_⟩
    · rw [RTree.GoodL, s.1]; exact ⟨ht.2, s.2.1, l2⟩
    · rw [List.find?_cons, List.find?_cons, s.1]
      by_cases hx : t.name = x
      · simp only [hx, decide_true]
        refine ⟨fun h => (by cases h), fun c hc => ?_⟩
        simp only [Option.some.injEq] at hc
        subst hc
        exact ⟨t', rfl, s⟩
      · simp only [hx, decide_false]
        exact l3 x
end

/-! ### The filter -/

theorem stripRoot_below (q : List Bytes) (hq : q ≠ []) (und : Bool) : ∀ (d : List Bytes),
    stripRoot d ⟨d ++ q, true, und⟩ = .ok ⟨q, true, und⟩ := by
  intro d
  induction d with
  | nil => rfl
  | cons x d ih =>
    rw [stripRoot]
    have : (⟨x :: d ++ q, true, und⟩ : PathT).popFront = some (x, ⟨d ++ q, true, und⟩) := by
      unfold PathT.popFront
      have : (x :: d ++ q).length > 1 := by
        have := List.length_pos_iff.mpr hq
        simp; omega
      simp only [if_true, this]
      rfl
    rw [this]
    simp only [if_true]
    exact ih

theorem covers_below (root : PathT) (hr : root.Absolute) (mask : PathT → Bool) (tree : RTree) (n : Nat) (hn : n ≠ 0) (q : List Bytes) (hq : q ≠ []) :
    maskDbCovers root mask tree n (root.below q) =
      if mask (root.below q) = false then .ok false
      else match tree.at_ q with
        | none => .error .bug
        | some u => .ok (decide (n ∈ u.locs)) := by
  unfold maskDbCovers
  by_cases hm : mask (root.below q) = false
  · rw [if_pos hm, if_pos hm]
  · rw [if_neg hm, if_neg hm]
    have h1 : ¬ (root.below q).degre < root.degre := by
      unfold PathT.degre PathT.below; simp
    have h2 : ¬ (root.below q).relative ≠ root.relative := by simp [PathT.below]
    have h3 : (root.below q).relative = false := hr.1
    rw [if_neg h1, if_neg h2]
    have hp : (root.below q).popFront = some ([47], ⟨root.dirs ++ q, true, root.undisclosed⟩) := by
      unfold PathT.popFront
      rw [h3]
      have : (root.below q).dirs ≠ [] := by simp [PathT.below, hq]
      simp only [Bool.false_eq_true, if_false, this, ne_eq, not_false_eq_true, if_true]
      rfl
    simp only [h3, hp, Bool.false_eq_true, if_false]
    rw [stripRoot_below q hq]
    show (if n = 0 then _ else RTree.restoreFrom _ _ _) = _
    rw [if_neg hn]
    unfold RTree.restoreFrom
    simp only [Bool.true_eq_false, if_false]
    rw [rlookup_eq]
    cases tree.at_ q <;> rfl

theorem openAll_spec (coord : List ArchData) (l : List Nat) : ∀ r, openAll coord l = .ok r →
    r.map Prod.fst = l ∧ ∀ x ∈ r, coord[x.1]? = some x.2 := by
  induction l with
  | nil => intro r h; simp only [openAll, Except.ok.injEq] at h; subst h; simp
  | cons n l ih =>
    intro r h
    rw [openAll] at h
    cases hc : coord[n]? with
    | none => rw [hc] at h; cases h
    | some a =>
      rw [hc] at h
      obtain ⟨r', h1, h⟩ := bind_ok h
      simp only [Except.ok.injEq] at h
      subst h
      obtain ⟨i1, i2⟩ := ih r' h1
      refine ⟨by simp [i1], fun x hx => ?_⟩
      rcases List.mem_cons.mp hx with rfl | hx
      · exact hc
      · exact i2 x hx

end Dar
