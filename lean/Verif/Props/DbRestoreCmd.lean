import Verif.Props.DbRestoreAll
import Verif.Lemmas.Database
/- C54: restoring from a database by calls to dar. -/
namespace Dar

/-- the paths given with -g to dar for the archive `n` -/
def cmdPaths (m : SMap (List (List Bytes))) (n : Nat) : List (List Bytes) := (m.get n).getD []

theorem mem_cmdPush (m : SMap (List (List Bytes))) (f p : List Bytes) (k n : Nat) :
    p ∈ cmdPaths (cmdPush m f k) n ↔ p ∈ cmdPaths m n ∨ (n = k ∧ p = f) := by
  unfold cmdPaths cmdPush
  rw [get_put]
  by_cases h : n = k
  · subst h; simp
  · simp [h]

theorem mem_cmdPushAll (f p : List Bytes) (n : Nat) (l : List Nat) : ∀ m : SMap (List (List Bytes)),
    (p ∈ cmdPaths (l.foldl (fun m n => cmdPush m f n) m) n ↔ p ∈ cmdPaths m n ∨ (n ∈ l ∧ p = f)) ∧
    (m.Sorted → (l.foldl (fun m n => cmdPush m f n) m).Sorted) := by
  induction l with
  | nil => intro m; simp
  | cons a l ih =>
    intro m
    rw [List.foldl_cons]
    obtain ⟨h1, h2⟩ := ih (cmdPush m f a)
    refine ⟨?_, fun hs => h2 (sorted_put m a _ hs)⟩
    rw [h1, mem_cmdPush, List.mem_cons]
    tauto

theorem treeFind_at (p : List Bytes) : ∀ (t : DTree), t.Each (fun _ _ _ => True) → p ≠ [] → treeFind t.sub p = t.at_ p := by
  induction p with
  | nil => intro t _ h; exact absurd rfl h
  | cons x p ih =>
    intro t ht _
    rw [dat_cons]
    cases p with
    | nil =>
      rw [treeFind]
      unfold readChild
      cases t.sub.find? (fun c => c.name = x) <;> rfl
    | cons y p =>
      rw [treeFind]
      unfold readChild
      cases hf : t.sub.find? (fun c => c.name = x) with
      | none => rfl
      | some c =>
        have hc : c.Each (fun _ _ _ => True) := by
          obtain ⟨n, d, m, e, s⟩ := t
          rw [DTree.Each] at ht
          exact each_mem s ht.2.2.2 c (List.mem_of_find?_eq_some hf)
        dsimp only
        by_cases hd : c.isDir = true
        · rw [if_pos hd]; exact ih c hc (by simp)
        · rw [if_neg hd, dat_cons]
          obtain ⟨n, d, m, e, s⟩ := c
          rw [DTree.Each] at hc
          have hs : s = [] := hc.2.1 (by simpa [DTree.isDir] using hd)
          subst hs
          rfl

/-- The archive `n` is called for the path `p`: the path is there and its lookup gives the archive. -/
def Called (root : DTree) (date : DateT) (ewr : Bool) (n : Nat) (p : List Bytes) : Prop :=
  ∃ t set, root.at_ p = some t ∧ getData t.mods date ewr = .ok (set, .foundPresent) ∧ n ∈ set

theorem cmdFile_spec {date : DateT} {ewr : Bool} {f : List Bytes} {t : DTree} {m m' : SMap (List (List Bytes))} (h : cmdFile date ewr f t m = .ok m') :
    (m.Sorted → m'.Sorted) ∧ ∀ n p, p ∈ cmdPaths m' n ↔ p ∈ cmdPaths m n ∨ (p = f ∧ ∃ set, getData t.mods date ewr = .ok (set, .foundPresent) ∧ n ∈ set) := by
  unfold cmdFile at h
  obtain ⟨⟨set, rd⟩, h1, h⟩ := bind_ok h
  obtain ⟨-, -, h⟩ := bind_ok h
  simp only [Except.ok.injEq] at h
  subst h
  refine ⟨fun hs => (mem_cmdPushAll f [] 0 _ m).2 hs, fun n p => ?_⟩
  rw [(mem_cmdPushAll f p n _ m).1]
  by_cases c : rd = .foundPresent
  · subst c
    rw [if_pos rfl, mem_toSet]
    constructor
    · rintro (h5 | ⟨h5, rfl⟩)
      · exact Or.inl h5
      · exact Or.inr ⟨rfl, set, h1, h5⟩
    · rintro (h | ⟨rfl, set', h2, h3⟩)
      · exact Or.inl h
      · rw [h1] at h2
        simp only [Except.ok.injEq, Prod.mk.injEq, and_true] at h2
        subst h2
        exact Or.inr ⟨h3, rfl⟩
  · rw [if_neg c]
    constructor
    · rintro (h5 | ⟨h5, -⟩)
      · exact Or.inl h5
      · cases h5
    · rintro (h | ⟨rfl, set', h2, h3⟩)
      · exact Or.inl h
      · rw [h1] at h2
        simp only [Except.ok.injEq, Prod.mk.injEq] at h2
        exact absurd h2.2 c

theorem sub_dir {t : DTree} (h : t.Each (fun _ _ _ => True)) (f : List Bytes) :
    (if t.isDir then t.sub.map (fun c => f ++ [c.name]) else []) = t.sub.map (fun c => f ++ [c.name]) := by
  by_cases hd : t.isDir = true
  · rw [if_pos hd]
  · rw [if_neg hd]
    obtain ⟨n, d, m, e, s⟩ := t
    rw [DTree.Each] at h
    have hs : s = [] := h.2.1 (by simpa [DTree.isDir] using hd)
    subst hs
    rfl

theorem cmdLoop_spec (root : DTree) (date : DateT) (ewr : Bool) (hr : root.Each (fun _ _ _ => True)) : ∀ (fuel : Nat) (q : List (List Bytes))
    (m m' : SMap (List (List Bytes))), (∀ f ∈ q, f ≠ []) → cmdLoop root.sub date ewr fuel q m = .ok m' →
    (m.Sorted → m'.Sorted) ∧ ∀ n p, p ∈ cmdPaths m' n ↔ p ∈ cmdPaths m n ∨ ((∃ f ∈ q, f <+: p) ∧ Called root date ewr n p) := by
  intro fuel
  induction fuel with
  | zero =>
    intro q m m' hq h
    cases q with
    | nil => rw [cmdLoop] at h; injection h with h; subst h; simp
    | cons f q => rw [cmdLoop] at h; cases h
  | succ fuel ih =>
    intro q m m' hq h
    cases q with
    | nil => rw [cmdLoop] at h; injection h with h; subst h; simp
    | cons f q =>
      rw [cmdLoop, treeFind_at f root hr (hq f (by simp))] at h
      cases hf : root.at_ f with
      | none =>
        rw [hf] at h
        obtain ⟨i1, i2⟩ := ih q m m' (fun g hg => hq g (by simp [hg])) h
        refine ⟨i1, fun n p => ?_⟩
        rw [i2 n p]
        constructor
        · rintro (h | ⟨⟨g, hg, hp⟩, h⟩)
          · exact Or.inl h
          · exact Or.inr ⟨⟨g, by simp [hg], hp⟩, h⟩
        · rintro (h5 | ⟨⟨g, hg, hp⟩, h5⟩)
          · exact Or.inl h5
          · rcases List.mem_cons.mp hg with rfl | hg
            · obtain ⟨t, set, h1, -⟩ := h5
              obtain ⟨s, rfl⟩ := hp
              have : ∀ (g s : List Bytes) (r : DTree), r.at_ g = none → r.at_ (g ++ s) = none := by
                intro g s
                induction g with
                | nil => intro r h; simp [DTree.at_] at h
                | cons x g ihg =>
                  intro r h
                  rw [dat_cons] at h
                  rw [List.cons_append, dat_cons]
                  cases hc : r.sub.find? (fun c => c.name = x) with
                  | none => rfl
                  | some c => rw [hc] at h; exact ihg c h
              rw [this g s root hf] at h1; cases h1
            · exact Or.inr ⟨⟨g, hg, hp⟩, h5⟩
      | some t =>
        rw [hf] at h
        dsimp only at h
        obtain ⟨m1, h1, h⟩ := bind_ok h
        have ht : t.Each (fun _ _ _ => True) := each_at f root t hr hf
        rw [sub_dir ht] at h
        obtain ⟨c1, c2⟩ := cmdFile_spec h1
        obtain ⟨i1, i2⟩ := ih _ m1 m' (by
          intro g hg
          rcases List.mem_append.mp hg with hg | hg
          · exact hq g (by simp [hg])
          · obtain ⟨c, -, rfl⟩ := List.mem_map.mp hg; simp) h
        refine ⟨fun hs => i1 (c1 hs), fun n p => ?_⟩
        rw [i2 n p, c2 n p]
        constructor
        · rintro ((h | ⟨rfl, set, h2, h3⟩) | ⟨⟨g, hg, hp⟩, h⟩)
          · exact Or.inl h
          · exact Or.inr ⟨⟨p, by simp, List.prefix_refl _⟩, t, set, hf, h2, h3⟩
          · rcases List.mem_append.mp hg with hg | hg
            · exact Or.inr ⟨⟨g, by simp [hg], hp⟩, h⟩
            · obtain ⟨c, -, rfl⟩ := List.mem_map.mp hg
              exact Or.inr ⟨⟨f, by simp, (List.prefix_append f [c.name]).trans hp⟩, h⟩
        · rintro (h | ⟨⟨g, hg, hp⟩, h⟩)
          · exact Or.inl (Or.inl h)
          · rcases List.mem_cons.mp hg with rfl | hg
            · obtain ⟨s, rfl⟩ := hp
              cases s with
              | nil =>
                rw [List.append_nil] at h ⊢
                obtain ⟨t', set, h2, h3, h4⟩ := h
                rw [hf] at h2; injection h2 with h2; subst h2
                exact Or.inl (Or.inr ⟨rfl, set, h3, h4⟩)
              | cons x s =>
                refine Or.inr ⟨?_, h⟩
                obtain ⟨t', set, h2, -⟩ := h
                rw [dat_append g (x :: s) root t hf, dat_cons] at h2
                cases hc : t.sub.find? (fun c => c.name = x) with
                | none => rw [hc] at h2; cases h2
                | some c =>
                  have hn : c.name = x := by simpa using List.find?_some hc
                  refine ⟨g ++ [x], List.mem_append_right _ (List.mem_map.mpr ⟨c, List.mem_of_find?_eq_some hc, by rw [hn]⟩), ?_⟩
                  exact ⟨s, by simp⟩
            · exact Or.inr ⟨⟨g, List.mem_append_left _ hg, hp⟩, h⟩

/-- **C54**: restoring paths from a database by calls to dar calls it for archives of increasing numbers; the archive `n` is called for the path `p` exactly if a
requested path is `p` or a directory that leads to it, `p` is known by the database, and the lookup of its data gives `n`. -/
theorem C54_cmd (db : Database) (files : List (List Bytes)) (date : DateT) (ewr : Bool) (m : SMap (List (List Bytes)))
    (hdb : db.files.Each (fun _ _ _ => True)) (hf : ∀ f ∈ files, f ≠ []) (h : db.restoreCmd files date ewr = .ok m) :
    m.Sorted ∧ ∀ n p, p ∈ cmdPaths m n ↔ (∃ f ∈ files, f <+: p) ∧ Called db.files date ewr n p := by
  obtain ⟨h1, h2⟩ := cmdLoop_spec db.files date ewr hdb _ files [] m hf h
  refine ⟨h1 List.Pairwise.nil, fun n p => ?_⟩
  rw [h2 n p]
  constructor
  · rintro (h5 | h5)
    · cases h5
    · exact h5
  · exact Or.inr

/-! ### It ends -/

def cmdMeasure (root : DTree) (q : List (List Bytes)) : Nat := (q.map (fun f => match root.at_ f with | none => 1 | some t => t.count)).sum

theorem cmdLoop_total (root : DTree) (date : DateT) (ewr : Bool) (hr : root.Each (fun _ _ _ => True))
    (hea : ∀ p t, root.at_ p = some t → ∃ x, getEA t.chgs date ewr = .ok x) : ∀ (fuel : Nat) (q : List (List Bytes)) (m : SMap (List (List Bytes))),
    (∀ f ∈ q, f ≠ []) → cmdMeasure root q ≤ fuel → ∃ m', cmdLoop root.sub date ewr fuel q m = .ok m' := by
  intro fuel
  induction fuel with
  | zero =>
    intro q m hq hm
    cases q with
    | nil => exact ⟨m, by rw [cmdLoop]⟩
    | cons f q =>
      exfalso
      unfold cmdMeasure at hm
      rw [List.map_cons, List.sum_cons] at hm
      cases hf : root.at_ f with
      | none => rw [hf] at hm; dsimp only at hm; omega
      | some t =>
        obtain ⟨n, d, mm, e, s⟩ := t
        rw [hf] at hm; dsimp only at hm; rw [DTree.count] at hm; omega
  | succ fuel ih =>
    intro q m hq hm
    cases q with
    | nil => exact ⟨m, by rw [cmdLoop]⟩
    | cons f q =>
      rw [cmdLoop, treeFind_at f root hr (hq f (by simp))]
      unfold cmdMeasure at hm
      rw [List.map_cons, List.sum_cons] at hm
      cases hf : root.at_ f with
      | none =>
        rw [hf] at hm; dsimp only at hm ⊢
        exact ih q m (fun g hg => hq g (by simp [hg])) (by unfold cmdMeasure; omega)
      | some t =>
        rw [hf] at hm; dsimp only at hm ⊢
        have ht : t.Each (fun _ _ _ => True) := each_at f root t hr hf
        obtain ⟨⟨set, rd⟩, g1⟩ := C29_data_total t.mods date ewr
        obtain ⟨x, g2⟩ := hea f t hf
        have g3 : ∃ m1, cmdFile date ewr f t m = .ok m1 := ⟨_, by unfold cmdFile; rw [g1, g2]; rfl⟩
        obtain ⟨m1, g3⟩ := g3
        rw [g3, sub_dir ht]
        refine ih _ m1 ?_ ?_
        · intro g hg
          rcases List.mem_append.mp hg with hg | hg
          · exact hq g (by simp [hg])
          · obtain ⟨c, -, rfl⟩ := List.mem_map.mp hg; simp
        · unfold cmdMeasure
          rw [List.map_append, List.sum_append]
          have key : ((t.sub.map (fun c => f ++ [c.name])).map (fun f => match root.at_ f with | none => 1 | some t => t.count)).sum = DTree.countList t.sub := by
            obtain ⟨n, d, mm, e, s⟩ := t
            rw [DTree.Each] at ht
            simp only [DTree.sub]
            have : ∀ l, (∀ c ∈ l, c ∈ s) →
                ((l.map (fun c => f ++ [c.name])).map (fun f => match root.at_ f with | none => 1 | some t => t.count)).sum = DTree.countList l := by
              intro l
              induction l with
              | nil => intro _; rfl
              | cons c l ihl =>
                intro hl
                rw [List.map_cons, List.map_cons, List.sum_cons, DTree.countList, ihl (fun c hc => hl c (by simp [hc]))]
                have : root.at_ (f ++ [c.name]) = some c := by
                  rw [dat_append f [c.name] root _ hf, dat_cons]
                  simp only [DTree.sub]
                  rw [find_of_mem DTree.name s ht.2.2.1 c (hl c (by simp))]
                  rfl
                rw [this]
            exact this s (fun c hc => hc)
          rw [key]
          obtain ⟨n, d, mm, e, s⟩ := t
          rw [DTree.count] at hm
          simp only [DTree.sub]
          omega

theorem count_find (l : List DTree) (x : Bytes) (c : DTree) (h : l.find? (fun c => c.name = x) = some c) : c.count ≤ DTree.countList l := by
  have hm := List.mem_of_find?_eq_some h
  clear h
  induction l with
  | nil => cases hm
  | cons a l ih =>
    rw [DTree.countList]
    rcases List.mem_cons.mp hm with rfl | hm
    · omega
    · have := ih hm; omega

theorem count_at (p : List Bytes) : ∀ (t u : DTree), t.at_ p = some u → u.count ≤ t.count := by
  induction p with
  | nil => intro t u h; simp only [DTree.at_, Option.some.injEq] at h; subst h; exact Nat.le_refl _
  | cons x p ih =>
    intro t u h
    rw [dat_cons] at h
    cases hf : t.sub.find? (fun c => c.name = x) with
    | none => rw [hf] at h; cases h
    | some c =>
      rw [hf] at h
      have h1 := ih c u h
      have h2 := count_find _ _ _ hf
      obtain ⟨n, d, m, e, s⟩ := t
      rw [DTree.count]
      simp only [DTree.sub] at h2
      omega

/-- **C54**: the preparation of the calls to dar ends, when the lookups of EA do (they do when the dates are in order, C29_ea). -/
theorem C54_cmd_total (db : Database) (files : List (List Bytes)) (date : DateT) (ewr : Bool)
    (hdb : db.files.Each (fun _ _ _ => True)) (hf : ∀ f ∈ files, f ≠ []) (hea : ∀ p t, db.files.at_ p = some t → ∃ x, getEA t.chgs date ewr = .ok x) :
    ∃ m, db.restoreCmd files date ewr = .ok m := by
  refine cmdLoop_total db.files date ewr hdb hea _ files [] hf ?_
  unfold cmdMeasure
  induction files with
  | nil => simp
  | cons f files ih =>
    rw [List.map_cons, List.sum_cons, List.length_cons, Nat.add_mul, Nat.one_mul]
    have := ih (fun g hg => hf g (by simp [hg]))
    have h2 : (match db.files.at_ f with | none => 1 | some t => t.count) ≤ DTree.countList db.files.sub + 1 := by
      cases h : db.files.at_ f with
      | none => dsimp only; omega
      | some t =>
        have := count_at f _ _ h
        dsimp only
        have e : db.files.count = DTree.countList db.files.sub + 1 := by
          cases db.files with
          | node n d m e s => rw [DTree.count, DTree.sub]
        omega
    omega

/-! ### What dar restores -/

/-- The states of the file `p` in the archives from which dar is asked to restore it: -g covers what is below the path given. -/
def givenFrom {α : Type} (et : α → Etat) (mods : SMap α) (m : SMap (List (List Bytes))) (p : List Bytes) : List (Nat × Etat) :=
  (states et mods).filter (fun q => decide (∃ g ∈ cmdPaths m q.1, g <+: p))

/-- **C54**: a file that is there in its last recorded state, at or below a requested path, is rebuilt by the calls to dar: right data, right attributes. -/
theorem C54_cmd_data (db : Database) (files : List (List Bytes)) (m : SMap (List (List Bytes))) (hdb : db.files.Each (fun _ _ _ => True))
    (hf : ∀ f ∈ files, f ≠ []) (h : db.restoreCmd files ⟨0, .s⟩ false = .ok m) (f p : List Bytes) (hff : f ∈ files) (hp : f <+: p) (t : DTree)
    (ht : db.files.at_ p = some t) (ho : DatesOrdered StatP.date t.mods) (hnr : NoRevival (states StatP.present t.mods)) (d : List Nat) (a : Nat)
    (hda : replay (states StatP.present t.mods) = .ok d a) : replay (givenFrom StatP.present t.mods m p) = .ok d a := by
  obtain ⟨-, h2⟩ := C54_cmd db files ⟨0, .s⟩ false m hdb hf h
  obtain ⟨set, rd, g1, -, -, -, g5⟩ := C29_data_partial t.mods ho ⟨0, .s⟩ false (by rw [history_all]; exact hnr)
  rw [history_all] at g5
  obtain ⟨r1, r2, -⟩ := g5 d a hda
  subst r1
  have cov : ∀ n ∈ set, (decide (∃ g ∈ cmdPaths m n, g <+: p)) = true := by
    intro n hn
    exact decide_eq_true ⟨p, (h2 n p).mpr ⟨⟨f, hff, hp⟩, t, set, ht, g1, hn⟩, List.prefix_refl _⟩
  obtain ⟨a', i1, i2⟩ := replay_superset (fun n => decide (∃ g ∈ cmdPaths m n, g <+: p)) _ d a hda (fun n hn => cov n ((r2 n).mpr (Or.inl hn)))
  rw [i2 (cov a ((r2 a).mpr (Or.inr rfl)))] at i1
  exact i1

end Dar
