import Verif.Spec.Destroyed
import Verif.Lemmas.Destroyed
import Verif.Props.Backup
/- C34: the deletions recorded at the end of a differential backup. -/
namespace Dar

theorem SameHead.refl (e : BEntry) : SameHead e e := by
  cases e <;> first | rfl | exact ⟨_, rfl⟩
theorem SameHead.trans {a b c : BEntry} (h1 : SameHead a b) (h2 : SameHead b c) : SameHead a c := by
  cases a with
  | dir x ch => obtain ⟨c1, rfl⟩ := h1; exact h2
  | _ => cases h1; exact h2

/-- what is expected from the walk of `refl` -/
structure DestOk (rstars : Nat → Obj) (date : DateT) (refl cur cur' : List BEntry) : Prop where
  kept : ∀ p e, treeAt cur p = some e → ∃ e', treeAt cur' p = some e' ∧ SameHead e e'
  added : ∀ p e', treeAt cur p = none → treeAt cur' p = some e' →
    ∃ q n d g, p = q ++ [n] ∧ dirDate date cur q = some d ∧ OccursIn refl p g ∧ g.isDet = false ∧ e' = .detruit n (g.sigKind rstars) d
  all : ∀ q n d g, dirDate date cur q = some d → OccursIn refl (q ++ [n]) g → g.isDet = false → ∃ e', treeAt cur' (q ++ [n]) = some e'

theorem DestOk.date {rstars : Nat → Obj} {date : DateT} {refl cur cur' : List BEntry} (h : DestOk rstars date refl cur cur') (p : List Bytes) :
    dirDate date cur' p = dirDate date cur p := by
  unfold dirDate
  by_cases hp : p = []
  · rw [if_pos hp, if_pos hp]
  · rw [if_neg hp, if_neg hp]
    cases ht : treeAt cur p with
    | none =>
      cases ht' : treeAt cur' p with
      | none => rfl
      | some e' =>
        obtain ⟨q, n, d, g, -, -, -, -, rfl⟩ := h.added p e' ht ht'
        rfl
    | some e =>
      obtain ⟨e', h1, h2⟩ := h.kept p e ht
      rw [h1]
      cases e with
      | dir x c => obtain ⟨c1, rfl⟩ := h2; rfl
      | _ => cases h2; rfl

theorem OccursIn.cons {l : List BEntry} {p : List Bytes} {e a : BEntry} (h : OccursIn l p e) : OccursIn (a :: l) p e := by
  cases h with
  | here h => exact .here (List.mem_cons_of_mem _ h)
  | inside h h2 => exact .inside (List.mem_cons_of_mem _ h) h2
theorem OccursIn.single {l : List BEntry} {p : List Bytes} {e a : BEntry} (h : OccursIn [a] p e) : OccursIn (a :: l) p e := by
  cases h with
  | here h => cases List.mem_singleton.1 h; exact .here List.mem_cons_self
  | inside h h2 => cases List.mem_singleton.1 h; exact .inside List.mem_cons_self h2
theorem OccursIn.split {l : List BEntry} {p : List Bytes} {e a : BEntry} (h : OccursIn (a :: l) p e) : OccursIn [a] p e ∨ OccursIn l p e := by
  cases h with
  | here h =>
    rcases List.mem_cons.1 h with rfl | h
    · exact Or.inl (.here (List.mem_singleton.2 rfl))
    · exact Or.inr (.here h)
  | inside h h2 =>
    rcases List.mem_cons.1 h with rfl | h
    · exact Or.inl (.inside (List.mem_singleton.2 rfl) h2)
    · exact Or.inr (.inside h h2)

theorem destOk_nil (rstars : Nat → Obj) (date : DateT) (cur : List BEntry) : DestOk rstars date [] cur cur :=
  ⟨fun p e h => ⟨e, h, SameHead.refl e⟩, fun p e' h h' => by (rw [h] at h'; cases h'), fun q n d g _ h => by
    generalize q ++ [n] = p at h
    cases h with
    | here h => cases h
    | inside h => cases h⟩

theorem DestOk.cons {rstars : Nat → Obj} {date : DateT} {e : BEntry} {l cur cur1 cur2 : List BEntry} (h1 : DestOk rstars date [e] cur cur1)
    (h2 : DestOk rstars date l cur1 cur2) : DestOk rstars date (e :: l) cur cur2 := by
  refine ⟨fun p a h => ?_, fun p e' h h' => ?_, fun q n d g hd ho hg => ?_⟩
  · obtain ⟨a1, ha1, hs1⟩ := h1.kept p a h
    obtain ⟨a2, ha2, hs2⟩ := h2.kept p a1 ha1
    exact ⟨a2, ha2, hs1.trans hs2⟩
  · cases ht : treeAt cur1 p with
    | none =>
      obtain ⟨q, n, d, g, hp, hd, ho, hg, he⟩ := h2.added p e' ht h'
      exact ⟨q, n, d, g, hp, by rw [← h1.date]; exact hd, ho.cons, hg, he⟩
    | some e1 =>
      obtain ⟨q, n, d, g, hp, hd, ho, hg, rfl⟩ := h1.added p e1 h ht
      obtain ⟨e2, he2, hs⟩ := h2.kept p _ ht
      rw [he2] at h'
      cases h'
      exact ⟨q, n, d, g, hp, hd, ho.single, hg, hs⟩
  · rcases ho.split with ho | ho
    · obtain ⟨e', he'⟩ := h1.all q n d g hd ho hg
      obtain ⟨e2, he2, -⟩ := h2.kept _ _ he'
      exact ⟨e2, he2⟩
    · exact h2.all q n d g (by rw [h1.date]; exact hd) ho hg

theorem dirDate_root (date : DateT) (l : List BEntry) : dirDate date l [] = some date := by simp [dirDate]
theorem dirDate_cons (date : DateT) (l : List BEntry) (n : Bytes) (p : List Bytes) :
    dirDate date l (n :: p) = (match findChild l n with | some (.dir x c) => dirDate x.ino.mtime c p | _ => none) := by
  unfold dirDate
  rw [if_neg (by simp)]
  cases p with
  | nil =>
    rw [treeAt_one]
    cases findChild l n with
    | none => rfl
    | some e => cases e <;> simp
  | cons m p =>
    rw [treeAt_more, subOf]
    cases findChild l n with
    | none => rfl
    | some e => cases e <;> simp

/-- no record is added for an entry that is present or a deletion -/
theorem destOk_same (rstars : Nat → Obj) (date : DateT) (e : BEntry) (cur : List BEntry)
    (h : e.isDet = true ∨ (∃ a, findChild cur e.name = some a ∧ (e.isDir = true → a.isDir = false))) (hd : e.isDet = true → e.isDir = false) : DestOk rstars date [e] cur cur := by
  refine ⟨fun p a h => ⟨a, h, SameHead.refl a⟩, fun p e' h h' => by (rw [h] at h'; cases h'), fun q n d g hq ho hg => ?_⟩
  cases ho' : q with
  | nil =>
    subst ho'
    generalize hp : [] ++ [n] = p at ho
    cases ho with
    | here hm =>
      cases List.mem_singleton.1 hm
      rcases h with h | ⟨a, ha, -⟩
      · rw [h] at hg; cases hg
      · cases hp; exact ⟨a, ha⟩
    | inside hm h2 =>
      exfalso
      cases h2 <;> simp at hp
  | cons m q =>
    subst ho'
    generalize hp : (m :: q) ++ [n] = p at ho
    cases ho with
    | here hm => simp at hp
    | inside hm h2 =>
      cases List.mem_singleton.1 hm
      rcases h with h | ⟨a, ha, had⟩
      · rw [hd h] at hd; simp [BEntry.isDet] at h
      · obtain ⟨rfl, -⟩ := List.cons.inj hp
        rw [dirDate_cons] at hq
        change findChild cur (Obj.name _) = some a at ha
        rw [ha] at hq
        cases a with
        | dir y c => simp [BEntry.isDir] at had
        | _ => cases hq

/-- a record is added -/
theorem destOk_new (rstars : Nat → Obj) (date : DateT) (e : BEntry) (cur : List BEntry) (h : findChild cur e.name = none) (hd : e.isDet = false) :
    DestOk rstars date [e] cur (cur ++ [.detruit e.name (e.sigKind rstars) date]) := by
  have hfa : ∀ m, findChild (cur ++ [.detruit e.name (e.sigKind rstars) date]) m = if m = e.name then some (.detruit e.name (e.sigKind rstars) date) else findChild cur m :=
    find_add cur (.detruit e.name (e.sigKind rstars) date) h
  have hne : ∀ m p, m ≠ e.name → treeAt (cur ++ [.detruit e.name (e.sigKind rstars) date]) (m :: p) = treeAt cur (m :: p) := fun m p hm =>
    treeAt_congr (by rw [hfa, if_neg hm]) p
  refine ⟨fun p a ha => ?_, fun p e' h0 h' => ?_, fun q n d g hq ho hg => ?_⟩
  · cases p with
    | nil => simp [treeAt] at ha
    | cons m p =>
      by_cases hm : m = e.name
      · subst hm
        cases p with
        | nil => rw [treeAt_one, h] at ha; cases ha
        | cons k p => rw [treeAt_more, subOf, h] at ha; cases ha
      · exact ⟨a, by rw [hne m p hm]; exact ha, SameHead.refl a⟩
  · cases p with
    | nil => simp [treeAt] at h'
    | cons m p =>
      by_cases hm : m = e.name
      · cases p with
        | nil =>
          rw [treeAt_one, hfa, if_pos hm] at h'
          cases h'
          exact ⟨[], m, date, e, rfl, dirDate_root _ _, by rw [hm]; exact .here (List.mem_singleton.2 rfl), hd, by rw [hm]⟩
        | cons k p =>
          rw [treeAt_more, subOf, hfa, if_pos hm] at h'; cases h'
      · rw [hne m p hm, h0] at h'; cases h'
  · cases hq' : q with
    | nil =>
      subst hq'
      generalize hp : [] ++ [n] = p at ho
      cases ho with
      | here hm =>
        cases List.mem_singleton.1 hm
        exact ⟨_, by rw [treeAt_one, hfa, if_pos rfl]⟩
      | inside hm h2 =>
        exfalso
        cases h2 <;> simp at hp
    | cons m q =>
      subst hq'
      generalize hp : (m :: q) ++ [n] = p at ho
      cases ho with
      | here hm => simp at hp
      | inside hm h2 =>
        cases List.mem_singleton.1 hm
        obtain ⟨rfl, -⟩ := List.cons.inj hp
        rw [dirDate_cons] at hq
        change findChild cur (Obj.name _) = none at h
        rw [h] at hq
        cases hq

/-- a directory present on both sides -/
theorem destOk_dir (rstars : Nat → Obj) (date : DateT) (x y : Obj) (ch c c' : List BEntry) (cur : List BEntry) (h : findChild cur x.name = some (.dir y c))
    (hi : DestOk rstars y.ino.mtime ch c c') : DestOk rstars date [.dir x ch] cur (beforeChild cur y.name ++ .dir y c' :: afterChild cur y.name) := by
  have hn : y.name = x.name := findChild_name h
  rw [hn]
  have hfr := find_replace cur x.name (.dir y c) (.dir y c') h hn
  have hne : ∀ m p, m ≠ x.name → treeAt (beforeChild cur x.name ++ .dir y c' :: afterChild cur x.name) (m :: p) = treeAt cur (m :: p) := fun m p hm =>
    treeAt_congr (by rw [hfr, if_neg hm]) p
  generalize beforeChild cur x.name ++ .dir y c' :: afterChild cur x.name = cur' at *
  have e1 : findChild cur' x.name = some (.dir y c') := by rw [hfr, if_pos rfl]
  refine ⟨fun p a ha => ?_, fun p e' h0 h' => ?_, fun q n d g hq ho hg => ?_⟩
  · cases p with
    | nil => simp [treeAt] at ha
    | cons m p =>
      by_cases hm : m = x.name
      · subst hm
        cases p with
        | nil =>
          rw [treeAt_one, h] at ha; cases ha
          exact ⟨_, by rw [treeAt_one, e1], ⟨_, rfl⟩⟩
        | cons k p =>
          rw [treeAt_more, subOf, h] at ha
          rw [treeAt_more, subOf, e1]
          exact hi.kept (k :: p) a ha
      · exact ⟨a, by rw [hne m p hm]; exact ha, SameHead.refl a⟩
  · cases p with
    | nil => simp [treeAt] at h'
    | cons m p =>
      by_cases hm : m = x.name
      · subst hm
        cases p with
        | nil => rw [treeAt_one, h] at h0; cases h0
        | cons k p =>
          rw [treeAt_more, subOf, h] at h0
          rw [treeAt_more, subOf, e1] at h'
          obtain ⟨q, n, d, g, hp, hd, ho, hg, he⟩ := hi.added (k :: p) e' h0 h'
          refine ⟨x.name :: q, n, d, g, by rw [hp]; rfl, ?_, .inside (List.mem_singleton.2 rfl) ho, hg, he⟩
          rw [dirDate_cons, h]
          exact hd
      · rw [hne m p hm, h0] at h'; cases h'
  · cases hq' : q with
    | nil =>
      subst hq'
      generalize hp : [] ++ [n] = p at ho
      cases ho with
      | here hm =>
        cases List.mem_singleton.1 hm
        exact ⟨_, e1⟩
      | inside hm h2 =>
        exfalso
        cases h2 <;> simp at hp
    | cons m q =>
      subst hq'
      generalize hp : (m :: q) ++ [n] = p at ho
      cases ho with
      | here hm => simp at hp
      | inside hm h2 =>
        cases List.mem_singleton.1 hm
        obtain ⟨rfl, hp2⟩ := List.cons.inj hp
        rw [dirDate_cons, h] at hq
        change q ++ [n] = _ at hp2
        rw [← hp2] at h2 ⊢
        obtain ⟨e', he'⟩ := hi.all q n d g hq h2 hg
        refine ⟨e', ?_⟩
        show treeAt cur' (x.name :: (q ++ [n])) = some e'
        cases hqn : q ++ [n] with
        | nil => simp at hqn
        | cons k r =>
          rw [treeAt_more, subOf, e1]
          rw [hqn] at he'
          exact he'

mutual
theorem dest_entry_ok (rstars : Nat → Obj) (date : DateT) (e : BEntry) (cur : List BEntry) : DestOk rstars date [e] cur (destEntry rstars date e cur).1 := by
  have leaf : ∀ e : BEntry, e.isDir = false → e.isDet = false →
      destEntry rstars date e cur = (match findChild cur e.name with
    | none => (cur ++ [.detruit e.name (e.sigKind rstars) date], 1)
    | some _ => (cur, 0)) → DestOk rstars date [e] cur (destEntry rstars date e cur).1 := by
    intro e h1 h2 h3
    rw [h3]
    cases hf : findChild cur e.name with
    | none => exact destOk_new rstars date e cur hf h2
    | some a => exact destOk_same rstars date e cur (Or.inr ⟨a, hf, by rw [h1]; simp⟩) (by rw [h2]; simp)
  match e with
  | .node x => exact leaf _ rfl rfl rfl
  | .mirage n k => exact leaf _ rfl rfl rfl
  | .detruit n k d => exact destOk_same rstars date _ cur (Or.inl rfl) (fun _ => rfl)
  | .ignored n => exact leaf _ rfl rfl rfl
  | .ignoredDir x => exact leaf _ rfl rfl rfl
  | .dir x ch =>
    rw [destEntry]
    cases hf : findChild cur x.name with
    | none => exact destOk_new rstars date (.dir x ch) cur hf rfl
    | some a =>
      cases a with
      | dir y c => exact destOk_dir rstars date x y ch c _ cur hf (dest_list_ok rstars y.ino.mtime ch c)
      | _ => exact destOk_same rstars date (.dir x ch) cur (Or.inr ⟨_, hf, fun _ => rfl⟩) (by simp [BEntry.isDet])
theorem dest_list_ok (rstars : Nat → Obj) (date : DateT) (l : List BEntry) (cur : List BEntry) : DestOk rstars date l cur (destList rstars date l cur).1 := by
  match l with
  | [] => exact destOk_nil rstars date cur
  | e :: l =>
    rw [destList]
    exact (dest_entry_ok rstars date e cur).cons (dest_list_ok rstars date l _)
end

theorem deletions_append (a b : List BEntry) : BEntry.deletionsL (a ++ b) = BEntry.deletionsL a + BEntry.deletionsL b := by
  induction a with
  | nil => simp [BEntry.deletionsL]
  | cons e a ih => simp [BEntry.deletionsL, ih, Nat.add_assoc]

mutual
theorem dest_entry_count (rstars : Nat → Obj) (date : DateT) (e : BEntry) (cur : List BEntry) :
    BEntry.deletionsL (destEntry rstars date e cur).1 = BEntry.deletionsL cur + (destEntry rstars date e cur).2 := by
  have leaf : ∀ e : BEntry, destEntry rstars date e cur = (match findChild cur e.name with
    | none => (cur ++ [.detruit e.name (e.sigKind rstars) date], 1)
    | some _ => (cur, 0)) → BEntry.deletionsL (destEntry rstars date e cur).1 = BEntry.deletionsL cur + (destEntry rstars date e cur).2 := by
    intro e h3
    rw [h3]
    cases hf : findChild cur e.name with
    | none => simp [deletions_append, BEntry.deletionsL, BEntry.deletions]
    | some a => rfl
  match e with
  | .node x => exact leaf _ rfl
  | .mirage n k => exact leaf _ rfl
  | .detruit n k d => rfl
  | .ignored n => exact leaf _ rfl
  | .ignoredDir x => exact leaf _ rfl
  | .dir x ch =>
    rw [destEntry]
    cases hf : findChild cur x.name with
    | none => simp [deletions_append, BEntry.deletionsL, BEntry.deletions]
    | some a =>
      cases a with
      | dir y c =>
        have hn : y.name = x.name := findChild_name hf
        have hi := dest_list_count rstars y.ino.mtime ch c
        have hs := congrArg BEntry.deletionsL (child_split cur x.name _ hf)
        rw [deletions_append, BEntry.deletionsL, BEntry.deletions] at hs
        dsimp only
        rw [hn, deletions_append, BEntry.deletionsL, BEntry.deletions, hi]
        omega
      | _ => rfl
theorem dest_list_count (rstars : Nat → Obj) (date : DateT) (l : List BEntry) (cur : List BEntry) :
    BEntry.deletionsL (destList rstars date l cur).1 = BEntry.deletionsL cur + (destList rstars date l cur).2 := by
  match l with
  | [] => rfl
  | e :: l =>
    rw [destList]
    dsimp only
    rw [dest_list_count rstars date l, dest_entry_count rstars date e]
    omega
end

/-- C34: the recording of deletions always ends well; whatever the archive already had is left as it was. -/
theorem C34_completes (d : DateT) (cat ref : BCat) : ∃ cat' n, updateDestroyed d cat ref = .ok (cat', n) ∧ cat'.stars = cat.stars ∧
    (∀ p e, treeAt cat.root p = some e → ∃ e', treeAt cat'.root p = some e' ∧ SameHead e e') ∧
    BEntry.deletionsL cat'.root = BEntry.deletionsL cat.root + n :=
  ⟨_, _, updateDestroyed_eq d cat ref, rfl, (dest_list_ok ref.stars d ref.root cat.root).kept, dest_list_count ref.stars d ref.root cat.root⟩

/-- C34: something is added at a path exactly when the archive had nothing there, has the directory above, and the reference had a file (not a
deletion record) at this path; what is added is the record of a deletion, with the type of the file and the date of the directory above. -/
theorem C34_recorded (d : DateT) (cat ref cat' : BCat) (n : Nat) (h : updateDestroyed d cat ref = .ok (cat', n)) (p : List Bytes) (m : Bytes)
    (ht : treeAt cat.root (p ++ [m]) = none) :
    ((∃ e', treeAt cat'.root (p ++ [m]) = some e') ↔
      (∃ t, dirDate d cat.root p = some t) ∧ ∃ g, OccursIn ref.root (p ++ [m]) g ∧ g.isDet = false) ∧
    (∀ e', treeAt cat'.root (p ++ [m]) = some e' → ∃ t g, dirDate d cat.root p = some t ∧ OccursIn ref.root (p ++ [m]) g ∧ g.isDet = false ∧
      e' = .detruit m (g.sigKind ref.stars) t) := by
  rw [updateDestroyed_eq] at h
  cases h
  have hok := dest_list_ok ref.stars d ref.root cat.root
  have hadd : ∀ e', treeAt (destList ref.stars d ref.root cat.root).1 (p ++ [m]) = some e' → ∃ t g, dirDate d cat.root p = some t ∧
      OccursIn ref.root (p ++ [m]) g ∧ g.isDet = false ∧ e' = .detruit m (g.sigKind ref.stars) t := by
    intro e' h'
    obtain ⟨q, k, t, g, hp, hd, ho, hg, he⟩ := hok.added _ e' ht h'
    obtain ⟨rfl, hk⟩ := List.append_inj' hp rfl
    cases hk
    exact ⟨t, g, hd, ho, hg, he⟩
  refine ⟨⟨?_, ?_⟩, hadd⟩
  · rintro ⟨e', h'⟩
    obtain ⟨t, g, h1, h2, h3, -⟩ := hadd e' h'
    exact ⟨⟨t, h1⟩, g, h2, h3⟩
  · rintro ⟨⟨t, h1⟩, g, h2, h3⟩
    exact hok.all p m t g h1 h2 h3

/-! ### Together with the backup -/

theorem treeAt_snoc (l : List BEntry) (m : Bytes) : ∀ (p : List Bytes) (x : Obj) (c : List BEntry), treeAt l p = some (.dir x c) → treeAt l (p ++ [m]) = findChild c m := by
  intro p
  induction p generalizing l with
  | nil => intro x c h; simp [treeAt] at h
  | cons n p ih =>
    intro x c h
    cases p with
    | nil =>
      rw [treeAt_one] at h
      show treeAt l (n :: m :: []) = _
      rw [treeAt_more, subOf, h]
      rfl
    | cons k p =>
      rw [treeAt_more] at h
      show treeAt l (n :: k :: (p ++ [m])) = _
      rw [treeAt_more]
      cases hs : subOf l n with
      | none => rw [hs] at h; cases h
      | some c1 =>
        rw [hs] at h
        exact ih c1 x c h

theorem headSkip_noDet {o : BkOpts} {rstars : Nat → Obj} {refd : Option (List BEntry)} {e : BEntry} {c c' : BkCore} {e' : BEntry}
    (hh : headSkip o rstars refd e c = .ok (.leaf e' c')) : e'.isDet = false := by
  unfold headSkip at hh
  cases e with
  | dir x ch =>
    dsimp only at hh
    by_cases he : o.emptyDir = true
    · rw [if_pos he] at hh
      cases hes : emptyDirStatus o x (refObj o c.stars rstars refd (.dir x ch)) with
      | error err => rw [hes] at hh; cases hh
      | ok s => rw [hes] at hh; cases hh; rfl
    · rw [if_neg he] at hh; cases hh; rfl
  | _ => cases hh; rfl
theorem headOne_noDet {o : BkOpts} {rstars : Nat → Obj} {refd : Option (List BEntry)} {path : List Bytes} {e : BEntry} {x : Obj} {c c' : BkCore} {e' : BEntry}
    (he : e.isDet = false) (hh : headOne o rstars refd path e x c = .ok (.leaf e' c')) : e'.isDet = false := by
  unfold headOne at hh
  cases hde : decideEntry o x (refObj o c.stars rstars refd e) with
  | error err => rw [hde] at hh; cases hh
  | ok x' =>
    rw [hde] at hh
    simp only [bind, Except.bind] at hh
    cases hfl : o.fails (e.name :: path).reverse with
    | none =>
      rw [hfl] at hh
      dsimp only at hh
      cases e <;> first | (simp [BEntry.isDet] at he; done) | (cases hh; rfl) | (simp [BEntry.isDir] at hh)
    | some w => rw [hfl] at hh; cases hh; rfl
theorem bkHead_noDet {o : BkOpts} {rstars : Nat → Obj} {refd : Option (List BEntry)} {path : List Bytes} {e : BEntry} {c c' : BkCore} {e' : BEntry}
    (hh : bkHead o rstars refd path e c = .ok (.leaf e' c')) : e'.isDet = false := by
  unfold bkHead at hh
  by_cases hcov : o.cov (e.name :: path).reverse (e.known c.wrote) = true
  · rw [if_pos hcov] at hh
    by_cases hk : e.known c.wrote = true
    · rw [if_pos hk] at hh
      cases e with
      | mirage n k => cases hh; rfl
      | _ => simp [BEntry.known] at hk
    · rw [if_neg hk] at hh
      cases hx : e.obj c.stars with
      | none => rw [hx] at hh; cases hh
      | some x =>
        rw [hx] at hh
        refine headOne_noDet ?_ hh
        cases e <;> first | rfl | (simp [BEntry.obj] at hx)
  · rw [if_neg hcov] at hh
    exact headSkip_noDet hh
theorem bkEntry_noDet {o : BkOpts} {rstars : Nat → Obj} {refd : Option (List BEntry)} {path : List Bytes} {e e' : BEntry} {c c' : BkCore}
    (h : bkEntry o rstars refd path e c = .ok (e', c')) : e'.isDet = false := by
  have key : (do
      let h ← bkHead o rstars refd path e c
      match h with
      | .leaf e' c' => .ok (e', c')
      | .down _ _ => .error .bug) = .ok (e', c') → e'.isDet = false := by
    intro h
    cases hh : bkHead o rstars refd path e c with
    | error err => rw [hh] at h; cases h
    | ok r =>
      rw [hh] at h
      cases r with
      | leaf e1 c1 => cases h; exact bkHead_noDet hh
      | down x1 c1 => cases h
  cases e with
  | dir x ch =>
    rw [bkEntry] at h
    cases hh : bkHead o rstars refd path (.dir x ch) c with
    | error err => rw [hh] at h; cases h
    | ok r =>
      rw [hh] at h
      cases r with
      | leaf e1 c1 => cases h; exact bkHead_noDet hh
      | down x1 c1 =>
        simp only [bind, Except.bind] at h
        cases hl : bkList o rstars (refSub refd x.name) (x.name :: path) ch c1 with
        | error err => rw [hl] at h; cases h
        | ok r2 => rw [hl] at h; cases h; rfl
  | node x => exact key h
  | mirage n k => exact key h
  | detruit n k d => exact key h
  | ignored n => exact key h
  | ignoredDir x => exact key h

/-- a directory of the new archive comes from the backup of the contents of a directory -/
theorem from_dir {o : BkOpts} {rstars : Nat → Obj} : ∀ (p : List Bytes) (l : List BEntry) (refd : Option (List BEntry)) (path : List Bytes) (c : BkCore)
    (l' : List BEntry) (c' : BkCore) (x' : Obj) (ch' : List BEntry), bkList o rstars refd path l c = .ok (l', c') → treeAt l' p = some (.dir x' ch') →
    ∃ x ch refd1 path1 c1 c2, treeAt l p = some (.dir x ch) ∧ bkList o rstars refd1 path1 ch c1 = .ok (ch', c2)
  | [], l, refd, path, c, l', c', x', ch', h, ht => by simp [treeAt] at ht
  | n :: p, l, refd, path, c, l', c', x', ch', h, ht => by
    have hf := bkList_find n l c l' c' h
    cases hfd : l.find? (fun e => decide (e.name = n)) with
    | none =>
      rw [hfd] at hf
      simp only at hf
      cases p with
      | nil => rw [treeAt_one, findChild, hf] at ht; cases ht
      | cons m p => rw [treeAt_more, subOf, findChild, hf] at ht; cases ht
    | some d =>
      rw [hfd] at hf
      obtain ⟨c0, e1, c1, hb, hfind⟩ := hf
      cases p with
      | nil =>
        rw [treeAt_one, findChild, hfind] at ht
        cases ht
        obtain ⟨-, -, x, ch, c2, rfl, hl⟩ := (bkEntry_inv hb).2 x' ch' rfl
        exact ⟨x, ch, _, _, _, _, by rw [treeAt_one, findChild, hfd], hl⟩
      | cons m p =>
        rw [treeAt_more, subOf, findChild, hfind] at ht
        cases e1 with
        | dir y ch1 =>
          obtain ⟨-, -, x, ch, c2, rfl, hl⟩ := (bkEntry_inv hb).2 y ch1 rfl
          obtain ⟨z, zc, r1, p1, d1, d2, hz, hzl⟩ := from_dir (m :: p) ch _ _ _ ch1 c1 x' ch' hl ht
          exact ⟨z, zc, r1, p1, d1, d2, by rw [treeAt_more, subOf, findChild, hfd]; exact hz, hzl⟩
        | _ => cases ht

/-- the names of a directory are those of its source -/
theorem bkList_domain {o : BkOpts} {rstars : Nat → Obj} {refd : Option (List BEntry)} {path : List Bytes} {l l' : List BEntry} {c c' : BkCore}
    (h : bkList o rstars refd path l c = .ok (l', c')) (n : Bytes) :
    (findChild l' n = none ↔ findChild l n = none) ∧ ∀ e', findChild l' n = some e' → e'.isDet = false := by
  have hf := bkList_find n l c l' c' h
  unfold findChild
  cases hfd : l.find? (fun e => decide (e.name = n)) with
  | none => rw [hfd] at hf; simp only at hf; rw [hf]; simp
  | some d =>
    rw [hfd] at hf
    obtain ⟨c0, e1, c1, hb, hfind⟩ := hf
    rw [hfind]
    refine ⟨by simp, ?_⟩
    rintro e' h
    cases h
    exact bkEntry_noDet hb

theorem treeAt_parent {l : List BEntry} {m : Bytes} {e : BEntry} : ∀ {p : List Bytes}, treeAt l (p ++ [m]) = some e →
    p = [] ∨ ∃ x c, treeAt l p = some (.dir x c) := by
  intro p
  induction p generalizing l with
  | nil => intro _; exact Or.inl rfl
  | cons n p ih =>
    intro h
    right
    cases p with
    | nil =>
      change treeAt l (n :: m :: []) = _ at h
      rw [treeAt_more, subOf] at h
      rw [treeAt_one]
      cases hf : findChild l n with
      | none => rw [hf] at h; cases h
      | some a => cases a <;> rw [hf] at h <;> first | exact ⟨_, _, rfl⟩ | cases h
    | cons k p =>
      change treeAt l (n :: k :: (p ++ [m])) = _ at h
      rw [treeAt_more] at h ⊢
      cases hs : subOf l n with
      | none => rw [hs] at h; cases h
      | some c1 =>
        rw [hs] at h
        rcases ih (l := c1) h with h1 | h1
        · cases h1
        · exact h1

/-- C34, for the whole operation: after a differential backup, a deletion is recorded at a path exactly when the directory above is still there, is covered by
the filters and could be saved, has no such name any more, while the reference had a file of this name in this directory. -/
theorem C34_backup (o : BkOpts) (d : DateT) (src ref cat : BCat) (st : Stats) (h : backupAll o d src ref = .ok (cat, st)) (p : List Bytes) (m : Bytes) :
    (∃ k t, treeAt cat.root (p ++ [m]) = some (.detruit m k t)) ↔
      (p = [] ∨ Kept o p ∧ ∃ x ch, treeAt src.root p = some (.dir x ch)) ∧ treeAt src.root (p ++ [m]) = none ∧
      ∃ g, OccursIn ref.root (p ++ [m]) g ∧ g.isDet = false := by
  unfold backupAll at h
  cases hb : backup o src ref with
  | error e => rw [hb] at h; cases h
  | ok r =>
    obtain ⟨cat0, st0⟩ := r
    rw [hb] at h
    obtain ⟨cat1, n, hu, -, hkept, -⟩ := C34_completes d cat0 ref
    simp only [bind, Except.bind] at h
    rw [hu] at h
    cases h
    have hrec := C34_recorded d cat0 ref cat1 n hu p m
    have hbl : ∃ c', bkList o ref.stars (some ref.root) [] src.root ⟨src.stars, [], Stats.zero⟩ = .ok (cat0.root, c') := by
      rw [backup_eq] at hb
      cases hl : bkList o ref.stars (some ref.root) [] src.root ⟨src.stars, [], Stats.zero⟩ with
      | error e => rw [hl] at hb; cases hb
      | ok r => rw [hl] at hb; cases hb; exact ⟨_, rfl⟩
    obtain ⟨c', hbl⟩ := hbl
    -- what the backup has below a directory it recorded
    have hdir : (p = [] ∨ ∃ x ch, treeAt cat0.root p = some (.dir x ch)) →
        (treeAt cat0.root (p ++ [m]) = none ↔ treeAt src.root (p ++ [m]) = none) ∧ ∀ e', treeAt cat0.root (p ++ [m]) = some e' → e'.isDet = false := by
      rintro (rfl | ⟨x', ch', ht⟩)
      · exact bkList_domain hbl m
      · obtain ⟨x, ch, r1, p1, c1, c2, hs, hl⟩ := from_dir p src.root _ _ _ _ _ x' ch' hbl ht
        rw [treeAt_snoc _ m p _ _ ht, treeAt_snoc _ m p _ _ hs]
        exact bkList_domain hl m
    have hkd : (p = [] ∨ ∃ x ch, treeAt cat0.root p = some (.dir x ch)) ↔ (p = [] ∨ Kept o p ∧ ∃ x ch, treeAt src.root p = some (.dir x ch)) := by
      constructor
      · rintro (h | ⟨x', ch', ht⟩)
        · exact Or.inl h
        · obtain ⟨hk, x, ch, hx, -⟩ := (C33_nothing_else o src ref cat0 _ hb p x').2 ch' ht
          exact Or.inr ⟨hk, x, ch, hx⟩
      · rintro (h | ⟨hk, x, ch, ht⟩)
        · exact Or.inl h
        · obtain ⟨x', ch', hx, -⟩ := (C33_recorded o src ref cat0 _ hb p x hk).2 ch ht
          exact Or.inr ⟨x', ch', hx⟩
    have hdd : (∃ t, dirDate d cat0.root p = some t) ↔ (p = [] ∨ ∃ x ch, treeAt cat0.root p = some (.dir x ch)) := by
      unfold dirDate
      by_cases hp : p = []
      · rw [if_pos hp]; simp [hp]
      · rw [if_neg hp]
        simp only [hp, false_or]
        cases ht : treeAt cat0.root p with
        | none => simp
        | some e => cases e <;> simp
    rw [← hkd]
    constructor
    · rintro ⟨k, t, hk⟩
      cases h0 : treeAt cat0.root (p ++ [m]) with
      | some e0 =>
        exfalso
        obtain ⟨e', he', hs⟩ := hkept _ _ h0
        rw [hk] at he'
        cases he'
        have hd0 := (hdir (treeAt_parent h0)).2 e0 h0
        cases e0 with
        | dir x c => obtain ⟨c1, hc⟩ := hs; cases hc
        | detruit => cases hd0
        | _ => cases hs
      | none =>
        obtain ⟨h1, h2⟩ := (hrec h0).1.1 ⟨_, hk⟩
        have h3 := hdd.1 h1
        exact ⟨h3, (hdir h3).1.1 h0, h2⟩
    · rintro ⟨h1, h2, h3⟩
      have h0 := (hdir h1).1.2 h2
      obtain ⟨e', he'⟩ := (hrec h0).1.2 ⟨hdd.2 h1, h3⟩
      obtain ⟨t, g, -, -, -, rfl⟩ := (hrec h0).2 e' he'
      exact ⟨_, _, he'⟩

theorem OccursIn.parent {l : List BEntry} {m : Bytes} {g : BEntry} : ∀ {q : List Bytes}, q ≠ [] → OccursIn l (q ++ [m]) g → ∃ x c, OccursIn l q (.dir x c) := by
  intro q
  induction q generalizing l with
  | nil => intro h; exact absurd rfl h
  | cons n q ih =>
    intro _ h
    generalize hp : (n :: q) ++ [m] = p at h
    cases h with
    | here hm => simp at hp
    | @inside _ x c r _ hm h2 =>
      obtain ⟨rfl, hp2⟩ := List.cons.inj hp
      change q ++ [m] = r at hp2
      subst hp2
      by_cases hq : q = []
      · subst hq; exact ⟨x, c, .here hm⟩
      · obtain ⟨y, c1, hy⟩ := ih hq h2
        exact ⟨y, c1, .inside hm hy⟩

/-- C34: no file of the reference is forgotten: the new archive has something at the same path (what is now there, or the record of a deletion), or something that
is not a directory in place of a directory above (a deletion, an excluded directory, a file). -/
theorem C34_nothing_forgotten (o : BkOpts) (d : DateT) (src ref cat : BCat) (st : Stats) (h : backupAll o d src ref = .ok (cat, st)) (p : List Bytes) (g : BEntry)
    (hg : OccursIn ref.root p g) (hd : g.isDet = false) :
    ∃ q e, q ≠ [] ∧ q <+: p ∧ treeAt cat.root q = some e ∧ (q = p ∨ e.isDir = false) := by
  unfold backupAll at h
  cases hb : backup o src ref with
  | error e => rw [hb] at h; cases h
  | ok r =>
    obtain ⟨cat0, st0⟩ := r
    rw [hb] at h
    simp only [bind, Except.bind] at h
    rw [updateDestroyed_eq] at h
    cases h
    have hok := dest_list_ok ref.stars d ref.root cat0.root
    dsimp only
    generalize (destList ref.stars d ref.root cat0.root).1 = cur' at hok
    clear hb
    induction hn : p.length generalizing p g with
    | zero => cases hg <;> simp at hn
    | succ k ih =>
      rcases List.eq_nil_or_concat p with rfl | ⟨q, m, rfl⟩
      · simp at hn
      rw [List.concat_eq_append] at *
      cases hdd : dirDate d cat0.root q with
      | some t =>
        obtain ⟨e', he'⟩ := hok.all q m t g hdd hg hd
        exact ⟨_, e', by simp, List.prefix_refl _, he', Or.inl rfl⟩
      | none =>
        have hq : q ≠ [] := by rintro rfl; simp [dirDate] at hdd
        obtain ⟨x, c, hx⟩ := hg.parent hq
        obtain ⟨q', e, h1, h2, h3, h4⟩ := ih q _ hx rfl (by simp at hn; exact hn)
        refine ⟨q', e, h1, h2.trans (List.prefix_append q [m]), h3, Or.inr ?_⟩
        rcases h4 with rfl | h4
        · have hcd := hok.date q'
          rw [hdd] at hcd
          unfold dirDate at hcd
          rw [if_neg hq, h3] at hcd
          cases e <;> first | rfl | simp at hcd
        · exact h4

/-! ### Example -/

private def exFile (n : UInt8) : BEntry := .node ⟨[n], ⟨.file, 0, 0, 420, ⟨7, .s⟩, ⟨7, .s⟩, .saved, 1, false, false, false, 0, 0, [], .none, 0, 0⟩, .none, [], [], []⟩
private def exDirO (n : UInt8) : Obj := ⟨[n], ⟨.dir, 0, 0, 493, ⟨9, .s⟩, ⟨9, .s⟩, .saved, 0, false, false, false, 0, 0, [], .none, 0, 0⟩, .none, [], [], []⟩
private def exO : BkOpts := ⟨.us, 0, .all, false, 0, false, .anyInodeChange, false, fun _ _ => true, fun _ => false, fun _ => none⟩

/-- the reference had "a", the directory "d" holding "b" and "c", and the directory "e" holding "f"; now only "d" holding "c" is left: the deletions of "a", of "d/b" and
of "e" (not of "e/f") are recorded -/
theorem C34_example : ∃ cat st, backupAll exO ⟨5, .s⟩ ⟨[.dir (exDirO 100) [exFile 99]], fun _ => exDirO 0⟩
      ⟨[exFile 97, .dir (exDirO 100) [exFile 98, exFile 99], .dir (exDirO 101) [exFile 102]], fun _ => exDirO 0⟩ = .ok (cat, st) ∧
    treeAt cat.root [[97]] = some (.detruit [97] .file ⟨5, .s⟩) ∧ treeAt cat.root [[100], [98]] = some (.detruit [98] .file ⟨9, .s⟩) ∧
    treeAt cat.root [[101]] = some (.detruit [101] .dir ⟨5, .s⟩) ∧ treeAt cat.root [[101], [102]] = none ∧ st.deleted = 3 :=
  ⟨_, _, rfl, rfl, rfl, rfl, rfl, rfl⟩

end Dar
