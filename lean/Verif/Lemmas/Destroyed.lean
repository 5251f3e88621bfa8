import Verif.Model.Destroyed
import Verif.Spec.Backup
import Mathlib.Tactic.Tauto
/- The loops of update_destroyed_with and update_absent_with compute recursive functions of the tree of reference. -/
namespace Dar

/-! ### Lists of children -/

theorem child_split (l : List BEntry) (n : Bytes) (e : BEntry) (h : findChild l n = some e) : l = beforeChild l n ++ e :: afterChild l n := by
  induction l with
  | nil => simp [findChild] at h
  | cons a l ih =>
    unfold findChild beforeChild afterChild at *
    by_cases ha : a.name = n
    · simp [List.find?_cons, ha] at h
      subst h
      simp [List.takeWhile_cons, List.dropWhile_cons, ha]
    · simp [List.find?_cons, ha] at h
      have := ih h
      simp only [List.takeWhile_cons, List.dropWhile_cons, ha, ne_eq, not_false_eq_true, decide_true, if_true, List.cons_append]
      exact congrArg _ this
theorem before_ne (l : List BEntry) (n : Bytes) : ∀ a ∈ beforeChild l n, a.name ≠ n := by
  induction l with
  | nil => simp [beforeChild]
  | cons a l ih =>
    unfold beforeChild at *
    by_cases ha : a.name = n
    · simp [List.takeWhile_cons, ha]
    · simp only [List.takeWhile_cons, ha, ne_eq, not_false_eq_true, decide_true, if_true, List.mem_cons]
      rintro b (rfl | hb)
      · exact ha
      · exact ih b hb
theorem find_replace (l : List BEntry) (n : Bytes) (e e' : BEntry) (h : findChild l n = some e) (hn : e'.name = n) (m : Bytes) :
    findChild (beforeChild l n ++ e' :: afterChild l n) m = if m = n then some e' else findChild l m := by
  have hb := before_ne l n
  have hl := child_split l n e h
  have he : e.name = n := of_decide_eq_true (by have := List.find?_some h; exact this)
  generalize beforeChild l n = b at *
  generalize afterChild l n = a at *
  rw [hl]
  unfold findChild
  by_cases hm : m = n
  · rw [if_pos hm, List.find?_append]
    have : List.find? (fun e => decide (e.name = m)) b = none := by
      rw [List.find?_eq_none]
      intro x hx
      simp [hm, hb x hx]
    rw [this]
    simp [List.find?_cons, hn, hm]
  · rw [if_neg hm, List.find?_append, List.find?_append]
    simp [List.find?_cons, hn, he, Ne.symm hm]
theorem find_add (l : List BEntry) (e : BEntry) (h : findChild l e.name = none) (m : Bytes) :
    findChild (l ++ [e]) m = if m = e.name then some e else findChild l m := by
  unfold findChild at *
  rw [List.find?_append]
  by_cases hm : m = e.name
  · rw [if_pos hm, hm, h]; simp
  · rw [if_neg hm]; simp [List.find?_cons, Ne.symm hm]
theorem findChild_name {l : List BEntry} {n : Bytes} {e : BEntry} (h : findChild l n = some e) : e.name = n :=
  of_decide_eq_true (by have := List.find?_some h; exact this)

theorem treeAt_one (l : List BEntry) (n : Bytes) : treeAt l [n] = findChild l n := rfl
/-- the contents of a child -/
def subOf (l : List BEntry) (n : Bytes) : Option (List BEntry) := match findChild l n with
  | some (.dir _ c) => some c
  | _ => none
theorem treeAt_more (l : List BEntry) (n m : Bytes) (p : List Bytes) : treeAt l (n :: m :: p) = (subOf l n).bind (fun c => treeAt c (m :: p)) := by
  unfold subOf
  rw [treeAt]
  change (match findChild l n with | some (.dir _ c) => treeAt c (m :: p) | _ => none) = _
  cases findChild l n with
  | none => rfl
  | some e => cases e <;> rfl
theorem treeAt_congr {l l' : List BEntry} {n : Bytes} (h : findChild l n = findChild l' n) (p : List Bytes) : treeAt l (n :: p) = treeAt l' (n :: p) := by
  cases p with
  | nil => exact h
  | cons m p => rw [treeAt_more, treeAt_more, subOf, subOf, h]

/-! ### update_destroyed_with -/

mutual
def destEntry (rstars : Nat → Obj) (date : DateT) (e : BEntry) (cur : List BEntry) : List BEntry × Nat :=
  match e with
  | .dir x ch => match findChild cur x.name with
    | none => (cur ++ [.detruit x.name x.ino.kind date], 1)
    | some (.dir y c) =>
      let r := destList rstars y.ino.mtime ch c
      (beforeChild cur y.name ++ .dir y r.1 :: afterChild cur y.name, r.2)
    | some _ => (cur, 0)
  | .detruit _ _ _ => (cur, 0)
  | e => match findChild cur e.name with
    | none => (cur ++ [.detruit e.name (e.sigKind rstars) date], 1)
    | some _ => (cur, 0)
def destList (rstars : Nat → Obj) (date : DateT) (l : List BEntry) (cur : List BEntry) : List BEntry × Nat :=
  match l with
  | [] => (cur, 0)
  | e :: l =>
    let r := destEntry rstars date e cur
    let r' := destList rstars date l r.1
    (r'.1, r.2 + r'.2)
end

theorem destLoop_append (rstars : Nat → Obj) (d : DateT) : ∀ (l : List BEv) (s : DestSt) (r : List BEv),
    destLoop rstars d s (l ++ r) = (destLoop rstars d s l >>= fun s => destLoop rstars d s r)
  | [], s, r => rfl
  | ev :: l, s, r => by
    show (do let s ← destStep rstars d s ev; destLoop rstars d s (l ++ r)) = (do let s ← (do let s ← destStep rstars d s ev; destLoop rstars d s l); destLoop rstars d s r)
    cases destStep rstars d s ev with
    | error e => rfl
    | ok s => exact destLoop_append rstars d l s r

mutual
theorem dest_skip_entry (rstars : Nat → Obj) (d : DateT) (e : BEntry) (s : DestSt) (h : s.skip > 0) : destLoop rstars d s e.events = .ok s := by
  have step : ∀ e : BEntry, e.isDir = false → destLoop rstars d s [.entry e] = .ok s := by
    intro e he
    show (do let s ← destStep rstars d s (.entry e); destLoop rstars d s []) = _
    unfold destStep
    rw [if_pos h]
    simp only [he, Bool.false_eq_true, if_false]
    rfl
  match e with
  | .dir x c =>
    rw [BEntry.events]
    show (do let s ← destStep rstars d s (.entry (.dir x c)); destLoop rstars d s (BEntry.eventsList c ++ [BEv.eod])) = _
    unfold destStep
    rw [if_pos h]
    simp only [BEntry.isDir, if_true]
    show destLoop rstars d { s with skip := s.skip + 1 } (BEntry.eventsList c ++ [BEv.eod]) = _
    rw [destLoop_append, dest_skip_list rstars d c _ (Nat.succ_pos _)]
    show (do let s ← destStep rstars d { s with skip := s.skip + 1 } BEv.eod; destLoop rstars d s []) = _
    unfold destStep
    rw [if_pos (Nat.succ_pos _)]
    rfl
  | .node x => exact step _ rfl
  | .mirage n k => exact step _ rfl
  | .detruit n k d => exact step _ rfl
  | .ignored n => exact step _ rfl
  | .ignoredDir x => exact step _ rfl
theorem dest_skip_list (rstars : Nat → Obj) (d : DateT) (l : List BEntry) (s : DestSt) (h : s.skip > 0) :
    destLoop rstars d s (BEntry.eventsList l) = .ok s := by
  match l with
  | [] => rfl
  | e :: l =>
    rw [BEntry.eventsList, destLoop_append, dest_skip_entry rstars d e s h]
    exact dest_skip_list rstars d l s h
end

mutual
theorem dest_entry (rstars : Nat → Obj) (d : DateT) (e : BEntry) (fr : List (List BEntry × Obj × List BEntry)) (cur : List BEntry) (n : Nat) :
    destLoop rstars d ⟨⟨fr, cur⟩, n, 0⟩ e.events =
      .ok ⟨⟨fr, (destEntry rstars (Cursor.date ⟨fr, cur⟩ d) e cur).1⟩, n + (destEntry rstars (Cursor.date ⟨fr, cur⟩ d) e cur).2, 0⟩ := by
  have leaf : ∀ e : BEntry, e.isDir = false → e.isDet = false →
      destEntry rstars (Cursor.date ⟨fr, cur⟩ d) e cur = (match findChild cur e.name with
    | none => (cur ++ [.detruit e.name (e.sigKind rstars) (Cursor.date ⟨fr, cur⟩ d)], 1)
    | some _ => (cur, 0)) → destLoop rstars d ⟨⟨fr, cur⟩, n, 0⟩ [.entry e] =
      .ok ⟨⟨fr, (destEntry rstars (Cursor.date ⟨fr, cur⟩ d) e cur).1⟩, n + (destEntry rstars (Cursor.date ⟨fr, cur⟩ d) e cur).2, 0⟩ := by
    intro e h1 h2 h3
    rw [h3]
    show (do let s ← destStep rstars d ⟨⟨fr, cur⟩, n, 0⟩ (.entry e); destLoop rstars d s []) = _
    unfold destStep
    rw [if_neg (Nat.lt_irrefl 0)]
    simp only [h1, h2, Bool.false_eq_true, if_false]
    cases findChild cur e.name <;> rfl
  match e with
  | .node x => exact leaf _ rfl rfl rfl
  | .mirage n k => exact leaf _ rfl rfl rfl
  | .detruit n k d => rfl
  | .ignored n => exact leaf _ rfl rfl rfl
  | .ignoredDir x => exact leaf _ rfl rfl rfl
  | .dir x ch =>
    rw [BEntry.events, destEntry]
    show (do let s ← destStep rstars d ⟨⟨fr, cur⟩, n, 0⟩ (.entry (.dir x ch)); destLoop rstars d s (BEntry.eventsList ch ++ [BEv.eod])) = _
    unfold destStep
    rw [if_neg (Nat.lt_irrefl 0)]
    simp only [BEntry.isDet, BEntry.isDir, BEntry.name, Bool.false_eq_true, if_false, if_true]
    have skipped : ∀ (c : List BEntry) (k : Nat), destLoop rstars d ⟨⟨fr, c⟩, k, 1⟩ (BEntry.eventsList ch ++ [BEv.eod]) = .ok ⟨⟨fr, c⟩, k, 0⟩ := by
      intro c k
      rw [destLoop_append, dest_skip_list rstars d ch _ Nat.one_pos]
      show (do let s ← destStep rstars d ⟨⟨fr, c⟩, k, 1⟩ BEv.eod; destLoop rstars d s []) = _
      unfold destStep
      rw [if_pos Nat.one_pos]
      rfl
    cases hf : findChild cur x.name with
    | none => exact skipped _ _
    | some ici =>
      cases ici with
      | dir y c =>
        show destLoop rstars d ⟨Cursor.enter ⟨fr, cur⟩ y c, n, 0⟩ (BEntry.eventsList ch ++ [BEv.eod]) = _
        rw [destLoop_append, Cursor.enter, dest_list rstars d ch]
        rfl
      | _ => exact skipped _ _
theorem dest_list (rstars : Nat → Obj) (d : DateT) (l : List BEntry) (fr : List (List BEntry × Obj × List BEntry)) (cur : List BEntry) (n : Nat) :
    destLoop rstars d ⟨⟨fr, cur⟩, n, 0⟩ (BEntry.eventsList l) =
      .ok ⟨⟨fr, (destList rstars (Cursor.date ⟨fr, cur⟩ d) l cur).1⟩, n + (destList rstars (Cursor.date ⟨fr, cur⟩ d) l cur).2, 0⟩ := by
  match l with
  | [] => rfl
  | e :: l =>
    rw [BEntry.eventsList, destLoop_append, dest_entry rstars d e, destList]
    show destLoop rstars d _ (BEntry.eventsList l) = _
    rw [dest_list rstars d l, Nat.add_assoc]
    rfl
end

theorem updateDestroyed_eq (d : DateT) (cat ref : BCat) :
    updateDestroyed d cat ref = .ok (⟨(destList ref.stars d ref.root cat.root).1, cat.stars⟩, (destList ref.stars d ref.root cat.root).2) := by
  unfold updateDestroyed
  rw [dest_list ref.stars d ref.root, Nat.zero_add]
  rfl

end Dar
