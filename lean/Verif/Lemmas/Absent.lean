import Verif.Lemmas.Destroyed
/- The loop of update_absent_with as a recursive function. -/
namespace Dar

structure ACore where
  corres : List (Nat × Nat)
  next : Nat
  stars : Nat → Obj
def ACore.lookup (s : ACore) (k : Nat) : Option Nat := (s.corres.find? (fun p => p.1 = k)).map (·.2)
/-- corres_clone[k] = j -/
def ACore.bindTo (s : ACore) (k j : Nat) : ACore := { s with corres := (k, j) :: s.corres }
/-- a new hard linked inode -/
def ACore.fresh (s : ACore) (k : Nat) (x : Obj) : ACore := ⟨(k, s.next) :: s.corres, s.next + 1, fun j => if j = s.next then x else s.stars j⟩

def absLeaf (rstars : Nat → Obj) (e : BEntry) (cur : List BEntry) (s : ACore) : Res (List BEntry × ACore) :=
  match findChild cur e.name with
  | none => match e with
    | .node x => .ok (cur ++ [.node x.unsaved], s)
    | .ignoredDir x => .ok (cur ++ [.ignoredDir x.unsaved], s)
    | .mirage n k => match s.lookup k with
      | some j => .ok (cur ++ [.mirage n j], s)
      | none => .ok (cur ++ [.mirage n s.next], s.fresh k (rstars k).unsaved)
    | _ => .error .bug
  | some ici => match e with
    | .mirage _ k => (match ici with
      | .mirage _ j => .ok (cur, if s.lookup k = none then s.bindTo k j else s)
      | _ => .ok (cur, s))
    | .ignored _ => .error .bug
    | _ => .ok (cur, s)

mutual
def absEntry (rstars : Nat → Obj) (e : BEntry) (cur : List BEntry) (s : ACore) : Res (List BEntry × ACore) :=
  match e with
  | .dir x ch => match findChild cur x.name with
    | none => do
      let (c, s) ← absList rstars ch [] s
      .ok (cur ++ [.dir x.unsaved c], s)
    | some (.dir y c) => do
      let (c, s) ← absList rstars ch c s
      .ok (beforeChild cur y.name ++ .dir y c :: afterChild cur y.name, s)
    | some _ => .ok (cur, s)
  | .detruit _ _ _ => .ok (cur, s)
  | e => absLeaf rstars e cur s
def absList (rstars : Nat → Obj) (l : List BEntry) (cur : List BEntry) (s : ACore) : Res (List BEntry × ACore) :=
  match l with
  | [] => .ok (cur, s)
  | e :: l => do
    let (cur, s) ← absEntry rstars e cur s
    absList rstars l cur s
end

theorem absLoop_append (rstars : Nat → Obj) : ∀ (l : List BEv) (s : AbsSt) (r : List BEv),
    absLoop rstars s (l ++ r) = (absLoop rstars s l >>= fun s => absLoop rstars s r)
  | [], s, r => rfl
  | ev :: l, s, r => by
    show (do let s ← absStep rstars s ev; absLoop rstars s (l ++ r)) = (do let s ← (do let s ← absStep rstars s ev; absLoop rstars s l); absLoop rstars s r)
    cases absStep rstars s ev with
    | error e => rfl
    | ok s => exact absLoop_append rstars l s r

mutual
theorem abs_skip_entry (rstars : Nat → Obj) (e : BEntry) (s : AbsSt) (h : s.skip > 0) : absLoop rstars s e.events = .ok s := by
  have step : ∀ e : BEntry, e.isDir = false → absLoop rstars s [.entry e] = .ok s := by
    intro e he
    show (do let s ← absStep rstars s (.entry e); absLoop rstars s []) = _
    unfold absStep
    rw [if_pos h]
    simp only [he, Bool.false_eq_true, if_false]
    rfl
  match e with
  | .dir x c =>
    rw [BEntry.events]
    show (do let s ← absStep rstars s (.entry (.dir x c)); absLoop rstars s (BEntry.eventsList c ++ [BEv.eod])) = _
    unfold absStep
    rw [if_pos h]
    simp only [BEntry.isDir, if_true]
    show absLoop rstars { s with skip := s.skip + 1 } (BEntry.eventsList c ++ [BEv.eod]) = _
    rw [absLoop_append, abs_skip_list rstars c _ (Nat.succ_pos _)]
    show (do let s ← absStep rstars { s with skip := s.skip + 1 } BEv.eod; absLoop rstars s []) = _
    unfold absStep
    rw [if_pos (Nat.succ_pos _)]
    rfl
  | .node x => exact step _ rfl
  | .mirage n k => exact step _ rfl
  | .detruit n k d => exact step _ rfl
  | .ignored n => exact step _ rfl
  | .ignoredDir x => exact step _ rfl
theorem abs_skip_list (rstars : Nat → Obj) (l : List BEntry) (s : AbsSt) (h : s.skip > 0) : absLoop rstars s (BEntry.eventsList l) = .ok s := by
  match l with
  | [] => rfl
  | e :: l =>
    rw [BEntry.eventsList, absLoop_append, abs_skip_entry rstars e s h]
    exact abs_skip_list rstars l s h
end

/-- the state of the loop, from a position, contents and the rest -/
def mkAbs (fr : List (List BEntry × Obj × List BEntry)) (r : List BEntry × ACore) : AbsSt := ⟨⟨fr, r.1⟩, r.2.corres, r.2.next, r.2.stars, 0⟩

mutual
theorem abs_entry (rstars : Nat → Obj) (e : BEntry) (fr : List (List BEntry × Obj × List BEntry)) (cur : List BEntry) (s : ACore) :
    absLoop rstars (mkAbs fr (cur, s)) e.events = (absEntry rstars e cur s >>= fun r => .ok (mkAbs fr r)) := by
  have leaf : ∀ e : BEntry, e.isDir = false → e.isDet = false →
      absLoop rstars (mkAbs fr (cur, s)) [.entry e] = (absLeaf rstars e cur s >>= fun r => .ok (mkAbs fr r)) := by
    intro e h1 h2
    show (do let s ← absStep rstars (mkAbs fr (cur, s)) (.entry e); absLoop rstars s []) = _
    unfold absStep absLeaf
    rw [if_neg (show ¬ (mkAbs fr (cur, s)).skip > 0 from Nat.lt_irrefl 0)]
    simp only [h2, Bool.false_eq_true, if_false]
    change (match findChild cur e.name with | none => absAdd rstars (mkAbs fr (cur, s)) e | some ici => absFound (mkAbs fr (cur, s)) e ici) >>= _ = _
    cases findChild cur e.name with
    | none =>
      cases e with
      | mirage n k =>
        dsimp only [absAdd]
        change ((match s.lookup k with | some j => _ | none => _) >>= _) = _
        cases s.lookup k <;> rfl
      | dir => cases h1
      | detruit => cases h2
      | _ => rfl
    | some ici =>
      cases e with
      | mirage n k =>
        cases ici with
        | mirage m j =>
          show (Except.ok (if s.lookup k = none then _ else _) >>= _) = _
          by_cases hk : s.lookup k = none
          · simp only [hk, if_true]; rfl
          · simp only [hk, if_false]; rfl
        | _ => rfl
      | dir => cases h1
      | detruit => cases h2
      | _ => rfl
  match e with
  | .node x => exact leaf _ rfl rfl
  | .mirage n k => exact leaf _ rfl rfl
  | .detruit n k d => rfl
  | .ignored n => exact leaf _ rfl rfl
  | .ignoredDir x => exact leaf _ rfl rfl
  | .dir x ch =>
    rw [BEntry.events, absEntry]
    show (do let s ← absStep rstars (mkAbs fr (cur, s)) (.entry (.dir x ch)); absLoop rstars s (BEntry.eventsList ch ++ [BEv.eod])) = _
    unfold absStep
    rw [if_neg (show ¬ (mkAbs fr (cur, s)).skip > 0 from Nat.lt_irrefl 0)]
    simp only [BEntry.isDet, BEntry.name, Bool.false_eq_true, if_false]
    change ((match findChild cur x.name with | none => absAdd rstars (mkAbs fr (cur, s)) (.dir x ch) | some ici => absFound (mkAbs fr (cur, s)) (.dir x ch) ici) >>= _) = _
    have skipped : absLoop rstars { (mkAbs fr (cur, s)) with skip := 1 } (BEntry.eventsList ch ++ [BEv.eod]) = .ok (mkAbs fr (cur, s)) := by
      rw [absLoop_append, abs_skip_list rstars ch _ Nat.one_pos]
      show (do let s ← absStep rstars { (mkAbs fr (cur, s)) with skip := 1 } BEv.eod; absLoop rstars s []) = _
      unfold absStep
      rw [if_pos Nat.one_pos]
      rfl
    have inside : ∀ (b a : List BEntry) (y : Obj) (c : List BEntry), absLoop rstars (mkAbs ((b, y, a) :: fr) (c, s)) (BEntry.eventsList ch ++ [BEv.eod]) =
        ((do let (c, s) ← absList rstars ch c s; .ok (b ++ .dir y c :: a, s)) >>= fun r => .ok (mkAbs fr r)) := by
      intro b a y c
      rw [absLoop_append, abs_list rstars ch]
      cases absList rstars ch c s with
      | error e => rfl
      | ok r => rfl
    cases hf : findChild cur x.name with
    | none => exact inside cur [] x.unsaved []
    | some ici =>
      cases ici with
      | dir y c => exact inside (beforeChild cur y.name) (afterChild cur y.name) y c
      | _ => exact skipped
theorem abs_list (rstars : Nat → Obj) (l : List BEntry) (fr : List (List BEntry × Obj × List BEntry)) (cur : List BEntry) (s : ACore) :
    absLoop rstars (mkAbs fr (cur, s)) (BEntry.eventsList l) = (absList rstars l cur s >>= fun r => .ok (mkAbs fr r)) := by
  match l with
  | [] => rfl
  | e :: l =>
    rw [BEntry.eventsList, absLoop_append, abs_entry rstars e, absList]
    cases absEntry rstars e cur s with
    | error e => rfl
    | ok r => exact abs_list rstars l fr r.1 r.2
end

theorem updateAbsent_eq (next : Nat) (cat ref : BCat) :
    updateAbsent next cat ref = (absList ref.stars ref.root cat.root ⟨[], next, cat.stars⟩ >>= fun r => .ok ⟨r.1, r.2.stars⟩) := by
  unfold updateAbsent
  have := abs_list ref.stars ref.root [] cat.root ⟨[], next, cat.stars⟩
  unfold mkAbs at this
  rw [this]
  cases absList ref.stars ref.root cat.root ⟨[], next, cat.stars⟩ <;> rfl

end Dar
