import Verif.Lemmas.Merge3
/- A conflict between two entries: what is decided, what is kept, what is taken. -/
namespace Dar

theorem someAttr_iff (x y : Option Obj) : someAttr x y = true ↔ HasAttr x y := by
  unfold someAttr HasAttr
  cases x <;> cases y <;> simp
  tauto
theorem someAttr_keep (d : OverData) (x y : Option Obj) : someAttr (keepMark d x) y = someAttr x y := by
  unfold keepMark
  split
  · cases x with
    | none => rfl
    | some x =>
      cases y with
      | none => rfl
      | some y =>
        have := drop_attr x
        simp only [someAttr, Option.map_some, this.1, this.2.1]
  · rfl
theorem someAttr_take (o : MgOpts) (d : OverData) (x y : Option Obj) : someAttr x (takeData o d x y) = someAttr x y := by
  unfold takeData patchedOpt
  cases x with
  | none => cases y <;> rfl
  | some x =>
    cases y with
    | none => dsimp only; split <;> rfl
    | some y =>
      have h1 := patched_attr o x y
      have h2 := drop_attr (patched o x y)
      dsimp only
      split
      · simp only [someAttr, Option.map_some, h2.1, h2.2.1, h1.1, h1.2.1]
      · simp only [someAttr, h1.1, h1.2.1]

theorem warned_eq {o : MgOpts} {p : List Bytes} (hw : o.warn = true → o.acceptEa p = true) (d0 : OverData) (a : OverEa) :
    warned o p (if d0 = .ask then o.askData p else d0) a = answered o p d0 := by
  unfold warned answered
  generalize (if d0 = .ask then o.askData p else d0) = d
  cases hw1 : o.warn with
  | false => simp
  | true =>
    simp only [hw hw1, if_true]
    have : (match a with
      | .overwrite => match d with
        | .overwrite => if o.acceptData p then d else OverData.preserve
        | .overwriteMark => if o.acceptData p then d else .preserve
        | .remove => if o.acceptData p then d else .preserve
        | .preserveMark => if o.acceptData p then d else .preserve
        | d => d
      | _ => match d with
        | .overwrite => if o.acceptData p then d else .preserve
        | .overwriteMark => if o.acceptData p then d else .preserve
        | .remove => if o.acceptData p then d else .preserve
        | .preserveMark => if o.acceptData p then d else .preserve
        | d => d) = (match d with
        | .overwrite => if o.acceptData p then d else .preserve
        | .overwriteMark => if o.acceptData p then d else .preserve
        | .remove => if o.acceptData p then d else .preserve
        | .preserveMark => if o.acceptData p then d else .preserve
        | d => d) := by cases a <;> rfl
    cases ha : o.acceptData p <;> cases d <;> cases a <;> simp

theorem decideConflict_inv {o : MgOpts} {p : List Bytes} {x y : CEntry} {d : OverData} {a : OverEa} (hw : o.warn = true → o.acceptEa p = true)
    (h : decideConflict o p x y = .ok (d, a)) : ∃ d0, o.policy.get o.capa x y = .ok (d0, a) ∧ d = answered o p d0 := by
  unfold decideConflict at h
  cases hp : o.policy.get o.capa x y with
  | error e => rw [hp] at h; cases h
  | ok r =>
    obtain ⟨d0, a0⟩ := r
    rw [hp] at h
    cases h
    exact ⟨d0, rfl, warned_eq hw d0 _⟩

section
variable {o : MgOpts} {T : Nat → Obj} {P : List Bytes} {al E : BEntry} {f1 f2 : Bool} {d : OverData} {a : OverEa}

theorem decided_keep (hw : o.warn = true → o.acceptEa P = true) (h : decideConflict o P (al.crit T f1) (E.crit T f2) = .ok (d, a)) (hk : KeepsOld d) :
    Decided o T T P al E d (resolveEa o P .preserve a (keepMark d (al.obj T)) (E.obj T)) := by
  obtain ⟨d0, h1, h2⟩ := decideConflict_inv hw h
  refine ⟨d0, a, ⟨f1, f2, h1⟩, h2, fun ha => ?_, fun ha hh => ?_, fun ha hh => ?_⟩
  · unfold resolveEa; rw [if_neg ha]
  · unfold resolveEa; rw [if_pos ha, someAttr_keep, if_pos ((someAttr_iff _ _).2 hh)]
  · unfold resolveEa; rw [if_pos ha, someAttr_keep, if_neg (fun hc => hh ((someAttr_iff _ _).1 hc))]
    exact Or.inl ⟨hk, rfl⟩
theorem decided_take (hw : o.warn = true → o.acceptEa P = true) (h : decideConflict o P (al.crit T f1) (E.crit T f2) = .ok (d, a)) (hk : TakesNew d) :
    Decided o T T P al E d (resolveEa o P .overwrite a (al.obj T) (takeData o d (al.obj T) (E.obj T))) := by
  obtain ⟨d0, h1, h2⟩ := decideConflict_inv hw h
  refine ⟨d0, a, ⟨f1, f2, h1⟩, h2, fun ha => ?_, fun ha hh => ?_, fun ha hh => ?_⟩
  · unfold resolveEa; rw [if_neg ha]
  · unfold resolveEa; rw [if_pos ha, someAttr_take, if_pos ((someAttr_iff _ _).2 hh)]
  · unfold resolveEa; rw [if_pos ha, someAttr_take, if_neg (fun hc => hh ((someAttr_iff _ _).1 hc))]
    exact Or.inr (Or.inl ⟨hk, rfl⟩)
theorem decided_drop (hw : o.warn = true → o.acceptEa P = true) (h : decideConflict o P (al.crit T f1) (E.crit T f2) = .ok (d, a)) (hk : d = .remove) :
    Decided o T T P al E d (if a = .ask then o.askEa P else a) := by
  obtain ⟨d0, h1, h2⟩ := decideConflict_inv hw h
  refine ⟨d0, a, ⟨f1, f2, h1⟩, h2, fun ha => ?_, fun ha hh => ?_, fun ha hh => ?_⟩
  · rw [if_neg ha]
  · rw [if_pos ha]
  · exact Or.inr (Or.inr hk)

/-- the entry whose inode has been changed -/
def BEntry.update (e : BEntry) (x : Option Obj) : BEntry :=
  match x with
  | none => e
  | some x => e.withInode x

theorem keeps_ne {d : OverData} (h : KeepsOld d) : ¬ (d = .overwrite ∨ d = .overwriteMark) := fun ht => takes_not_keeps h ht

theorem lone_of {α : Type} {x y : α} (h : (some x : Option α) = none ∨ (some y : Option α) = none) : False := by
  rcases h with h | h <;> cases h

/-- the kept entry -/
theorem keep_head {x : Option Obj} (hk : KeepsOld d) (hig : al.isIgnoredDir = false) (h : keepAttr o a (keepMark d (al.obj T)) (E.obj T) = .ok x) :
    HeadOf o T T d a al E (al.update x) := by
  unfold HeadOf
  rw [if_neg (keeps_ne hk)]
  have ino : ∀ t, al.obj T = some t → ∃ w, x = some w ∧ ResultInode o T T d a al E t w := by
    intro t ht
    rw [ht] at h
    cases hE : E.obj T with
    | none =>
      rw [hE] at h
      obtain ⟨w, h1, h2⟩ := keep_lone hk h
      exact ⟨w, h1, (fun x y _ hy => by rw [hE] at hy; cases hy), fun _ => h2⟩
    | some y =>
      rw [hE] at h
      obtain ⟨w, h1, h2⟩ := keep_both hk h
      refine ⟨w, h1, fun x y' hx hy => ?_, fun hl => ?_⟩
      · rw [ht] at hx; rw [hE] at hy
        cases hx; cases hy
        exact h2
      · rw [ht, hE] at hl; exact (lone_of hl).elim
  cases al with
  | node t => obtain ⟨w, h1, h2⟩ := ino t rfl; exact ⟨w, by rw [h1]; rfl, h2⟩
  | dir t c => obtain ⟨w, h1, h2⟩ := ino t rfl; exact ⟨w, c, by rw [h1]; rfl, h2⟩
  | mirage n k => cases x <;> rfl
  | detruit n k t => cases x <;> rfl
  | ignored n => cases x <;> rfl
  | ignoredDir t => cases hig

/-- the entry taken -/
theorem take_head {x : Option Obj} (hk : TakesNew d) (hig : E.isIgnoredDir = false) (h : takeAttr o a (al.obj T) (takeData o d (al.obj T) (E.obj T)) = .ok x) :
    HeadOf o T T d a al E (E.update x) := by
  unfold HeadOf
  rw [if_pos (show d = .overwrite ∨ d = .overwriteMark from hk)]
  have ino : ∀ t, E.obj T = some t → ∃ w, x = some w ∧ ResultInode o T T d a al E t w := by
    intro t ht
    rw [ht] at h
    cases hE : al.obj T with
    | none =>
      rw [hE] at h
      obtain ⟨w, h1, h2⟩ := take_lone hk h
      exact ⟨w, h1, (fun x y hx _ => by rw [hE] at hx; cases hx), fun _ => h2⟩
    | some y =>
      rw [hE] at h
      obtain ⟨w, h1, h2⟩ := take_both hk h
      refine ⟨w, h1, fun x y' hx hy => ?_, fun hl => ?_⟩
      · rw [hE] at hx; rw [ht] at hy
        cases hx; cases hy
        exact h2
      · rw [ht, hE] at hl; exact (lone_of hl).elim
  cases E with
  | node t => obtain ⟨w, h1, h2⟩ := ino t rfl; exact ⟨w, by rw [h1]; rfl, h2⟩
  | dir t c => obtain ⟨w, h1, h2⟩ := ino t rfl; exact ⟨w, c, by rw [h1]; rfl, h2⟩
  | mirage n k => cases x <;> rfl
  | detruit n k t => cases x <;> rfl
  | ignored n => cases x <;> rfl
  | ignoredDir t => cases hig

/-- nothing changes the inode of a hard link that is kept -/
theorem keep_link {x : Option Obj} {k : Nat} (hp : Whole d a) (hk : KeepsOld d) (hl : al.label = some k) (h : keepAttr o a (keepMark d (al.obj T)) (E.obj T) = .ok x) :
    x = some { T k with name := al.name } := by
  cases al with
  | mirage n j =>
    cases hl
    rcases hp with ⟨h1, h2⟩ | ⟨h1, _⟩ | h1
    · have : keepMark d (BEntry.obj T (.mirage n k)) = some { T k with name := n } := by
        unfold keepMark
        rw [if_neg (by rcases h1 with rfl | rfl <;> simp)]
        rfl
      rw [this] at h
      rcases h2 with rfl | rfl <;> cases h <;> rfl
    · exact absurd (Or.inl h1) (takes_not_keeps hk)
    · subst h1
      rcases hk with h | h | h <;> cases h
  | _ => cases hl
theorem take_link {x : Option Obj} {k : Nat} (hp : Whole d a) (hk : TakesNew d) (hl : E.label = some k) (hnd : (T k).ino.status ≠ .delta)
    (h : takeAttr o a (al.obj T) (takeData o d (al.obj T) (E.obj T)) = .ok x) : x = some { T k with name := E.name } := by
  cases E with
  | mirage n j =>
    cases hl
    rcases hp with ⟨h1, h2⟩ | ⟨h1, h2⟩ | h1
    · exact absurd (by rcases h1 with rfl | rfl <;> simp [KeepsOld]) (keeps_not_takes hk)
    · subst h1 h2
      have : takeData o .overwrite (al.obj T) (BEntry.obj T (.mirage n k)) = some { T k with name := n } := by
        show takeData o .overwrite (al.obj T) (some { T k with name := n }) = some { T k with name := n }
        generalize al.obj T = v
        cases v with
        | none => rfl
        | some y =>
          show some (patched o y { T k with name := n }) = some { T k with name := n }
          unfold patched
          rw [if_neg (fun hc => hnd hc.2.2.1)]
      rw [this] at h
      cases h
      rfl
    · subst h1
      rcases hk with h | h <;> cases h
  | _ => cases hl

end

theorem emptied_obj (st : Nat → Obj) (e : BEntry) : e.emptied.obj st = e.obj st := by cases e <;> rfl
theorem emptied_crit (st : Nat → Obj) (f : Bool) (e : BEntry) : e.emptied.crit st f = e.crit st f := by cases e <;> rfl
theorem emptied_label (e : BEntry) : e.emptied.label = e.label := by cases e <;> rfl
theorem emptied_isDir (e : BEntry) : e.emptied.isDir = e.isDir := by cases e <;> rfl
theorem emptied_name (e : BEntry) : e.emptied.name = e.name := by cases e <;> rfl
theorem obj_congr {st T : Nat → Obj} {e : BEntry} (h : ∀ k, e.label = some k → st k = T k) : e.obj st = e.obj T := by
  cases e <;> first | rfl | (simp only [BEntry.obj]; rw [h _ rfl])
theorem crit_congr {st T : Nat → Obj} {e : BEntry} (f : Bool) (h : ∀ k, e.label = some k → st k = T k) : e.crit st f = e.crit T f := by
  cases e <;> first | rfl | (show CEntry.mirage (st _).ino f = CEntry.mirage (T _).ino f; rw [h _ rfl])

/-- the inodes resulting from a conflict have the name of the entry retained -/
theorem resultInode_name {o : MgOpts} {T : Nat → Obj} {d : OverData} {a : OverEa} {e1 e2 : BEntry} {t z : Obj} (h : ResultInode o T T d a e1 e2 t z)
    (hk : KeepsOld d ∧ e1.obj T = some t ∨ TakesNew d ∧ e2.obj T = some t) : z.name = t.name := by
  have hsav : ∀ x : Obj, x.asAlreadySaved.name = x.name := fun x => (drop_attr x).2.2.2.2.2.1
  have hnew : ∀ x y : Obj, (Obj.newer o x y).name = y.name := fun x y => (patched_attr o x y).2.2.2.2.2.1
  cases h1 : e1.obj T with
  | none =>
    have hl := h.2 (Or.inl h1)
    have hlone : ∀ (b : Bool), (if d = .preserveMark ∨ d = .overwriteMark then t.asAlreadySaved else t).name = t.name := fun _ => by split <;> simp [hsav]
    unfold LoneInode at hl
    dsimp only at hl
    by_cases hc1 : KeepsOld d ∧ (a = .clear ∨ a = .preserveMark)
    · rcases hc1 with ⟨hk, rfl | rfl⟩
      · exact (hl.1 hk rfl).1.name.trans (hlone true)
      · exact (hl.2.1 hk rfl).1.name.trans (hlone true)
    · by_cases hc2 : TakesNew d ∧ a = .overwriteMark
      · exact (hl.2.2.1 hc2.1 hc2.2).1.name.trans (hlone true)
      · exact (congrArg Obj.name (hl.2.2.2 hc1 hc2)).trans (hlone true)
  | some x =>
    cases h2 : e2.obj T with
    | none =>
      have hl := h.2 (Or.inr h2)
      have hlone : ∀ (b : Bool), (if d = .preserveMark ∨ d = .overwriteMark then t.asAlreadySaved else t).name = t.name := fun _ => by split <;> simp [hsav]
      unfold LoneInode at hl
      dsimp only at hl
      by_cases hc1 : KeepsOld d ∧ (a = .clear ∨ a = .preserveMark)
      · rcases hc1 with ⟨hk, rfl | rfl⟩
        · exact (hl.1 hk rfl).1.name.trans (hlone true)
        · exact (hl.2.1 hk rfl).1.name.trans (hlone true)
      · by_cases hc2 : TakesNew d ∧ a = .overwriteMark
        · exact (hl.2.2.1 hc2.1 hc2.2).1.name.trans (hlone true)
        · exact (congrArg Obj.name (hl.2.2.2 hc1 hc2)).trans (hlone true)
    | some y =>
      have := (h.1 x y h1 h2).1.name
      rw [this]
      rcases hk with ⟨hk, ht⟩ | ⟨hk, ht⟩
      · rw [h1] at ht
        cases ht
        rcases hk with rfl | rfl | rfl
        · rfl
        · exact hsav _
        · rfl
      · rw [h2] at ht
        cases ht
        rcases hk with rfl | rfl
        · exact hnew _ _
        · exact (hsav _).trans (hnew _ _)

theorem keep_name {o : MgOpts} {T : Nat → Obj} {d : OverData} {a : OverEa} {al E : BEntry} {x : Option Obj} (hk : KeepsOld d) (hig : al.isIgnoredDir = false)
    (h : HeadOf o T T d a al E (al.update x)) : (al.update x).name = al.name := by
  unfold HeadOf at h
  rw [if_neg (keeps_ne hk)] at h
  cases al with
  | node t => obtain ⟨z, h1, h2⟩ := h; rw [h1]; exact resultInode_name h2 (Or.inl ⟨hk, rfl⟩)
  | dir t c => obtain ⟨z, c', h1, h2⟩ := h; rw [h1]; exact resultInode_name h2 (Or.inl ⟨hk, rfl⟩)
  | mirage n k => rw [h]
  | detruit n k t => rw [h]
  | ignored n => rw [h]
  | ignoredDir t => cases hig
theorem take_name {o : MgOpts} {T : Nat → Obj} {d : OverData} {a : OverEa} {al E : BEntry} {x : Option Obj} (hk : TakesNew d) (hig : E.isIgnoredDir = false)
    (h : HeadOf o T T d a al E (E.update x)) : (E.update x).name = E.name := by
  unfold HeadOf at h
  rw [if_pos (show d = .overwrite ∨ d = .overwriteMark from hk)] at h
  cases E with
  | node t => obtain ⟨z, h1, h2⟩ := h; rw [h1]; exact resultInode_name h2 (Or.inr ⟨hk, rfl⟩)
  | dir t c => obtain ⟨z, c', h1, h2⟩ := h; rw [h1]; exact resultInode_name h2 (Or.inr ⟨hk, rfl⟩)
  | mirage n k => rw [h]
  | detruit n k t => rw [h]
  | ignored n => rw [h]
  | ignoredDir t => cases hig

end Dar
