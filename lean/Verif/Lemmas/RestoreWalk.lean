import Verif.Lemmas.Restore3
/- The loop of filtre_restore seen as a walk over the tree, and the elementary changes made by filesystem_restore::write. -/
namespace Dar

/-! ### the walk -/

/-- one turn of the loop with an entry; whether the contents, if any, are not skipped -/
def rsTurn (o : RsOpts) (stars : Nat → Obj) (s : RsSt) (e : BEntry) : Res (RsSt × Bool) :=
  if e.isDet && o.notDeleted then .ok (s, true)
  else if o.cov (s.cdir ++ [e.name]) e && (!o.onlyDeleted || e.isDir || e.isDet) then
    match s.write o stars e with
    | .ok (s, d) => .ok ({ s with st := s.st.done d }, true)
    | .error (.bug, _) => .error .bug
    | .error (_, s) => .ok ({ s with st := if o.onlyDeleted then s.st else s.st.err }, false)
  else .ok ({ s with st := s.st.ign }, false)

/-- the end of a directory -/
def rsLeave (o : RsOpts) (s : RsSt) : Res RsSt :=
  match s.writeEod o with
  | .ok s => .ok s
  | .error (err, _) => .error err

mutual
/-- an entry with what it contains -/
def walkE (o : RsOpts) (stars : Nat → Obj) (e : BEntry) (s : RsSt) : Res RsSt :=
  match e with
  | .dir x c => (rsTurn o stars s (.dir x c)).bind fun r => if r.2 then (walkL o stars c r.1).bind (rsLeave o) else .ok r.1
  | .node x => (rsTurn o stars s (.node x)).map (·.1)
  | .mirage n k => (rsTurn o stars s (.mirage n k)).map (·.1)
  | .detruit n k t => (rsTurn o stars s (.detruit n k t)).map (·.1)
  | .ignored n => (rsTurn o stars s (.ignored n)).map (·.1)
  | .ignoredDir x => (rsTurn o stars s (.ignoredDir x)).map (·.1)
/-- the contents of a directory -/
def walkL (o : RsOpts) (stars : Nat → Obj) (l : List BEntry) (s : RsSt) : Res RsSt :=
  match l with
  | [] => .ok s
  | e :: l => (walkE o stars e s).bind (walkL o stars l)
end

variable {o : RsOpts} {stars : Nat → Obj} {s s' : RsSt} {e : BEntry} {p : List Bytes} {hard : Bool}

theorem walkE_leaf (he : e.isDir = false) : walkE o stars e s = (rsTurn o stars s e).map (·.1) := by
  cases e with
  | dir x c => cases he
  | _ => rw [walkE]
theorem walkE_dir (x : Obj) (c : List BEntry) : walkE o stars (.dir x c) s =
    (rsTurn o stars s (.dir x c)).bind fun r => if r.2 then (walkL o stars c r.1).bind (rsLeave o) else .ok r.1 := by rw [walkE]
theorem walkL_cons (l : List BEntry) : walkL o stars (e :: l) s = (walkE o stars e s).bind (walkL o stars l) := by rw [walkL]
theorem walkL_nil : walkL o stars [] s = .ok s := by rw [walkL]
theorem walkL_append : ∀ (l1 l2 : List BEntry) (s : RsSt), walkL o stars (l1 ++ l2) s = (walkL o stars l1 s).bind (walkL o stars l2)
  | [], l2, s => by rw [walkL_nil]; rfl
  | a :: l1, l2, s => by
    rw [List.cons_append, walkL_cons, walkL_cons]
    cases walkE o stars a s with
    | error err => rfl
    | ok s1 => exact walkL_append l1 l2 s1

/-! ### elementary changes -/

/-- the elementary changes made while writing the entry `e` at the path `p`; `hard`: names may be created and removed -/
inductive Prim (o : RsOpts) (e : BEntry) (p : List Bytes) (hard : Bool) : RsSt → RsSt → Prop
  | make (s : RsSt) (x : Obj) (hh : hard = true) (h : s.fs.ent p = none) (hd : s.fs.isDir p.dropLast = true) : Prim o e p hard s { s with fs := s.fs.newObj o p x }
  | link (s : RsSt) (n : Bytes) (k i : Nat) (v : List Bytes × Bool) (hh : hard = true) (he : e = .mirage n k) (hl : s.label k = some v) (hi : s.fs.ent v.1 = some (.ino i)) (h : s.fs.ent p = none)
      (hd : s.fs.isDir p.dropLast = true) : Prim o e p hard s { s with fs := s.fs.put o.now p (.ino i) }
  | remove (s : RsSt) (hh : hard = true) : Prim o e p hard s { s with fs := s.fs.remove o.now p }
  | update (s : RsSt) (f : Obj → Obj) (hk : ∀ y, (f y).ino.kind = y.ino.kind) : Prim o e p hard s { s with fs := s.fs.upd p f }
  | record (s : RsSt) (n : Bytes) (k : Nat) (q : List Bytes) (b : Bool) (he : e = .mirage n k) (hq : q = p ∨ ∃ b', s.label k = some (q, b')) : Prim o e p hard s (s.record k q b)
  | forget (s : RsSt) (k : Nat) : Prim o e p hard s (s.forget k)
  | flag (s : RsSt) : Prim o e p hard s s.flag

/-- a sequence of them -/
inductive Prims (o : RsOpts) (e : BEntry) (p : List Bytes) (hard : Bool) (s : RsSt) : RsSt → Prop
  | refl : Prims o e p hard s s
  | step {s1 s2 : RsSt} (h : Prims o e p hard s s1) (h2 : Prim o e p hard s1 s2) : Prims o e p hard s s2

theorem Prims.trans {s s1 s2 : RsSt} (h : Prims o e p hard s s1) (h2 : Prims o e p hard s1 s2) : Prims o e p hard s s2 := by
  induction h2 with
  | refl => exact h
  | step _ h4 ih => exact ih.step h4
theorem Prim.one {s s1 : RsSt} (h : Prim o e p hard s s1) : Prims o e p hard s s1 := .step .refl h

/-- an invariant of the elementary changes -/
theorem Prims.inv {I : RsSt → Prop} (hs : ∀ a b, I a → Prim o e p hard a b → I b) {s s1 : RsSt} (h : Prims o e p hard s s1) (hi : I s) : I s1 := by
  induction h with
  | refl => exact hi
  | step _ h2 ih => exact hs _ _ ih h2

theorem prims_frame {s s1 : RsSt} (h : Prims o e p hard s s1) :
    s1.cdir = s.cdir ∧ s1.stack.map (·.1) = s.stack.map (·.1) ∧ s1.stack.tail = s.stack.tail ∧ s1.st = s.st ∧ s1.skip = s.skip := by
  refine h.inv (I := fun s1 => s1.cdir = s.cdir ∧ s1.stack.map (·.1) = s.stack.map (·.1) ∧ s1.stack.tail = s.stack.tail ∧ s1.st = s.st ∧ s1.skip = s.skip) ?_ ⟨rfl, rfl, rfl, rfl, rfl⟩
  intro a b ha hab
  cases hab with
  | flag =>
    rw [flag_eq]
    refine ⟨ha.1, ?_, ?_, ha.2.2.2⟩
    · rw [← ha.2.1]
      dsimp only
      cases a.stack with
      | nil => rfl
      | cons v l => rfl
    · rw [← ha.2.2.1]
      dsimp only
      cases a.stack with
      | nil => rfl
      | cons v l => rfl
  | _ => exact ha

/-- what a function does is a sequence of elementary changes, even if it throws -/
def Runs (o : RsOpts) (e : BEntry) (p : List Bytes) (hard : Bool) (s : RsSt) {α : Type} (f : α → RsSt) (r : RsM α) : Prop :=
  match r with
  | .ok a => Prims o e p hard s (f a)
  | .error (_, s') => Prims o e p hard s s'

theorem Runs.bind {α β : Type} {f : α → RsSt} {g : β → RsSt} {r : RsM α} {k : α → RsM β} (h : Runs o e p hard s f r)
    (hk : ∀ a, r = .ok a → Runs o e p hard (f a) g (k a)) : Runs o e p hard s g (r >>= k) := by
  cases r with
  | ok a =>
    have h2 := hk a rfl
    show Runs o e p hard s g (k a)
    unfold Runs at h h2 ⊢
    cases hka : k a with
    | ok b => rw [hka] at h2; exact h.trans h2
    | error er => rw [hka] at h2; exact h.trans h2
  | error e => exact h
theorem Runs.pre {s s1 : RsSt} {α : Type} {f : α → RsSt} {r : RsM α} (h1 : Prims o e p hard s s1) (h : Runs o e p hard s1 f r) : Runs o e p hard s f r := by
  cases r with
  | ok a => exact h1.trans h
  | error e => exact h1.trans h
theorem runs_refl {α : Type} {f : α → RsSt} {a : α} (h : f a = s) : Runs o e p hard s f (.ok a) := by
  show Prims o e p hard s (f a)
  rw [h]; exact .refl
theorem runs_throw {α : Type} {f : α → RsSt} (er : Err) : Runs o e p hard s f (s.throw er : RsM α) := Prims.refl

theorem create_newObj (o : RsOpts) (s : RsSt) (p : List Bytes) (x : Obj) :
    s.create o p x = if s.fs.isDir p.dropLast then .ok { s with fs := s.fs.newObj o p x } else s.throw .range := by
  unfold RsSt.create FS.newObj FS.newIno FS.newDir
  by_cases hd : s.fs.isDir p.dropLast = true
  · rw [if_pos hd, if_pos hd]
    split <;> rfl
  · rw [if_neg hd, if_neg hd]

theorem runs_create (x : Obj) (hn : s.fs.ent p = none) : Runs o e p true s id (s.create o p x) := by
  rw [create_newObj]
  split
  · exact (Prim.make s x rfl hn (by assumption)).one
  · exact .refl
theorem runs_first (n : Bytes) (k : Nat) (x : Obj) (he : e = .mirage n k) (hn : s.fs.ent p = none) : Runs o e p true s id (s.createFirst o p k x) :=
  Runs.bind (runs_create x hn) fun a _ => (Prim.record a n k p false he (Or.inl rfl)).one
theorem runs_make (x : Obj) (hn : s.fs.ent p = none) : Runs o e p true s id (s.makeFile o e x p) := by
  unfold RsSt.makeFile
  cases e with
  | mirage n k =>
    simp only
    split
    · exact runs_first n k x rfl hn
    · rename_i old b hl
      split
      · rename_i i hi
        split
        · exact (Prim.link s n k i (old, b) rfl rfl hl hi hn (by assumption)).one
        · exact .refl
      · exact Runs.pre (Prim.forget s k).one (runs_first n k x rfl hn)
      · split
        · exact Runs.pre (Prim.forget s k).one (runs_first n k x rfl hn)
        · exact .refl
  | _ => exact runs_create x hn

theorem prims_setEa (ea : Bytes) : Prims o e p hard s (s.setEa o e ea p).1 := by
  unfold RsSt.setEa
  cases e with
  | mirage n k =>
    simp only
    split
    · exact (Prim.record s n k p true rfl (Or.inl rfl)).one.step (.update _ _ (fun _ => rfl))
    · exact .refl
    · rename_i old hl
      exact (Prim.record s n k old true rfl (Or.inr ⟨_, hl⟩)).one.step (.update _ _ (fun _ => rfl))
  | _ => exact (Prim.update s (fun y => { y with eas := o.eaOver y.eas ea }) (fun _ => rfl)).one
theorem prims_clearEa : Prims o e p hard s (s.clearEa e p).1 := by
  unfold RsSt.clearEa
  cases e with
  | mirage n k =>
    simp only
    split
    · exact (Prim.record s n k p false rfl (Or.inl rfl)).one.step (.update _ _ (fun _ => rfl))
    · exact .refl
    · exact (Prim.update s (fun y => { y with eas := [] }) (fun _ => rfl)).one
  | _ => exact (Prim.update s (fun y => { y with eas := [] }) (fun _ => rfl)).one
theorem prims_setFsa (fsa : Bytes) : Prims o e p hard s (s.setFsa o fsa p) := (Prim.update s (fun y => { y with fsas := o.fsaOver y.fsas fsa }) (fun _ => rfl)).one
theorem date_kind (o : RsOpts) (x y : Obj) : (o.date x y).ino.kind = y.ino.kind := by
  unfold RsOpts.date; split <;> rfl
theorem ownerPerm_kind (o : RsOpts) (x y : Obj) : (o.ownerPerm x y).ino.kind = y.ino.kind := by
  unfold RsOpts.ownerPerm; simp only; split <;> split <;> rfl
theorem widen_kind (o : RsOpts) (x y : Obj) : (o.widen x y).ino.kind = y.ino.kind := by
  unfold RsOpts.widen; split <;> rfl
theorem runs_setDate (x : Obj) : Runs o e p hard s id (s.setDate o x p) := by
  unfold RsSt.setDate
  split
  · split <;> exact Prims.refl
  · exact (Prim.update s _ (date_kind o x)).one
theorem prims_setOwner (x : Obj) : Prims o e p hard s (s.setOwner o x p) := (Prim.update s _ (ownerPerm_kind o x)).one

theorem runs_new (x : Obj) (hn : s.fs.ent p = none) : Runs o e p true s Prod.fst (s.writeNew o e x p) := by
  unfold RsSt.writeNew
  split
  · refine Runs.bind (runs_make x hn) fun s1 _ => ?_
    dsimp only [id]
    refine Runs.pre (Prim.flag s1).one ?_
    generalize s1.flag = s1
    generalize hs2 : (if x.eaSaved = true then (s1.setEa o e x.getEa p).1 else s1) = s2
    have g2 : Prims o e p true s1 s2 := by
      subst hs2; split
      · exact prims_setEa _
      · exact .refl
    refine Runs.pre g2 ?_
    generalize hs3 : (if x.fsa = .full then s2.setFsa o x.fsas p else s2) = s3
    have g3 : Prims o e p true s2 s3 := by
      subst hs3; split
      · exact prims_setFsa _
      · exact .refl
    refine Runs.pre g3 ?_
    refine Runs.bind (f := id) ?_ fun s4 _ => ?_
    · split
      · exact .refl
      · exact Runs.bind (f := id) (g := id) (runs_setDate x) fun a _ => prims_setOwner x
    · show Prims o e p true s4 (if x.eaSaved = true then (s4.setEa o e x.getEa p).1 else s4)
      split
      · exact prims_setEa _
      · exact .refl
  · exact .refl

theorem remove_none (fs : FS) (now : DateT) (p : List Bytes) : (fs.remove now p).ent p = none := remove_here now fs p p (List.prefix_refl p)

theorem runs_replace (x y : Obj) : Runs o e p true s id (s.replace o e x y p) := by
  unfold RsSt.replace
  refine Runs.bind (Runs.pre (Prim.remove s rfl).one (runs_make x (remove_none s.fs o.now p))) fun s1 _ => ?_
  dsimp only [id]
  by_cases hy : y.eas = []
  · simp only [hy, if_true]; exact prims_setFsa _
  · simp only [hy, if_false]
    exact (Prim.update s1 (fun z => { z with eas := o.eaOver z.eas y.eas }) (fun _ => rfl)).one.trans (prims_setFsa _)

theorem runs_overData (x y : Obj) (a : OverData) : Runs o e p true s Prod.fst (s.overData o e x y p a) := by
  unfold RsSt.overData
  simp only
  have hp : Runs o e p true s Prod.fst (if (e.isDir && !(sameInPlace x y)) = true then s.throw .range else (.ok (s, .policy) : RsM (RsSt × RsDone))) := by split <;> exact .refl
  have ho : Runs o e p true s Prod.fst (if ((e.isDir || decide (x.ino.status = .inodeOnly)) && sameInPlace x y) = true then (.ok ({ s with fs := s.fs.upd p (o.widen x) }, .restored) : RsM (RsSt × RsDone))
    else if x.ino.status = .inodeOnly then s.throw .range
    else do
      let s ← s.replace o e x y p
      .ok (s, .restored)) := by
    split
    · exact (Prim.update s _ (widen_kind o x)).one
    · split
      · exact .refl
      · exact Runs.bind (runs_replace x y) fun _ _ => .refl
  cases a with
  | preserve => exact hp
  | preserveMark => exact hp
  | overwrite => exact ho
  | overwriteMark => exact ho
  | remove => exact (Prim.remove s rfl).one
  | undefined => exact .refl
  | ask => exact .refl

theorem runs_overContent (x y : Obj) (a : OverData) : Runs o e p true s Prod.fst (s.overContent o e x y p a) := by
  unfold RsSt.overContent
  split
  · exact runs_overData ..
  · split
    · split
      · split
        · exact .refl
        · rename_i d _
          exact (Prim.update s (fun z => { z with data := d, ino := { z.ino with size := x.ino.size, mtime := o.now } }) (fun _ => rfl)).one
      · exact .refl
    · cases e with
      | mirage n k =>
        simp only
        split
        · exact .refl
        · exact (Prim.record s n k p false rfl (Or.inl rfl)).one
      | _ => exact .refl

theorem runs_overEa (x y : Obj) (a : OverEa) : Runs o e p hard s Prod.fst (s.overEa o e x y p a) := by
  unfold RsSt.overEa
  simp only
  generalize (if y.eas = [] ∧ (a = .mergePreserve ∨ a = .mergeOverwrite) then OverEa.overwrite else a) = c
  generalize (if x.ino.eaStatus = .removed ∧ (c = .mergePreserve ∨ c = .mergeOverwrite) then OverEa.clear else c) = b
  have ho : Runs o e p hard s Prod.fst (match s.clearEa e p with
    | (s, false) => (.ok (s, false) : RsM (RsSt × Bool))
    | (s, true) => .ok (s.setEa o e x.getEa p)) := by
    have := prims_clearEa (o := o) (s := s) (e := e) (p := p) (hard := hard)
    generalize s.clearEa e p = r at this
    obtain ⟨s1, b⟩ := r
    cases b with
    | false => exact this
    | true => exact this.trans (prims_setEa _)
  cases b with
  | overwrite => exact ho
  | overwriteMark => exact ho
  | clear => exact prims_clearEa
  | mergePreserve => simp only; split; exacts [prims_setEa _, .refl]
  | mergeOverwrite => simp only; split; exacts [prims_setEa _, .refl]
  | _ => exact .refl

theorem runs_overFsa (x y : Obj) (a : OverEa) : Runs o e p hard s Prod.fst (s.overFsa o e x y p a) := by
  unfold RsSt.overFsa
  simp only
  generalize (if y.fsas = [] ∧ (a = .mergePreserve ∨ a = .mergeOverwrite) then OverEa.overwrite else a) = b
  cases b with
  | overwrite => simp only; split; exacts [.refl, prims_setFsa _]
  | overwriteMark => simp only; split; exacts [.refl, prims_setFsa _]
  | mergePreserve => exact prims_setFsa _
  | mergeOverwrite => exact prims_setFsa _
  | _ => exact .refl

theorem runs_caught {r : RsM (RsSt × Bool)} (h : Runs o e p hard s Prod.fst r) : Runs o e p hard s Prod.fst (caught s r) := by
  unfold caught
  split
  · exact h
  · exact .refl
  · exact h

/-- once the data is restored -/
theorem runs_over_rest (x y : Obj) (ad : OverData) (ae : OverEa) {s1 : RsSt} {d : RsDone} (hc : s.overContent o e x y p ad = .ok (s1, d)) :
    Runs o e p hard s1 Prod.fst (s.writeOver o e x y p ad ae) := by
  unfold RsSt.writeOver
  rw [hc]
  show Runs o e p hard s1 Prod.fst (Except.bind _ _)
  simp only [Except.bind]
  refine Runs.bind (f := Prod.fst) ?_ fun r2 _ => ?_
  · split
    · exact runs_caught (runs_overEa ..)
    · exact .refl
  obtain ⟨s2, ea⟩ := r2
  simp only
  refine Runs.bind (f := Prod.fst) ?_ fun r3 _ => ?_
  · split
    · exact runs_caught (runs_overFsa ..)
    · exact .refl
  obtain ⟨s3, fa⟩ := r3
  simp only
  refine Runs.bind (f := id) ?_ fun s4 _ => ?_
  · split
    · split
      · split
        · exact .refl
        · exact Runs.bind (runs_setDate x) fun _ _ => prims_setOwner x
      · exact runs_setDate y
    · exact .refl
  simp only [id]
  refine Runs.bind (f := Prod.fst) ?_ fun r5 _ => ?_
  · split
    · exact runs_caught (runs_overEa ..)
    · exact .refl
  obtain ⟨s5, fb⟩ := r5
  simp only
  by_cases hc : ad = .remove ∨ d = .restored
  · rw [if_pos hc]; exact (Prim.flag s5).one
  · rw [if_neg hc]; exact .refl

theorem runs_over_of (x y : Obj) (ad : OverData) (ae : OverEa) (hc : Runs o e p hard s Prod.fst (s.overContent o e x y p ad)) :
    Runs o e p hard s Prod.fst (s.writeOver o e x y p ad ae) := by
  cases hr : s.overContent o e x y p ad with
  | ok r => rw [hr] at hc; exact Runs.pre hc (runs_over_rest x y ad ae hr)
  | error er =>
    rw [hr] at hc
    unfold RsSt.writeOver
    rw [hr]
    exact hc

theorem runs_over (x y : Obj) (ad : OverData) (ae : OverEa) : Runs o e p true s Prod.fst (s.writeOver o e x y p ad ae) :=
  runs_over_of x y ad ae (runs_overContent x y ad)

theorem runs_overRemove (a : OverData) : Runs o e p true s id (s.overRemove o p a) := by
  unfold RsSt.overRemove
  split
  · exact .refl
  · exact .refl
  · exact (Prim.remove s rfl).one
  · exact (Prim.remove s rfl).one
  · exact (Prim.remove s rfl).one
  · exact .refl
  · exact .refl

/-- entering a directory -/
def RsSt.push (s : RsSt) (x : Obj) (f : Bool) : RsSt := { s with cdir := s.cdir ++ [x.name], stack := (x, f) :: s.stack }

theorem obj_none {fs : FS} {p : List Bytes} : fs.obj p = none ↔ fs.ent p = none := by
  unfold FS.obj
  split <;> simp [*]

/-- what filesystem_restore::write does: elementary changes, then a directory may be entered -/
def WriteDone (o : RsOpts) (hard : Bool) (s : RsSt) (e : BEntry) (r : RsM (RsSt × RsDone)) : Prop :=
  match r with
  | .ok (s', d) => ∃ s1, Prims o e (s.cdir ++ [e.name]) hard s s1 ∧ (s' = s1 ∨ ∃ x c, e = .dir x c ∧ s' = s1.push x (decide (d = .restored)))
  | .error (_, s') => Prims o e (s.cdir ++ [e.name]) hard s s'

theorem enter_push (s1 : RsSt) (x : Obj) (old : Option Obj) (d : RsDone) (hx : ∀ x' c, e = .dir x' c → x' = x) :
    s1.enter e x old d = s1 ∨ ∃ x c, e = .dir x c ∧ s1.enter e x old d = s1.push x (decide (d = .restored)) := by
  unfold RsSt.enter RsSt.push
  dsimp only
  cases e with
  | dir x' c =>
    cases hx x' c rfl
    generalize ((BEntry.dir x c).isDir && _) = b
    cases b with
    | false => exact Or.inl rfl
    | true => exact Or.inr ⟨x, c, rfl, rfl⟩
  | _ => exact Or.inl rfl

/-- over an existing inode -/
theorem over_done (x y : Obj) (ad : OverData) (ae : OverEa) (hx : ∀ x' c, e = .dir x' c → x' = x)
    (h : Runs o e (s.cdir ++ [e.name]) hard s Prod.fst (s.writeOver o e x y (s.cdir ++ [e.name]) ad ae)) :
    WriteDone o hard s e (do
      let (s, d) ← s.writeOver o e x y (s.cdir ++ [e.name]) ad ae
      .ok (s.enter e x (some y) d, d)) := by
  cases hw : s.writeOver o e x y (s.cdir ++ [e.name]) ad ae with
  | error er => rw [hw] at h; exact h
  | ok r =>
    rw [hw] at h
    refine ⟨r.1, h, ?_⟩
    rcases enter_push r.1 x (some y) r.2 hx with h | ⟨x', c, h1, h2⟩
    · exact Or.inl h
    · have := hx x' c h1; subst this; exact Or.inr ⟨x', c, h1, h2⟩

theorem write_prims (stars : Nat → Obj) (s : RsSt) (e : BEntry) : WriteDone o true s e (s.write o stars e) := by
  have hi : ∀ x, (∀ x' c, e = .dir x' c → x' = x) → WriteDone o true s e (s.writeInode o e x) := by
    intro x hx
    unfold RsSt.writeInode
    simp only
    cases hob : s.fs.obj (s.cdir ++ [e.name]) with
    | none =>
      simp only
      by_cases hst : x.ino.status = .delta ∨ x.ino.status = .inodeOnly
      · rw [if_pos hst]; exact .refl
      · rw [if_neg hst]
        have := runs_new (o := o) (s := s) (e := e) (p := s.cdir ++ [e.name]) x (obj_none.1 hob)
        cases hw : s.writeNew o e x (s.cdir ++ [e.name]) with
        | error er => rw [hw] at this; exact this
        | ok r =>
          rw [hw] at this
          refine ⟨r.1, this, ?_⟩
          rcases enter_push r.1 x none r.2 hx with h | ⟨x', c, h1, h2⟩
          · exact Or.inl h
          · have := hx x' c h1; subst this; exact Or.inr ⟨x', c, h1, h2⟩
    | some y =>
      simp only
      cases hov : o.over y e with
      | error er => exact .refl
      | ok a =>
        obtain ⟨ad, ae⟩ := a
        simp only
        exact over_done x y ad ae hx (runs_over x y ad ae)
  unfold RsSt.write
  cases e with
  | node x => exact hi x (by intro _ _ h; cases h)
  | dir x c => exact hi x (by intro _ _ h; cases h; rfl)
  | mirage n k => exact hi (stars k) (by intro _ _ h; cases h)
  | detruit n k t =>
    simp only
    unfold RsSt.writeDet
    simp only
    cases hob : s.fs.obj (s.cdir ++ [(BEntry.detruit n k t).name]) with
    | none => exact .refl
    | some y =>
      simp only
      cases hov : o.over y (.detruit n k t) with
      | error er => exact .refl
      | ok a =>
        obtain ⟨ad, ae⟩ := a
        simp only
        have := runs_overRemove (o := o) (s := s) (e := .detruit n k t) (p := s.cdir ++ [(BEntry.detruit n k t).name]) ad
        cases hw : s.overRemove o (s.cdir ++ [(BEntry.detruit n k t).name]) ad with
        | error er => rw [hw] at this; exact this
        | ok r =>
          rw [hw] at this
          exact ⟨r.flag, this.step (.flag r), Or.inl rfl⟩
  | ignored n => exact .refl
  | ignoredDir x => exact .refl

/-- a directory over an existing one, when the policy does not ask for its removal: no name is created or removed -/
theorem write_soft (stars : Nat → Obj) (s : RsSt) (x y : Obj) (c : List BEntry) (hk : x.ino.kind = .dir) (hy : s.fs.obj (s.cdir ++ [x.name]) = some y) (hyk : y.ino.kind = .dir)
    (hov : ∀ ad ae, o.over y (.dir x c) = .ok (ad, ae) → ad ≠ .remove) : WriteDone o false s (.dir x c) (s.write o stars (.dir x c)) := by
  show WriteDone o false s (.dir x c) (s.writeInode o (.dir x c) x)
  unfold RsSt.writeInode
  have hy' : s.fs.obj (s.cdir ++ [(BEntry.dir x c).name]) = some y := hy
  simp only [hy']
  cases ho : o.over y (.dir x c) with
  | error er => exact .refl
  | ok a =>
    obtain ⟨ad, ae⟩ := a
    simp only
    refine over_done x y ad ae (by intro x' c' h; cases h; rfl) (runs_over_of x y ad ae ?_)
    have hs : sameInPlace x y = true := by simp [sameInPlace, BEntry.name, hk, hyk]
    have hf : y.ino.isFile = false := by simp [Ino.isFile, hyk]
    unfold RsSt.overContent
    split
    · unfold RsSt.overData
      simp only [hs, BEntry.isDir, Bool.true_or, Bool.and_true, Bool.not_true, if_true]
      have := hov ad ae ho
      cases ad with
      | remove => exact absurd rfl this
      | overwrite => exact (Prim.update s _ (widen_kind o x)).one
      | overwriteMark => exact (Prim.update s _ (widen_kind o x)).one
      | _ => exact .refl
    · split
      · rw [hf]; exact .refl
      · exact .refl

end Dar
