import Verif.Model.Backup
import Mathlib.Tactic.Tauto
/- The loop of the backup, driven by the events of the walk, computes a recursive function of the tree. -/
namespace Dar

/-- the part of the state that goes through the whole walk -/
structure BkCore where
  stars : Nat → Obj
  wrote : List Nat
  st : Stats

/-- the inode of reference for an entry found while the comparison is in a directory with the given contents -/
def refObj (o : BkOpts) (stars rstars : Nat → Obj) (refd : Option (List BEntry)) (e : BEntry) : Option Obj :=
  if o.fixed = 0 then
    match refd with
    | none => none
    | some l => match findChild l e.name with
      | none => none
      | some g => match e.obj stars, g.obj rstars with
        | some a, some b => if a.sameAs b then some b else none
        | _, _ => none
  else none
/-- the contents of the directory of reference below -/
def refSub (refd : Option (List BEntry)) (n : Bytes) : Option (List BEntry) :=
  match refd with
  | none => none
  | some l => match findChild l n with
    | some (.dir _ c) => some c
    | _ => none

/-- what is decided for an entry (not knowing its contents) -/
inductive BkHead where
  /-- add the entry as is and do not go down -/
  | leaf (e : BEntry) (c : BkCore)
  /-- go down the directory -/
  | down (x : Obj) (c : BkCore)

def headOne (o : BkOpts) (rstars : Nat → Obj) (refd : Option (List BEntry)) (path : List Bytes) (e : BEntry) (x : Obj) (c : BkCore) : Res BkHead := do
  let x' ← decideEntry o x (refObj o c.stars rstars refd e)
  let p := e.name :: path
  let d := o.dirty p.reverse && x.ino.isFile && (decide (x'.ino.status = .saved) || decide (x'.ino.status = .delta))
  match o.fails p.reverse with
  | none =>
    let x'' := x'.setDirty d
    let c' : BkCore := ⟨setStar c.stars e x'', markWrote c.wrote e, (c.st.afterInode x'.ino.status d).afterAttr x'.ino.eaStatus x'.fsa⟩
    .ok (if e.isDir then .down x'' c' else .leaf (e.withObj x'') c')
  | some w =>
    let st := (match w with
      | .inode => c.st.failInode x'.ino.status
      | .ea => c.st.afterInode x'.ino.status d)
    .ok (.leaf (.ignored e.name) ⟨setStar c.stars e x', c.wrote, st.err⟩)

def headSkip (o : BkOpts) (rstars : Nat → Obj) (refd : Option (List BEntry)) (e : BEntry) (c : BkCore) : Res BkHead :=
  match e with
  | .dir x ch =>
    if o.emptyDir then do
      let status ← emptyDirStatus o x (refObj o c.stars rstars refd (.dir x ch))
      .ok (.leaf (.ignoredDir { x with ino := { x.ino with status := status } }) { c with st := c.st.ign })
    else .ok (.leaf (.ignored x.name) { c with st := c.st.ign })
  | e => .ok (.leaf (.ignored e.name) { c with st := c.st.ign })

def bkHead (o : BkOpts) (rstars : Nat → Obj) (refd : Option (List BEntry)) (path : List Bytes) (e : BEntry) (c : BkCore) : Res BkHead :=
  if o.cov (e.name :: path).reverse (e.known c.wrote) then
    if e.known c.wrote then .ok (.leaf e { c with st := c.st.link })
    else match e.obj c.stars with
      | none => .error .bug
      | some x => headOne o rstars refd path e x c
  else headSkip o rstars refd e c

mutual
def bkEntry (o : BkOpts) (rstars : Nat → Obj) (refd : Option (List BEntry)) (path : List Bytes) (e : BEntry) (c : BkCore) : Res (BEntry × BkCore) :=
  match e with
  | .dir x ch => do
    let h ← bkHead o rstars refd path (.dir x ch) c
    match h with
    | .leaf e' c' => .ok (e', c')
    | .down x' c' => do
      let (l, c'') ← bkList o rstars (refSub refd x.name) (x.name :: path) ch c'
      .ok (.dir x' l, c'')
  | e => do
    let h ← bkHead o rstars refd path e c
    match h with
    | .leaf e' c' => .ok (e', c')
    | .down _ _ => .error .bug
def bkList (o : BkOpts) (rstars : Nat → Obj) (refd : Option (List BEntry)) (path : List Bytes) (l : List BEntry) (c : BkCore) : Res (List BEntry × BkCore) :=
  match l with
  | [] => .ok ([], c)
  | e :: l => do
    let (e', c) ← bkEntry o rstars refd path e c
    let (l', c) ← bkList o rstars refd path l c
    .ok (e' :: l', c)
end

/-- the comparison state is in a directory of reference with these contents, or outside -/
def CmpAt (o : BkOpts) (c : Cmp) (refd : Option (List BEntry)) : Prop :=
  o.fixed = 0 → match refd with
    | none => c.out ≠ []
    | some l => c.out = [] ∧ ∃ st, c.stack = l :: st

theorem backupLoop_append (o : BkOpts) (rstars : Nat → Obj) : ∀ (l : List BEv) (s : BkSt) (r : List BEv),
    backupLoop o rstars s (l ++ r) = (backupLoop o rstars s l >>= fun s => backupLoop o rstars s r)
  | [], s, r => rfl
  | ev :: l, s, r => by
    show (do let s ← backupStep o rstars s ev; backupLoop o rstars s (l ++ r)) = (do let s ← (do let s ← backupStep o rstars s ev; backupLoop o rstars s l); backupLoop o rstars s r)
    cases backupStep o rstars s ev with
    | error e => rfl
    | ok s => exact backupLoop_append o rstars l s r

mutual
theorem skip_entry (o : BkOpts) (rstars : Nat → Obj) (e : BEntry) (s : BkSt) (h : s.skip > 0) : backupLoop o rstars s e.events = .ok s := by
  have step : ∀ e : BEntry, e.isDir = false → backupLoop o rstars s [.entry e] = .ok s := by
    intro e he
    show (do let s ← backupStep o rstars s (.entry e); backupLoop o rstars s []) = _
    unfold backupStep
    rw [if_pos h]
    simp only [he, Bool.false_eq_true, if_false]
    rfl
  match e with
  | .dir x c =>
    rw [BEntry.events]
    show (do let s ← backupStep o rstars s (.entry (.dir x c)); backupLoop o rstars s (BEntry.eventsList c ++ [BEv.eod])) = _
    unfold backupStep
    rw [if_pos h]
    simp only [BEntry.isDir, if_true]
    show backupLoop o rstars { s with skip := s.skip + 1 } (BEntry.eventsList c ++ [BEv.eod]) = _
    rw [backupLoop_append, skip_list o rstars c _ (Nat.succ_pos _)]
    show (do let s ← backupStep o rstars { s with skip := s.skip + 1 } BEv.eod; backupLoop o rstars s []) = _
    unfold backupStep
    rw [if_pos (Nat.succ_pos _)]
    rfl
  | .node x => exact step _ rfl
  | .mirage n k => exact step _ rfl
  | .detruit n k d => exact step _ rfl
  | .ignored n => exact step _ rfl
  | .ignoredDir x => exact step _ rfl
theorem skip_list (o : BkOpts) (rstars : Nat → Obj) (l : List BEntry) (s : BkSt) (h : s.skip > 0) : backupLoop o rstars s (BEntry.eventsList l) = .ok s := by
  match l with
  | [] => rfl
  | e :: l =>
    rw [BEntry.eventsList, backupLoop_append, skip_entry o rstars e s h]
    exact skip_list o rstars l s h
end

/-- the comparison with an entry that is an inode -/
theorem refCompare_eq (o : BkOpts) (rstars : Nat → Obj) (s : BkSt) (refd : Option (List BEntry)) (h : CmpAt o s.cmp refd) (e : BEntry) (x : Obj)
    (hx : e.obj s.stars = some x) :
    ∃ c, s.refCompare o rstars e = .ok (refObj o s.stars rstars refd e, c) ∧
      (e.isDir = false → c = s.cmp) ∧
      (e.isDir = true → CmpAt o c (refSub refd e.name) ∧ cmpEodIf o c = .ok s.cmp) := by
  unfold BkSt.refCompare refObj cmpEodIf
  by_cases hf : ¬ o.fixed = 0
  · simp only [hf, if_false]
    exact ⟨_, rfl, fun _ => rfl, fun _ => ⟨fun h => absurd h hf, rfl⟩⟩
  have hf : o.fixed = 0 := by omega
  simp only [hf, if_true]
  have h' := h hf
  generalize s.cmp = cmp at *
  obtain ⟨stack, out⟩ := cmp
  unfold Cmp.compareEntry
  cases refd with
  | none =>
    dsimp only at h'
    cases out with
    | nil => exact absurd rfl h'
    | cons n out =>
      simp only [ne_eq, reduceCtorEq, not_false_eq_true, if_true]
      refine ⟨_, rfl, fun hd => by rw [hd]; rfl, fun hd => ?_⟩
      rw [hd]
      exact ⟨fun _ => by simp [refSub], rfl⟩
  | some l =>
    obtain ⟨ho, st, hst⟩ := h'
    dsimp only at ho hst
    subst ho hst
    simp only [ne_eq, not_true, if_false, List.headD_cons]
    cases hfc : findChild l e.name with
    | none =>
      refine ⟨_, rfl, fun hd => by rw [hd]; rfl, fun hd => ?_⟩
      rw [hd]
      exact ⟨fun _ => by simp [refSub, hfc], rfl⟩
    | some g =>
      simp only [hx]
      have hcmpo : ∃ r, compareObjs (some x) e.isDet (g.obj rstars) g.isDet = .ok r ∧
          (match r with | .obj x => some x | _ => none) = (match (some x : Option Obj), g.obj rstars with
        | some a, some b => if a.sameAs b then some b else none
        | _, _ => none) := by
        unfold compareObjs
        cases g.obj rstars with
        | none => exact ⟨_, rfl, rfl⟩
        | some b =>
          refine ⟨_, rfl, ?_⟩
          dsimp only
          by_cases hs : x.sameAs b = true <;> simp [hs]
      obtain ⟨r, hr, hr2⟩ := hcmpo
      rw [hr]
      refine ⟨Cmp.follow ⟨l :: st, []⟩ e g, ?_, ?_, ?_⟩
      · rw [← hr2]; rfl
      · intro hd
        cases e <;> first | rfl | (simp [BEntry.isDir] at hd)
      · intro hd
        cases e with
        | dir ox cx =>
          refine ⟨fun _ => ?_, ?_⟩
          · simp only [refSub, hfc]
            cases g <;> simp [Cmp.follow]
          · cases g <;> rfl
        | _ => simp [BEntry.isDir] at hd

/-- the state after an entry has been added to the current directory -/
def BkSt.put (s : BkSt) (e : BEntry) (c : BkCore) : BkSt := { s with cur := s.cur ++ [e], stars := c.stars, wrote := c.wrote, st := c.st }
def BkSt.core (s : BkSt) : BkCore := ⟨s.stars, s.wrote, s.st⟩

/-- how one step relates to `bkHead` -/
def StepOk (o : BkOpts) (s : BkSt) (refd : Option (List BEntry)) (e : BEntry) (r : Res BkHead) (b : Res BkSt) : Prop :=
  match r with
  | .error err => b = .error err
  | .ok (.leaf e' c') => e'.name = e.name ∧ b = .ok { (s.put e' c') with skip := if e.isDir then 1 else 0 }
  | .ok (.down x' c') => e.isDir = true ∧ ∃ c, CmpAt o c (refSub refd e.name) ∧ cmpEodIf o c = .ok s.cmp ∧ x'.name = e.name ∧
      b = .ok ⟨c, [], (x', s.cur) :: s.frames, e.name :: s.path, c'.stars, c'.wrote, c'.st, 0⟩

theorem decideEntry_name {o : BkOpts} {x x' : Obj} {f : Option Obj} (hh : decideEntry o x f = .ok x') : x'.name = x.name := by
  unfold decideEntry at hh
  dsimp only at hh
  by_cases h1 : x.ino.status ≠ .saved
  · rw [if_pos h1] at hh; cases hh
  · rw [if_neg h1] at hh
    cases h2 : newStatus o x (if o.snapshot then none else f) with
    | error e => rw [h2] at hh; cases hh
    | ok a =>
      rw [h2] at hh
      cases h3 : newEa o x (if o.snapshot then none else f) with
      | error e => rw [h3] at hh; cases hh
      | ok b =>
        rw [h3] at hh
        cases h4 : newFsa o x (if o.snapshot then none else f) with
        | error e => rw [h4] at hh; cases hh
        | ok y => rw [h4] at hh; cases hh; rfl
theorem setDirty_name (x : Obj) (d : Bool) : (x.setDirty d).name = x.name := by
  unfold Obj.setDirty
  split <;> rfl

theorem step_one (o : BkOpts) (rstars : Nat → Obj) (s : BkSt) (refd : Option (List BEntry)) (h : CmpAt o s.cmp refd) (hs : s.skip = 0) (e : BEntry)
    (x : Obj) (hx : e.obj s.stars = some x) : StepOk o s refd e (headOne o rstars refd s.path e x s.core) (backupOne o rstars s e x) := by
  obtain ⟨c, hc1, hc2, hc3⟩ := refCompare_eq o rstars s refd h e x hx
  unfold backupOne headOne
  rw [hc1]
  obtain ⟨cmp, cur, frames, path, stars, wrote, st, skip⟩ := s
  dsimp only at hs h hc2 hc3 hx
  subst hs
  simp only [BkSt.core, bind, Except.bind]
  cases hde : decideEntry o x (refObj o stars rstars refd e) with
  | error err => exact rfl
  | ok x' =>
    have hn := decideEntry_name hde
    dsimp only
    cases hfl : o.fails (e.name :: path).reverse with
    | none =>
      dsimp only
      cases e with
      | dir ox cx =>
        obtain ⟨h1, h2⟩ := hc3 rfl
        simp only [BEntry.obj, Option.some.injEq] at hx
        subst hx
        exact ⟨rfl, c, h1, h2, (setDirty_name _ _).trans hn, rfl⟩
      | node ox =>
        obtain rfl := hc2 rfl
        simp only [BEntry.obj, Option.some.injEq] at hx
        subst hx
        exact ⟨(setDirty_name _ _).trans hn, rfl⟩
      | mirage n k =>
        obtain rfl := hc2 rfl
        exact ⟨rfl, rfl⟩
      | detruit n k d => simp [BEntry.obj] at hx
      | ignored n => simp [BEntry.obj] at hx
      | ignoredDir ox =>
        obtain rfl := hc2 rfl
        exact ⟨rfl, rfl⟩
    | some w =>
      dsimp only
      refine ⟨rfl, ?_⟩
      cases hd : e.isDir with
      | true =>
        obtain ⟨h1, h2⟩ := hc3 hd
        simp only [if_true, h2]
        cases w <;> rfl
      | false =>
        obtain rfl := hc2 hd
        cases w <;> rfl

theorem step_skip (o : BkOpts) (rstars : Nat → Obj) (s : BkSt) (refd : Option (List BEntry)) (h : CmpAt o s.cmp refd) (hs : s.skip = 0) (e : BEntry) :
    StepOk o s refd e (headSkip o rstars refd e s.core) (backupSkip o rstars s e) := by
  unfold backupSkip headSkip
  cases e with
  | dir ox cx =>
    dsimp only
    by_cases hed : o.emptyDir = true
    · rw [if_pos hed, if_pos hed]
      obtain ⟨c, hc1, hc2, hc3⟩ := refCompare_eq o rstars s refd h (.dir ox cx) ox rfl
      rw [hc1]
      obtain ⟨h1, h2⟩ := hc3 rfl
      obtain ⟨cmp, cur, frames, path, stars, wrote, st, skip⟩ := s
      dsimp only at hs h2
      subst hs
      simp only [BkSt.core, bind, Except.bind]
      cases hes : emptyDirStatus o ox (refObj o stars rstars refd (.dir ox cx)) with
      | error err => exact rfl
      | ok status =>
        simp only [h2]
        exact ⟨rfl, rfl⟩
    · rw [if_neg hed, if_neg hed]
      exact ⟨rfl, rfl⟩
  | _ =>
    obtain ⟨cmp, cur, frames, path, stars, wrote, st, skip⟩ := s
    dsimp only at hs
    subst hs
    exact ⟨rfl, rfl⟩

/-- one step on an entry, in terms of `bkHead` -/
theorem step_entry (o : BkOpts) (rstars : Nat → Obj) (s : BkSt) (refd : Option (List BEntry)) (h : CmpAt o s.cmp refd) (hs : s.skip = 0) (e : BEntry) :
    StepOk o s refd e (bkHead o rstars refd s.path e s.core) (backupStep o rstars s (.entry e)) := by
  unfold backupStep bkHead
  rw [if_neg (show ¬ s.skip > 0 by omega)]
  dsimp only
  by_cases hcov : o.cov (e.name :: s.path).reverse (e.known s.wrote) = true
  · rw [if_pos hcov, if_pos (show o.cov (e.name :: s.path).reverse (e.known s.core.wrote) = true from hcov)]
    by_cases hk : e.known s.wrote = true
    · rw [if_pos hk, if_pos (show e.known s.core.wrote = true from hk)]
      cases e with
      | mirage n k =>
        obtain ⟨cmp, cur, frames, path, stars, wrote, st, skip⟩ := s
        dsimp only at hs
        subst hs
        exact ⟨rfl, rfl⟩
      | _ => simp [BEntry.known] at hk
    · rw [if_neg hk, if_neg (show ¬ e.known s.core.wrote = true from hk), show e.obj s.core.stars = e.obj s.stars from rfl]
      cases hx : e.obj s.stars with
      | none => exact rfl
      | some x => exact step_one o rstars s refd h hs e x hx
  · rw [if_neg hcov, if_neg (show ¬ o.cov (e.name :: s.path).reverse (e.known s.core.wrote) = true from hcov)]
    exact step_skip o rstars s refd h hs e

mutual
theorem loop_entry (o : BkOpts) (rstars : Nat → Obj) (e : BEntry) (s : BkSt) (refd : Option (List BEntry)) (h : CmpAt o s.cmp refd) (hs : s.skip = 0) :
    backupLoop o rstars s e.events = (bkEntry o rstars refd s.path e s.core >>= fun r => .ok (s.put r.1 r.2)) := by
  have key : ∀ e : BEntry, e.isDir = false → e.events = [.entry e] →
      (bkEntry o rstars refd s.path e s.core = (bkHead o rstars refd s.path e s.core >>= fun h => match h with | .leaf e' c' => .ok (e', c') | .down _ _ => .error .bug)) →
      backupLoop o rstars s e.events = (bkEntry o rstars refd s.path e s.core >>= fun r => .ok (s.put r.1 r.2)) := by
    intro e hd hev hbk
    rw [hev, hbk]
    show (do let s ← backupStep o rstars s (.entry e); backupLoop o rstars s []) = _
    have hr2 := step_entry o rstars s refd h hs e
    generalize bkHead o rstars refd s.path e s.core = r at hr2 ⊢
    match r with
    | .error err =>
      dsimp only [StepOk] at hr2
      rw [hr2]; rfl
    | .ok (.leaf e' c') =>
      dsimp only [StepOk] at hr2
      rw [hr2.2, hd]
      obtain ⟨cmp, cur, frames, path, stars, wrote, st, skip⟩ := s
      dsimp only at hs
      subst hs
      rfl
    | .ok (.down x' c') =>
      dsimp only [StepOk] at hr2
      rw [hr2.1] at hd
      cases hd
  match e with
  | .node x => exact key _ rfl rfl rfl
  | .mirage n k => exact key _ rfl rfl rfl
  | .detruit n k d => exact key _ rfl rfl rfl
  | .ignored n => exact key _ rfl rfl rfl
  | .ignoredDir x => exact key _ rfl rfl rfl
  | .dir x ch =>
    rw [BEntry.events, bkEntry]
    show (do let s ← backupStep o rstars s (.entry (.dir x ch)); backupLoop o rstars s (BEntry.eventsList ch ++ [BEv.eod])) = _
    have hr2 := step_entry o rstars s refd h hs (.dir x ch)
    generalize bkHead o rstars refd s.path (.dir x ch) s.core = r at hr2 ⊢
    match r with
    | .error err =>
      dsimp only [StepOk] at hr2
      rw [hr2]; rfl
    | .ok (.leaf e' c') =>
      dsimp only [StepOk] at hr2
      rw [hr2.2]
      show backupLoop o rstars { (s.put e' c') with skip := 1 } (BEntry.eventsList ch ++ [BEv.eod]) = _
      rw [backupLoop_append, skip_list o rstars ch _ Nat.one_pos]
      show (do let s ← backupStep o rstars { (s.put e' c') with skip := 1 } BEv.eod; backupLoop o rstars s []) = _
      unfold backupStep
      rw [if_pos Nat.one_pos]
      obtain ⟨cmp, cur, frames, path, stars, wrote, st, skip⟩ := s
      dsimp only at hs
      subst hs
      rfl
    | .ok (.down x' c') =>
      dsimp only [StepOk] at hr2
      obtain ⟨-, c, hc, heod, hn, hst⟩ := hr2
      rw [hst]
      show backupLoop o rstars ⟨c, [], (x', s.cur) :: s.frames, x.name :: s.path, c'.stars, c'.wrote, c'.st, 0⟩ (BEntry.eventsList ch ++ [BEv.eod]) = _
      rw [backupLoop_append, loop_list o rstars ch _ (refSub refd x.name) hc rfl]
      show (_ >>= _) = _
      dsimp only [BkSt.core]
      show (_ : Res BkSt) = ((do let (l, c'') ← bkList o rstars (refSub refd x.name) (x.name :: s.path) ch c'; .ok (BEntry.dir x' l, c'')) >>= fun r => .ok (s.put r.1 r.2))
      cases hbl : bkList o rstars (refSub refd x.name) (x.name :: s.path) ch c' with
      | error err =>
        rfl
      | ok r =>
        obtain ⟨l, c''⟩ := r
        show (do let s' ← backupStep o rstars ⟨c, [] ++ l, (x', s.cur) :: s.frames, x.name :: s.path, c''.stars, c''.wrote, c''.st, 0⟩ BEv.eod; backupLoop o rstars s' []) = _
        unfold backupStep
        rw [if_neg (Nat.lt_irrefl 0)]
        simp only [heod, bind, Except.bind]
        obtain ⟨cmp, cur, frames, path, stars, wrote, st, skip⟩ := s
        dsimp only at hs
        subst hs
        rfl
theorem loop_list (o : BkOpts) (rstars : Nat → Obj) (l : List BEntry) (s : BkSt) (refd : Option (List BEntry)) (h : CmpAt o s.cmp refd) (hs : s.skip = 0) :
    backupLoop o rstars s (BEntry.eventsList l) =
      (bkList o rstars refd s.path l s.core >>= fun r => .ok { s with cur := s.cur ++ r.1, stars := r.2.stars, wrote := r.2.wrote, st := r.2.st }) := by
  match l with
  | [] =>
    rw [bkList]
    show _ = Except.ok _
    rw [List.append_nil]
    rfl
  | e :: l =>
    rw [BEntry.eventsList, backupLoop_append, loop_entry o rstars e s refd h hs, bkList]
    cases hb : bkEntry o rstars refd s.path e s.core with
    | error err => rfl
    | ok r =>
      obtain ⟨e', c'⟩ := r
      show backupLoop o rstars (s.put e' c') (BEntry.eventsList l) = _
      rw [loop_list o rstars l (s.put e' c') refd h hs]
      show (bkList o rstars refd s.path l c' >>= _) = ((do let (l', c) ← bkList o rstars refd s.path l c'; .ok (e' :: l', c)) >>= _)
      cases hb2 : bkList o rstars refd s.path l c' with
      | error err => rfl
      | ok r2 =>
        obtain ⟨l', c2⟩ := r2
        show Except.ok _ = Except.ok _
        simp [BkSt.put]
end

/-- the backup as a recursive function -/
theorem backup_eq (o : BkOpts) (src ref : BCat) :
    backup o src ref = (bkList o ref.stars (some ref.root) [] src.root ⟨src.stars, [], Stats.zero⟩ >>= fun r => .ok (⟨r.1, r.2.stars⟩, r.2.st)) := by
  unfold backup
  rw [loop_list o ref.stars src.root _ (some ref.root) (fun _ => ⟨rfl, [], rfl⟩) rfl]
  show (do let s ← (bkList o ref.stars (some ref.root) [] src.root ⟨src.stars, [], Stats.zero⟩ >>= _); _) = _
  cases bkList o ref.stars (some ref.root) [] src.root ⟨src.stars, [], Stats.zero⟩ with
  | error e => rfl
  | ok r => rfl

end Dar
