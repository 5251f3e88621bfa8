import Verif.Model.Backup
namespace Dar

/-- an entry of a catalogue of reference without delta signature -/
def Obj.noSig (x : Obj) : Obj := { x with ino := { x.ino with deltaSig := false } }
mutual
def BEntry.noSig (e : BEntry) : BEntry :=
  match e with
  | .node x => .node x.noSig
  | .dir x c => .dir x.noSig (BEntry.noSigs c)
  | .ignoredDir x => .ignoredDir x.noSig
  | e => e
def BEntry.noSigs (l : List BEntry) : List BEntry :=
  match l with
  | [] => []
  | e :: l => BEntry.noSig e :: BEntry.noSigs l
end
/-- the same catalogue, without any delta signature -/
def BCat.noSig (c : BCat) : BCat := ⟨BEntry.noSigs c.root, fun k => (c.stars k).noSig⟩

theorem BEntry.noSig_name (e : BEntry) : e.noSig.name = e.name := by cases e <;> simp [BEntry.noSig, BEntry.name, Obj.noSig]
theorem BEntry.noSig_obj (stars : Nat → Obj) (e : BEntry) : e.noSig.obj (fun k => (stars k).noSig) = (e.obj stars).map Obj.noSig := by
  cases e <;> simp [BEntry.noSig, BEntry.obj, Obj.noSig]
theorem BEntry.noSig_isDet (e : BEntry) : e.noSig.isDet = e.isDet := by cases e <;> simp [BEntry.noSig, BEntry.isDet]
theorem findChild_noSigs (l : List BEntry) (n : Bytes) : findChild (BEntry.noSigs l) n = (findChild l n).map BEntry.noSig := by
  induction l with
  | nil => simp [BEntry.noSigs, findChild]
  | cons e l ih =>
    simp only [BEntry.noSigs, findChild, List.find?_cons, BEntry.noSig_name] at ih ⊢
    by_cases h : e.name = n
    · simp [h]
    · simp [h, ih]

def Cmp.noSig (c : Cmp) : Cmp := ⟨c.stack.map BEntry.noSigs, c.out⟩
def CmpRes.noSig : CmpRes → CmpRes
  | .obj x => .obj x.noSig
  | r => r

theorem Cmp.noSig_follow (c : Cmp) (t f : BEntry) : c.noSig.follow t f.noSig = (c.follow t f).noSig := by
  cases t <;> cases f <;> simp [Cmp.follow, Cmp.noSig, BEntry.noSig]
theorem compareObjs_noSig (src dst : Option Obj) (a b : Bool) : compareObjs src a (dst.map Obj.noSig) b = (compareObjs src a dst b).map CmpRes.noSig := by
  cases src with
  | none => cases dst <;> cases a <;> cases b <;> rfl
  | some x =>
    cases dst with
    | none => rfl
    | some y =>
      simp only [Option.map_some, compareObjs, Except.map]
      have : x.sameAs y.noSig = x.sameAs y := rfl
      rw [this]
      split <;> rfl
theorem compareEntry_noSig (stars rstars : Nat → Obj) (c : Cmp) (t : BEntry) :
    c.noSig.compareEntry stars (fun k => (rstars k).noSig) t = (c.compareEntry stars rstars t).map fun x => (x.1.noSig, x.2.noSig) := by
  unfold Cmp.compareEntry
  by_cases h : c.out ≠ []
  · rw [if_pos h, if_pos (show c.noSig.out ≠ [] from h)]
    cases t.isDir <;> rfl
  · rw [if_neg h, if_neg (show ¬ c.noSig.out ≠ [] from h)]
    have hh : c.noSig.stack.headD [] = BEntry.noSigs (c.stack.headD []) := by
      cases hc : c.stack <;> simp [Cmp.noSig, hc, BEntry.noSigs]
    rw [hh, findChild_noSigs]
    cases findChild (c.stack.headD []) t.name with
    | none => cases t.isDir <;> rfl
    | some f =>
      simp only [Option.map_some, BEntry.noSig_obj, BEntry.noSig_isDet, compareObjs_noSig, Cmp.noSig_follow]
      cases compareObjs (t.obj stars) t.isDet (f.obj rstars) f.isDet <;> rfl
theorem compareEod_noSig (c : Cmp) : c.noSig.compareEod = (c.compareEod).map fun x => (x.1.noSig, x.2.noSig) := by
  obtain ⟨st, out⟩ := c
  cases out with
  | cons n out => rfl
  | nil =>
    cases st with
    | nil => rfl
    | cons a st => cases st <;> rfl

/-- the same state, but for the catalogue of reference -/
def BkSt.noSig (s : BkSt) : BkSt := { s with cmp := s.cmp.noSig }

theorem refCompare_noSig (o : BkOpts) (rstars : Nat → Obj) (s : BkSt) (e : BEntry) :
    s.noSig.refCompare o (fun k => (rstars k).noSig) e = (s.refCompare o rstars e).map fun x => (x.1.map Obj.noSig, x.2.noSig) := by
  unfold BkSt.refCompare
  by_cases h : o.fixed = 0
  · rw [if_pos h, if_pos h]
    have : s.noSig.cmp.compareEntry s.noSig.stars (fun k => (rstars k).noSig) e = (s.cmp.compareEntry s.stars rstars e).map fun x => (x.1.noSig, x.2.noSig) :=
      compareEntry_noSig s.stars rstars s.cmp e
    rw [this]
    cases s.cmp.compareEntry s.stars rstars e with
    | error e => rfl
    | ok x =>
      obtain ⟨r, c⟩ := x
      cases r <;> rfl
  · rw [if_neg h, if_neg h]; rfl
theorem cmpEodIf_noSig (o : BkOpts) (c : Cmp) : cmpEodIf o c.noSig = (cmpEodIf o c).map Cmp.noSig := by
  unfold cmpEodIf
  by_cases h : o.fixed = 0
  · rw [if_pos h, if_pos h, compareEod_noSig]
    cases c.compareEod <;> rfl
  · rw [if_neg h, if_neg h]; rfl
theorem decideEntry_noSig (o : BkOpts) (ho : o.deltaDiff = false) (e : Obj) (f : Option Obj) : decideEntry o e (f.map Obj.noSig) = decideEntry o e f := by
  have h1 : ∀ f : Option Obj, newStatus o e (f.map Obj.noSig) = newStatus o e f := by
    intro f
    cases f with
    | none => rfl
    | some f =>
      have a1 : avoidInode o e ((some f).map Obj.noSig) = avoidInode o e (some f) := rfl
      have a2 : onlyInode o e ((some f).map Obj.noSig) = onlyInode o e (some f) := rfl
      unfold newStatus
      rw [a1, a2, ho]
      rfl
  have h2 : ∀ f : Option Obj, newEa o e (f.map Obj.noSig) = newEa o e f := by intro f; cases f <;> rfl
  have h3 : ∀ f : Option Obj, newFsa o e (f.map Obj.noSig) = newFsa o e f := by intro f; cases f <;> rfl
  unfold decideEntry
  by_cases hsn : o.snapshot = true
  · simp only [hsn, if_true]
  · simp only [hsn, Bool.false_eq_true, if_false, h1, h2, h3]
theorem emptyDirStatus_noSig (o : BkOpts) (x : Obj) (f : Option Obj) : emptyDirStatus o x (f.map Obj.noSig) = emptyDirStatus o x f := by cases f <;> rfl

theorem backupOne_noSig (o : BkOpts) (ho : o.deltaDiff = false) (rstars : Nat → Obj) (s : BkSt) (e : BEntry) (x : Obj) :
    backupOne o (fun k => (rstars k).noSig) s.noSig e x = (backupOne o rstars s e x).map BkSt.noSig := by
  unfold backupOne
  rw [refCompare_noSig]
  cases s.refCompare o rstars e with
  | error er => rfl
  | ok y =>
    obtain ⟨f, c⟩ := y
    simp only [Except.map, bind, Except.bind]
    rw [decideEntry_noSig o ho]
    cases decideEntry o x f with
    | error er => rfl
    | ok x' =>
      dsimp only
      have hp : s.noSig.path = s.path := rfl
      rw [hp]
      cases o.fails (e.name :: s.path).reverse with
      | none =>
        dsimp only
        have : ∀ e', s.noSig.add e' = (s.add e').noSig := by intro e'; cases e' <;> rfl
        rw [this]
        rfl
      | some w =>
        dsimp only
        cases hd : e.isDir with
        | false => rfl
        | true =>
          simp only [if_true, cmpEodIf_noSig]
          cases cmpEodIf o c <;> rfl
theorem backupSkip_noSig (o : BkOpts) (rstars : Nat → Obj) (s : BkSt) (e : BEntry) :
    backupSkip o (fun k => (rstars k).noSig) s.noSig e = (backupSkip o rstars s e).map BkSt.noSig := by
  unfold backupSkip
  cases e with
  | dir x ch =>
    dsimp only
    cases o.emptyDir with
    | false => rfl
    | true =>
      simp only [if_true]
      rw [refCompare_noSig]
      cases s.refCompare o rstars (.dir x ch) with
      | error er => rfl
      | ok y =>
        obtain ⟨f, c⟩ := y
        simp only [Except.map, bind, Except.bind, emptyDirStatus_noSig]
        cases emptyDirStatus o x f with
        | error er => rfl
        | ok st =>
          dsimp only
          rw [cmpEodIf_noSig]
          cases cmpEodIf o c <;> rfl
  | _ => rfl
theorem backupStep_noSig (o : BkOpts) (ho : o.deltaDiff = false) (rstars : Nat → Obj) (s : BkSt) (ev : BEv) :
    backupStep o (fun k => (rstars k).noSig) s.noSig ev = (backupStep o rstars s ev).map BkSt.noSig := by
  unfold backupStep
  have e1 : s.noSig.skip = s.skip := rfl
  have e2 : s.noSig.path = s.path := rfl
  have e3 : s.noSig.wrote = s.wrote := rfl
  have e4 : s.noSig.stars = s.stars := rfl
  have e5 : s.noSig.frames = s.frames := rfl
  have e6 : s.noSig.cmp = s.cmp.noSig := rfl
  rw [e1]
  by_cases hk : s.skip > 0
  · rw [if_pos hk, if_pos hk]
    cases ev with
    | eod => rfl
    | entry e => cases h : e.isDir <;> simp only [h, if_true, Bool.false_eq_true, if_false] <;> rfl
  · rw [if_neg hk, if_neg hk]
    cases ev with
    | eod =>
      dsimp only
      rw [e6, cmpEodIf_noSig]
      cases cmpEodIf o s.cmp with
      | error e => rfl
      | ok c =>
        simp only [Except.map, bind, Except.bind, e5]
        cases s.frames <;> rfl
    | entry e =>
      dsimp only
      rw [e2, e3, e4]
      cases o.cov (e.name :: s.path).reverse (e.known s.wrote) with
      | false => simp only [Bool.false_eq_true, if_false]; exact backupSkip_noSig o rstars s e
      | true =>
        simp only [if_true]
        cases e.known s.wrote with
        | true => simp only [if_true, Except.map]; congr 1; cases e <;> rfl
        | false =>
          simp only [Bool.false_eq_true, if_false]
          cases e.obj s.stars with
          | none => rfl
          | some x => exact backupOne_noSig o ho rstars s e x
theorem backupLoop_noSig (o : BkOpts) (ho : o.deltaDiff = false) (rstars : Nat → Obj) (l : List BEv) : ∀ s : BkSt,
    backupLoop o (fun k => (rstars k).noSig) s.noSig l = (backupLoop o rstars s l).map BkSt.noSig := by
  induction l with
  | nil => intro s; rfl
  | cons ev l ih =>
    intro s
    simp only [backupLoop, bind, Except.bind, backupStep_noSig o ho]
    cases backupStep o rstars s ev with
    | error e => rfl
    | ok s' => exact ih s'

/-- the catalogue of reference without its signatures gives the same backup when no patch is asked for -/
theorem backup_noSig (o : BkOpts) (ho : o.deltaDiff = false) (src ref : BCat) : backup o src ref.noSig = backup o src ref := by
  unfold backup
  have := backupLoop_noSig o ho ref.stars (BEntry.eventsList src.root) ⟨Cmp.start ref.root, [], [], [], src.stars, [], Stats.zero, 0⟩
  have e : (⟨Cmp.start ref.noSig.root, [], [], [], src.stars, [], Stats.zero, 0⟩ : BkSt) =
    BkSt.noSig ⟨Cmp.start ref.root, [], [], [], src.stars, [], Stats.zero, 0⟩ := rfl
  rw [e]
  show (do let s ← backupLoop o (fun k => (ref.stars k).noSig) _ _; _ : Res _) = _
  rw [this]
  cases backupLoop o ref.stars ⟨Cmp.start ref.root, [], [], [], src.stars, [], Stats.zero, 0⟩ (BEntry.eventsList src.root) <;> rfl

end Dar
