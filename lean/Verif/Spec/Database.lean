import Verif.Model.Database
import Verif.Props.Datetime
/- Specification for the database lookups (C29): what the recorded history of a file means. -/
namespace Dar

/-- State of a file as told by the archives read so far: never seen; removed; there, but not rebuildable from the
archives; there, its data being rebuilt from the archives `data` restored in that order and its attributes by `attr`. -/
inductive FState where
  | unseen | gone | lost
  | ok (data : List Nat) (attr : Nat)
  deriving DecidableEq, Repr

/-- Effect on the file of restoring the next archive, which holds the file in the given state. -/
def FState.step (s : FState) (p : Nat × Etat) : FState :=
  match p.2 with
  | .saved => .ok [p.1] p.1
  | .removed => .gone
  | .absent => .gone
  | .patchUnusable => .lost
  | .patch => match s with | .ok d _ => .ok (d ++ [p.1]) p.1 | _ => .lost
  | .inode => match s with | .ok d _ => .ok d p.1 | _ => .lost
  | .present => match s with | .ok d a => .ok d a | _ => .lost

/-- The state after a history. -/
def replay (h : List (Nat × Etat)) : FState := h.foldl FState.step .unseen

/-- The recorded states not later than `date` (all of them if the date is null), without the removals when they are to
be ignored. -/
def history {α : Type} (date : α → DateT) (et : α → Etat) (m : SMap α) (limit : DateT) (ewr : Bool) : List (Nat × Etat) :=
  ((m.filter (fun p => decide (limit.val = 0 ∨ (date p.2).instant ≤ limit.instant))).map (fun p => (p.1, et p.2))).filter
    (fun p => !(ewr && (decide (p.2 = .removed) || decide (p.2 = .absent))))

end Dar
