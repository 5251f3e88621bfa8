import Verif.Model.Basic
/- Thread cancellation, src/libdar/thread_cancellation.cpp. Every operation below runs inside one critical section (mutex
`access`), except check_self_cancellation, whose test is made before taking the mutex: see peek and commit. -/
namespace Dar

/-- struct thread_cancellation::fields, src/libdar/thread_cancellation.hpp:173-181 -/
structure CFields where
  tid : Nat
  blockDelayed : Bool
  immediate : Bool
  cancellation : Bool
  thrown : Bool
  flag : Nat
  deriving DecidableEq, Repr

/-- The static variables of the class and the objects: `info` holds the live objects (address and status) in the order of
their creation; `preborn` the requests for threads without object; `asso` the associations between threads.
src/libdar/thread_cancellation.hpp:189-192 -/
structure CState where
  info : List (Nat × CFields)
  preborn : List CFields
  asso : List (Nat × Nat)
  deriving DecidableEq, Repr

/-- applies `f` to the status of every object of thread `t` -/
def CState.upd (s : CState) (t : Nat) (f : CFields → CFields) : CState :=
  { s with info := s.info.map fun x => if x.2.tid = t then (x.1, f x.2) else x }

/-- thread_cancellation::thread_cancellation, src/libdar/thread_cancellation.cpp:60-104 -/
def CState.create (s : CState) (id t : Nat) : CState :=
  match s.info.find? (fun x => x.2.tid = t) with
  | some x => { s with info := s.info ++ [(id, x.2)] }
  | none =>
    match s.preborn.find? (fun x => x.tid = t) with
    | none => { s with info := s.info ++ [(id, ⟨t, false, true, false, false, 0⟩)] }
    | some x => { s with info := s.info ++ [(id, x)], preborn := s.preborn.eraseP (fun x => x.tid = t) }

/-- thread_cancellation::~thread_cancellation, src/libdar/thread_cancellation.cpp:106-128 -/
def CState.destroy (s : CState) (id : Nat) : Res CState :=
  if s.info.any (fun x => x.1 = id) then .ok { s with info := s.info.eraseP (fun x => x.1 = id) } else .error .bug

/-- the status of an object (`this->status`) -/
def CState.own (s : CState) (id : Nat) : Option CFields := (s.info.find? (fun x => x.1 = id)).map (·.2)

/-- set_cancellation_in_info_for, src/libdar/thread_cancellation.cpp:326-355: the new state, `found`, and `previous_val`
(unchanged when nothing is found). -/
def CState.setFor (s : CState) (t : Nat) (cancel imm thrown : Bool) (flag : Nat) (prev : Bool) : CState × Bool × Bool :=
  (s.upd t fun x => { x with immediate := imm, cancellation := cancel, thrown := thrown, flag := flag },
   s.info.any (fun x => x.2.tid = t),
   match (s.info.filter (fun x => x.2.tid = t)).getLast? with | none => prev | some x => x.2.cancellation)

/-- add_to_preborn, src/libdar/thread_cancellation.cpp:357-376: replaces the first record of the thread or adds one -/
def addPreborn (l : List CFields) (x : CFields) : List CFields :=
  match l with
  | [] => [x]
  | y :: r => if y.tid = x.tid then x :: r else y :: addPreborn r x

/-- remove_from_preborn, src/libdar/thread_cancellation.cpp:378-395: the new list, `found` and `prev` -/
def removePreborn (l : List CFields) (t : Nat) (prev : Bool) : List CFields × Bool × Bool :=
  (l.filter (fun x => x.tid ≠ t), l.any (fun x => x.tid = t),
   match (l.filter (fun x => x.tid = t)).getLast? with | none => prev | some x => x.cancellation)

/-- find_asso_tid_with, src/libdar/thread_cancellation.cpp:397-404: equal_range of the multimap -/
def CState.targets (s : CState) (t : Nat) : List Nat := (s.asso.filter (fun p => p.1 = t)).map (·.2)

/-- one target of cancel(), src/libdar/thread_cancellation.cpp:196-199, 206-208 -/
def CState.cancelOne (s : CState) (t : Nat) (imm : Bool) (flag : Nat) : CState :=
  let r := s.setFor t true imm false flag false
  if r.2.1 then r.1 else { r.1 with preborn := addPreborn r.1.preborn ⟨t, false, imm, true, false, flag⟩ }

/-- thread_cancellation::cancel, src/libdar/thread_cancellation.cpp:189-215 -/
def CState.cancel (s : CState) (t : Nat) (imm : Bool) (flag : Nat) : CState :=
  (s.targets t).foldl (fun s u => s.cancelOne u imm flag) (s.cancelOne t imm flag)

/-- thread_cancellation::cancel_status, src/libdar/thread_cancellation.cpp:219-250 -/
def CState.status (s : CState) (t : Nat) : Bool :=
  match s.info.find? (fun x => x.2.tid = t) with
  | some x => x.2.cancellation
  | none =>
    match s.preborn.find? (fun x => x.tid = t) with
    | some x => x.cancellation
    | none => false

/-- one target of clear_pending_request, src/libdar/thread_cancellation.cpp:259-261, 269-271 -/
def CState.clearOne (s : CState) (t : Nat) (ret : Bool) : CState × Bool :=
  let r := s.setFor t false false false 0 ret
  if r.2.1 then (r.1, r.2.2)
  else let q := removePreborn r.1.preborn t ret; ({ r.1 with preborn := q.1 }, q.2.2)

/-- thread_cancellation::clear_pending_request, src/libdar/thread_cancellation.cpp:252-280 -/
def CState.clear (s : CState) (t : Nat) : CState × Bool :=
  (s.targets t).foldl (fun r u => r.1.clearOne u r.2) (s.clearOne t false)

/-- associate_tid_to_tid, src/libdar/thread_cancellation.cpp:282-287 (insertion order kept among equal keys) -/
def CState.associate (s : CState) (a b : Nat) : CState := { s with asso := s.asso ++ [(a, b)] }
/-- remove_association_for_tid, src/libdar/thread_cancellation.cpp:289-294 -/
def CState.removeFor (s : CState) (a : Nat) : CState := { s with asso := s.asso.filter (fun p => p.1 ≠ a) }
/-- remove_association_targeted_at, src/libdar/thread_cancellation.cpp:296-316 -/
def CState.removeTo (s : CState) (b : Nat) : CState := { s with asso := s.asso.filter (fun p => p.2 ≠ b) }
/-- dead_thread, src/libdar/thread_cancellation.cpp:318-324 (the last call is made without the mutex in the code; taken as
atomic here) -/
def CState.dead (s : CState) (t : Nat) : CState :=
  let s' := (s.removeFor t).removeTo t
  { s' with preborn := (removePreborn s'.preborn t false).1 }

/-- The test of check_self_cancellation made without the mutex, src/libdar/thread_cancellation.cpp:133 -/
def CState.peek (s : CState) (id : Nat) : Res Bool :=
  match s.own id with
  | none => .error .ub
  | some x => .ok (x.cancellation && !x.thrown && (x.immediate || !x.blockDelayed))

/-- The end of check_self_cancellation, src/libdar/thread_cancellation.cpp:137-142, with flag_exception_thrown,
src/libdar/thread_cancellation.cpp:406-434: the exception thrown, if any (its `immediate` and `flag`). -/
def CState.commit (s : CState) (id : Nat) : Res (CState × Option (Bool × Nat)) :=
  match s.own id with
  | none => .error .ub
  | some x =>
    let mine := s.info.filter (fun y => y.2.tid = x.tid)
    let s' := s.upd x.tid fun y => { y with thrown := true }
    if mine.any (fun y => !y.2.thrown) then .ok (s', some (x.immediate, x.flag)) else .ok (s', none)

/-- check_self_cancellation with nothing in between -/
def CState.check (s : CState) (id : Nat) : Res (CState × Option (Bool × Nat)) :=
  match s.peek id with
  | .error e => .error e
  | .ok false => .ok (s, none)
  | .ok true => s.commit id

/-- block_delayed_cancellation, src/libdar/thread_cancellation.cpp:157-186 -/
def CState.block (s : CState) (id : Nat) (mode : Bool) : Res (CState × Option (Bool × Nat)) :=
  match s.own id with
  | none => .error .ub
  | some x =>
    let s' := s.upd x.tid fun y => { y with blockDelayed := mode }
    if mode then .ok (s', none) else s'.check id

end Dar
