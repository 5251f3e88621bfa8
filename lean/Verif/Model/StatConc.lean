/- The counters of class statistics shared by several threads, src/libdar/statistics.hpp and statistics.cpp. -/
namespace Dar

/-- what a thread asks for: add_to_…/incr_… (n = 1), sub_from_…/decr_… (n = 1), on the counter number v, src/libdar/statistics.hpp:104-262 -/
inductive StOp where
  | add (v n : Nat)
  | sub (v n : Nat)
  deriving DecidableEq
/-- the counter concerned -/
def StOp.var : StOp → Nat
  | .add v _ => v
  | .sub v _ => v
/-- the new value of the counter, none when infinint::operator -= throws Erange, src/libdar/real_infinint.cpp:222-260 -/
def StOp.apply : StOp → Nat → Option Nat
  | .add _ n, x => some (x + n)
  | .sub _ n, x => if n ≤ x then some (x - n) else none

/-- where a thread is in increment_locked, add_to_locked, decrement_locked, sub_from_locked (statistics.hpp:300-378): before LOCK_IN, after it, after
the counter has been read, after it has been written.  The unlocked variants are the same without the mutex. -/
inductive StPh where
  | out
  | entered
  | read (x : Nat)
  | written
  deriving DecidableEq
/-- a thread: the calls it has still to make (the first is the current one), the place in it -/
structure StTh where
  ops : List StOp
  ph : StPh
/-- counters, owner of the mutex, threads -/
structure StSys where
  val : Nat → Nat
  mutex : Option Nat
  th : Nat → StTh

/-- the thread i becomes t -/
def StSys.setTh (s : StSys) (i : Nat) (t : StTh) : StSys := { s with th := fun j => if j = i then t else s.th j }
/-- the counter v becomes y -/
def StSys.setVal (s : StSys) (v y : Nat) : StSys := { s with val := fun w => if w = v then y else s.val w }

/-- one step of one thread.  `lock`: whether the functions used are the locked ones. -/
inductive StStep (lock : Bool) : StSys → StSys → Prop
  /-- LOCK_IN -/
  | enter (s : StSys) (i : Nat) (op : StOp) (l : List StOp) : s.th i = ⟨op :: l, .out⟩ → (lock = true → s.mutex = none) →
      StStep lock s { s.setTh i ⟨op :: l, .entered⟩ with mutex := if lock then some i else s.mutex }
  /-- the value of the counter is read -/
  | load (s : StSys) (i : Nat) (op : StOp) (l : List StOp) : s.th i = ⟨op :: l, .entered⟩ → StStep lock s (s.setTh i ⟨op :: l, .read (s.val op.var)⟩)
  /-- the new value is written -/
  | store (s : StSys) (i : Nat) (op : StOp) (l : List StOp) (x y : Nat) : s.th i = ⟨op :: l, .read x⟩ → op.apply x = some y →
      StStep lock s ((s.setTh i ⟨op :: l, .written⟩).setVal op.var y)
  /-- the subtraction throws: LOCK_OUT is not executed; the caller catches the exception and goes on -/
  | throws (s : StSys) (i : Nat) (op : StOp) (l : List StOp) (x : Nat) : s.th i = ⟨op :: l, .read x⟩ → op.apply x = none → StStep lock s (s.setTh i ⟨l, .out⟩)
  /-- LOCK_OUT -/
  | leave (s : StSys) (i : Nat) (op : StOp) (l : List StOp) : s.th i = ⟨op :: l, .written⟩ →
      StStep lock s { s.setTh i ⟨l, .out⟩ with mutex := if lock then none else s.mutex }

/-- any number of steps, of any threads, in any order -/
inductive StRun (lock : Bool) : StSys → StSys → Prop
  | refl (s : StSys) : StRun lock s s
  | step {s s1 s2 : StSys} : StRun lock s s1 → StStep lock s1 s2 → StRun lock s s2

/-- the threads are started with the calls they have to make -/
def StSys.start (val : Nat → Nat) (prog : Nat → List StOp) : StSys := ⟨val, none, fun i => ⟨prog i, .out⟩⟩

end Dar
