import Verif.Model.ExitStatus
/- What the manual tells of the exit status of dar (man/dar.1:1408-1444). -/
namespace Dar.Ex
open Dar

/-- what the manual says of each code, for the exceptions that are instances of it -/
inductive Documented : Exc → Nat → Prop
  | notYet : Documented .feature 1
  | hardware : Documented .hardware 2
  | memory : Documented .memory 2
  | secured : Documented .secuMemory 2
  | alloc : Documented .badAlloc 2
  | fatal : Documented .range 2
  | system : Documented .system 2
  | network : Documented .netAuth 2
  | bug : Documented .bug 3
  | base : Documented .generic 3
  | digits : Documented .deci 3
  | division : Documented .infinint 3
  | thread : Documented .threadar 3
  | foreign : Documented .other 3
  | refused : Documented .userAbort 4
  | stopped : Documented .threadCancel 4
  | stopped' : Documented .threadCancelAttr 4
  | data : Documented .data 5
  | script : Documented .script 6
  | api : Documented .libcall 7
  | overflow : Documented .limitint 8
  | disabled : Documented .compilation 10

/-- The exception that ends the execution of the command, if any.  An Erange met while walking is told as an error about the data (Edata), but for a test and a repair, where it gives only a
message. -/
inductive Ends (op : Op) (r : Run) : Exc → Prop
  | before {e} (h : r.before = some e) : Ends op r e
  | walk {e} (h : r.before = none) (hw : r.walk = some e) (hr : e ≠ .range) : Ends op r e
  | walkRange (h : r.before = none) (hw : r.walk = some .range) (ho : op ≠ .test ∧ op ≠ .repairing ∧ op ≠ .isolate) : Ends op r .data
  | walkIsolate (h : r.before = none) (hw : r.walk = some .range) (ho : op = .isolate) : Ends op r .range
  | isolation {e} (h : r.before = none) (hw : r.walk = none) (ho : op = .create) (hi : r.isolation = some e) : Ends op r e

/-- the counters tell a failure of the operation -/
def CountsFailure (op : Op) (st : Stats) : Prop := match op with
  | .create => st.errored ≠ 0
  | .merging => st.errored ≠ 0
  | .extract => st.errored ≠ 0
  | .test => st.errored ≠ 0
  | .diff => st.errored ≠ 0 ∨ st.deleted ≠ 0
  | _ => False
/-- the counters tell that files changed while they were saved -/
def CountsDirty (op : Op) (st : Stats) : Prop := (op = .create ∨ op = .merging) ∧ st.tooold ≠ 0

end Dar.Ex
