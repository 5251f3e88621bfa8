import Verif.Model.TestOp
import Verif.Model.Difference
import Verif.Model.Backup
/- The exit status of dar: src/dar_suite/dar_suite.cpp:107-322 (the handlers of exceptions) and src/dar_suite/dar.cpp:62-1243 (what little_main throws or returns),
src/libdar/i_archive.cpp (which exceptions leave the operations).
Not modelled: the messages; the initialisation of libdar and its end (close_and_clean); exceptions thrown while options are prepared are those of `before`. -/
namespace Dar.Ex
open Dar

/-- The classes of exceptions, src/libdar/erreurs.hpp:51-396, erreurs_ext.hpp:41; std::bad_alloc, those of libthreadar, and any other type. -/
inductive Exc
  | generic | memory | secuMemory | bug | infinint | limitint | range | deci | feature | hardware | userAbort | data | script | libcall | compilation
  | threadCancel | threadCancelAttr | system | netAuth | badAlloc | threadar | other
  deriving DecidableEq, Repr

/-- the base classes, src/libdar/erreurs.hpp:128-383 and erreurs_ext.hpp:41 -/
def Exc.bases : Exc → List Exc
  | .generic => []
  | .secuMemory => [.memory, .generic]
  | .threadCancelAttr => [.threadCancel, .generic]
  | .badAlloc => []
  | .threadar => []
  | .other => []
  | _ => [.generic]

/-- a handler: catch(T &) or catch(...) -/
inductive Handler
  | of (c : Exc)
  | all
  deriving DecidableEq, Repr
/-- does the handler take the exception -/
def Handler.takes (h : Handler) (e : Exc) : Bool := match h with
  | .of c => decide (c = e) || e.bases.contains c
  | .all => true

/-! ### the codes, src/dar_suite/dar_suite.hpp:33-52 -/
def exitOk : Nat := 0
def exitSyntax : Nat := 1
def exitError : Nat := 2
def exitBug : Nat := 3
def exitUserAbort : Nat := 4
def exitDataError : Nat := 5
def exitScriptError : Nat := 6
def exitLibdar : Nat := 7
def exitLimitint : Nat := 8
def exitCompilation : Nat := 10
def exitSavedModified : Nat := 11

/-- the handlers of dar_suite_global in their order, src/dar_suite/dar_suite.cpp:200-311 -/
def handlers : List (Handler × Nat) :=
  [(.of .feature, exitSyntax), (.of .hardware, exitError), (.of .secuMemory, exitError), (.of .memory, exitError), (.of .badAlloc, exitError), (.of .range, exitError),
   (.of .userAbort, exitUserAbort), (.of .threadCancel, exitUserAbort), (.of .data, exitDataError), (.of .script, exitScriptError), (.of .libcall, exitLibdar),
   (.of .infinint, exitBug), (.of .limitint, exitLimitint), (.of .compilation, exitCompilation), (.of .system, exitError), (.of .netAuth, exitError),
   (.of .generic, exitBug), (.of .threadar, exitBug), (.all, exitBug)]
/-- the first handler that takes the exception -/
def catchWith (l : List (Handler × Nat)) (e : Exc) : Option Nat := match l with
  | [] => none
  | (h, n) :: l => if h.takes e then some n else catchWith l e
/-- the status given for an exception; without a handler the process would be aborted (SIGABRT, which the shell shows as 134) -/
def exitOf (e : Exc) : Nat := (catchWith handlers e).getD 134

/-! ### little_main -/

/-- operations of the command line; extractDb is -x with a database (param.extract_from_database) -/
inductive Op | create | merging | repairing | isolate | extract | extractDb | diff | test | listing
  deriving DecidableEq, Repr
/-- what get_args found: a command, the help or the version asked for, a command line it refuses (or the text of the licence or of the warranty asked for, command_line.cpp:1275-1280),
an exception -/
inductive Args | run (op : Op) | help | refused | threw (e : Exc)
  deriving DecidableEq, Repr

/-- One execution: the exception thrown before the operation, if any (opening the archives, ...); that thrown by the walk of the archive and of the filesystem (filtre_*); the counters
then; the exception of the isolation on fly, if any. -/
structure Run where
  before : Option Exc
  walk : Option Exc
  st : Stats
  isolation : Option Exc

/-- what get_args returns or throws: an Erange gives the message "Parse error", src/dar_suite/command_line.cpp:874-879 -/
def getArgs (a : Args) : Except Exc (Option Op × Bool) := match a with
  | .run op => .ok (some op, true)
  | .help => .ok (none, true)
  | .refused => .ok (none, false)
  | .threw e => if Handler.takes (.of .range) e then .ok (none, false) else .error e

/-- What leaves the operation when `walk` is thrown by the walk: i_archive.cpp:2857-2870 (create, merging), 2763-2779 (repairing), 1101-1106 (extract), 1545-1550 (diff), 1623-1626 (test),
1458-1462 (listing); isolate has no walk (its errors are in `before`). -/
def leaves (op : Op) (e : Exc) : Option Exc := match op with
  | .test => if e = .range then none else some e
  | .repairing => if e = .range then none else some e
  | .isolate => some e
  | _ => if e = .range then some .data else some e

/-- the counters that little_main gets; those of repairing (no pointer given, dar.cpp:626-634) and of the restoration of a database (i_database.cpp:960, and
nullptr in dar.cpp:963-967) are not given to it -/
def given (op : Op) (st : Stats) : Stats := match op with
  | .repairing => Stats.zero
  | .isolate => Stats.zero
  | .extractDb => Stats.zero
  | .listing => Stats.zero
  | _ => st
/-- the operation: an exception or the counters that little_main gets -/
def operation (op : Op) (r : Run) : Except Exc Stats :=
  match r.before with
  | some e => .error e
  | none =>
    match r.walk.bind (leaves op) with
    | some e => .error e
    | none => .ok (given op r.st)

/-- the code when an archive has been made, src/dar_suite/dar.cpp:641-644 -/
def afterSave (st : Stats) : Nat :=
  let ret := exitOk
  let ret := if st.errored ≠ 0 then exitDataError else ret
  if st.tooold ≠ 0 then exitSavedModified else ret

/-- little_main, src/dar_suite/dar.cpp:104-115, 255-1243 -/
def littleMain (a : Args) (r : Run) : Except Exc Nat := do
  match ← getArgs a with
  | (none, help) => .ok (if help then exitOk else exitSyntax)
  | (some op, _) =>
    let st ← operation op r
    match op with
    | .create =>
      match r.isolation with
      | some e => .error e
      | none => .ok (afterSave st)
    | .merging => .ok (afterSave st)
    | .repairing => .ok (afterSave st)
    | .extract => if st.errored > 0 then .error .data else .ok exitOk
    | .diff => if st.errored > 0 ∨ st.deleted > 0 then .error .data else .ok exitOk
    | .test => if st.errored > 0 then .error .data else .ok exitOk
    | _ => .ok exitOk

/-- dar_suite_global, src/dar_suite/dar_suite.cpp:107-322: the exit status; `linked`: the version of libdar is the expected one -/
def dar (linked : Bool) (a : Args) (r : Run) : Nat :=
  if linked = false then exitError
  else match littleMain a r with
    | .ok n => n
    | .error e => exitOf e

/-! ### with the models of the operations -/

/-- the class of an exception of the models; none for what has no defined behaviour -/
def excOf : Err → Option Exc
  | .range => some .range
  | .limitint => some .limitint
  | .infinint => some .infinint
  | .deci => some .deci
  | .bug => some .bug
  | .memory => some .memory
  | .data => some .data
  | .unsupported => some .feature
  | .userAbort => some .userAbort
  | .cancel => some .threadCancel
  | .libcall => some .libcall
  | .script => some .script
  | .hardware => some .hardware
  | .ub => none
  | .diverge => none

/-- one execution of the walk -/
def runOf (st : Stats) (e : Option Exc) : Run := ⟨none, e, st, none⟩

/-- "dar -d" with the model of filtre_difference: src/dar_suite/dar.cpp:1063-1069 -/
def darDiff (o : DfOpts) (cat : BCat) (fs : FS) : Option Nat := match difference o cat fs with
  | .ok (st, _) => some (dar true (.run .diff) (runOf st none))
  | .error e => (excOf e).map fun x => dar true (.run .diff) (runOf Stats.zero (some x))
/-- "dar -x" with the model of filtre_restore: src/dar_suite/dar.cpp:970-977 -/
def darExtract (o : RsOpts) (cat : BCat) (fs : FS) : Option (Nat × Option FS) := match restoreUser o cat fs with
  | .ok (fs', st) => some (dar true (.run .extract) (runOf st none), some fs')
  | .error e => (excOf e).map fun x => (dar true (.run .extract) (runOf Stats.zero (some x)), none)
/-- "dar -c" with the model of filtre_sauvegarde: src/dar_suite/dar.cpp:500-508, 641-644 -/
def darCreate (o : BkOpts) (src ref : BCat) : Option (Nat × Option BCat) := match backup o src ref with
  | .ok (cat, st) => some (dar true (.run .create) (runOf st none), some cat)
  | .error e => (excOf e).map fun x => (dar true (.run .create) (runOf Stats.zero (some x)), none)
/-- the counters of the test as `Stats` -/
def statsOf (t : TStat) : Stats := { Stats.zero with treated := t.treated, skipped := t.skipped, errored := t.errored }
/-- "dar -t" with the model of filtre_test: src/dar_suite/dar.cpp:1146-1150 -/
def darTests (o : TOpts) (l : List TEntry) : Option Nat := match filtreTest o l with
  | (st, none) => some (dar true (.run .test) (runOf (statsOf st) none))
  | (st, some e) => (excOf e).map fun x => dar true (.run .test) (runOf (statsOf st) (some x))

end Dar.Ex
