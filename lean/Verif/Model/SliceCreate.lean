import Verif.Model.SliceNames
/- Model of how the files of a new archive are created, next to files that exist already: tools_avoid_slice_overwriting_regex (src/libdar/tools.cpp:1142-1228), entrepot::open (src/libdar/entrepot.cpp:83-190),
fichier_local::open (src/libdar/fichier_local.cpp:383-470), sar::open_writeonly (src/libdar/sar.cpp:1112-1318), the first constructor of trivial_sar (src/libdar/trivial_sar.cpp:112-243).

A directory is a list of names with what they are: a file, or a symbolic link to nothing.  Other programs do not touch it meanwhile.  The system may refuse any operation, the user may answer anything.
The regular expression of the names of slices is replaced by what it matches (the base name is escaped in it; the extension is taken as plain text, "dar" in practice).  What a slice holds is a parameter,
as well as reading the internal name in the header of a file.  Going back to a slice written before is possible; what is in it then belongs to C13. -/
namespace Dar

/-- what a name of a directory is -/
inductive SlEnt where
  | file (content : Bytes)
  | dangling
  deriving DecidableEq
abbrev SDir := List (Bytes × SlEnt)
def SDir.get (d : SDir) (n : Bytes) : Option SlEnt := (d.find? (fun e => e.1 = n)).map (·.2)
def SDir.del (d : SDir) (n : Bytes) : SDir := d.filter (fun e => e.1 ≠ n)
def SDir.put (d : SDir) (n : Bytes) (f : SlEnt) : SDir := (n, f) :: d.del n
/-- the errors of open: the codes of Esystem, another error (Erange), an error on the ownership (Edata) -/
inductive OpenErr where
  | exist
  | absent
  | access
  | roFs
  | other
  | owner
  deriving DecidableEq
/-- read only; fail_if_exists; neither fail_if_exists nor erase; erase -/
inductive OpenFlag where
  | rd
  | excl
  | keep
  | trunc
  deriving DecidableEq
/-- what the system does by itself, src/libdar/fichier_local.cpp:383-470 -/
def osOpen (d : SDir) (n : Bytes) : OpenFlag → SDir × Option OpenErr
  | .rd => match d.get n with
    | some (.file _) => (d, none)
    | _ => (d, some .absent)
  | .excl => match d.get n with
    | none => (d.put n (.file []), none)
    | some _ => (d, some .exist)
  | .keep => match d.get n with
    | some (.file _) => (d, none)
    | _ => (d.put n (.file []), none)
  | .trunc => (d.put n (.file []), none)
/-- what the user is asked: whether old slices may be removed, whether a slice may be overwritten -/
inductive SlAsk where
  | removeOld
  | overwrite (name : Bytes)
  deriving DecidableEq
/-- what is not under control, at each operation: the system refuses it (true: after it has been done), the answers, failures of writings and removals, what is in a file whose writing has failed -/
structure SlWorld where
  forced : Nat → Option (Bool × OpenErr)
  answer : Nat → Bool
  fails : Nat → Bool
  rest : Nat → Bytes
/-- the directory, the number of operations so far, the questions answered yes, and all the directories there have been with the questions answered yes at that time -/
structure SlSt where
  dir : SDir
  t : Nat
  yes : List SlAsk
  hist : List (SDir × List SlAsk)
/-- the options -/
structure SlOpts where
  base : Bytes
  md : Nat
  ext : Bytes
  hash : Option Bytes
  allow : Bool
  warn : Bool
  label : Bytes
  labelOf : Bytes → Option Bytes
  header : Nat → Bytes
  data : Nat → Bytes
  hashText : Nat → Bytes
/-- an operation: a new state, a result or an error -/
def SlM (α : Type) := SlSt → SlSt × Res α
def SlM.pure {α} (a : α) : SlM α := fun s => (s, .ok a)
def SlM.bind {α β} (m : SlM α) (f : α → SlM β) : SlM β := fun s => match m s with
  | (s', .ok a) => f a s'
  | (s', .error e) => (s', .error e)
instance : Monad SlM where
  pure := SlM.pure
  bind := SlM.bind
def slFail {α} (e : Err) : SlM α := fun s => (s, .error e)
/-- the state after an operation that leaves the directory `d` -/
def SlSt.upd (s : SlSt) (d : SDir) : SlSt := { s with dir := d, t := s.t + 1, hist := (d, s.yes) :: s.hist }

/-- opening a file -/
def slOpen (w : SlWorld) (n : Bytes) (fl : OpenFlag) : SlM (Option OpenErr) := fun s =>
  match w.forced s.t with
  | some (false, e) => (s.upd s.dir, .ok (some e))
  | some (true, e) => (s.upd (osOpen s.dir n fl).1, .ok (some ((osOpen s.dir n fl).2.getD e)))
  | none => (s.upd (osOpen s.dir n fl).1, .ok (osOpen s.dir n fl).2)
/-- the name of the hash file of a slice -/
def hashName (n h : Bytes) : Bytes := n ++ [46] ++ h
/-- entrepot::open, src/libdar/entrepot.cpp:83-190: the file, then its hash file -/
def slOpenH (w : SlWorld) (o : SlOpts) (n : Bytes) (fl : OpenFlag) : SlM (Option OpenErr) := do
  let r ← slOpen w n fl
  match r, o.hash with
  | none, some h => slOpen w (hashName n h) fl
  | r, _ => SlM.pure r
/-- get_ui().pause: Euser_abort if the answer is no -/
def slAsk (w : SlWorld) (q : SlAsk) : SlM Bool := fun s => ({ s with t := s.t + 1, yes := if w.answer s.t then q :: s.yes else s.yes }, .ok (w.answer s.t))
/-- the content of a file, nothing if there is none -/
def SDir.content (d : SDir) (n : Bytes) : Bytes := match d.get n with
  | some (.file b) => b
  | _ => []
/-- writing to a file that is open, from its beginning: what was there further stays -/
def slWrite (w : SlWorld) (n content : Bytes) : SlM Bool := fun s =>
  if w.fails s.t then (s.upd (s.dir.put n (.file (w.rest s.t))), .ok false) else (s.upd (s.dir.put n (.file (content ++ (s.dir.content n).drop content.length))), .ok true)
/-- removing a file -/
def slUnlink (w : SlWorld) (n : Bytes) : SlM Bool := fun s => if w.fails s.t then (s.upd s.dir, .ok false) else (s.upd (s.dir.del n), .ok true)
/-- reading the internal name of a file that is open; the file is not changed -/
def slLabel (o : SlOpts) (n : Bytes) : SlM (Option Bytes) := fun s => (s, .ok (match s.dir.get n with
  | some (.file b) => o.labelOf b
  | _ => none))

/-- a decimal digit -/
def isDig (c : UInt8) : Bool := 48 ≤ c && c ≤ 57
/-- the texts "md5" "sha1" "sha512" "whirlpool" -/
def maskHashes : List Bytes := [[109, 100, 53], [115, 104, 97, 49], [115, 104, 97, 53, 49, 50], [119, 104, 105, 114, 108, 112, 111, 111, 108]]
/-- what the regular expression matches: ^base\.[0-9]+\.ext(\.(md5|sha1|sha512|whirlpool))?$, src/libdar/tools.cpp:1208 -/
def sliceMask (base ext n : Bytes) : Bool :=
  (base ++ [46]).isPrefixOf n &&
    (let r := n.drop (base.length + 1)
     let tail := r.dropWhile isDig
     !(r.takeWhile isDig).isEmpty && (decide (tail = [46] ++ ext) || maskHashes.any (fun h => decide (tail = [46] ++ ext ++ [46] ++ h))))
/-- tools_unlink_file_mask_regex, src/libdar/tools.cpp:1142-1181: a failing removal is told and ignored -/
def slRemoveAll (w : SlWorld) : List Bytes → SlM Unit
  | [] => SlM.pure ()
  | n :: l => do
    let _ ← slUnlink w n
    slRemoveAll w l
/-- tools_avoid_slice_overwriting_regex, src/libdar/tools.cpp:1198-1228 -/
def slAvoid (w : SlWorld) (o : SlOpts) : SlM Unit := fun s =>
  let old := (s.dir.map (·.1)).filter (sliceMask o.base o.ext)
  if old.isEmpty then (s, .ok ())
  else if !o.allow then (s, .error .range)
  else if o.warn then SlM.bind (slAsk w .removeOld) (fun yes => if yes then slRemoveAll w old else SlM.pure ()) s
  else slRemoveAll w old s
/-- the errors given back as they are -/
def openErrOf : OpenErr → Err
  | .other => .range
  | .owner => .data
  | _ => .hardware
/-- sar::open_writeonly, src/libdar/sar.cpp:1139-1217: the slice could not be created, is it one of this archive?  (do_erase) -/
def slDoErase (w : SlWorld) (o : SlOpts) (n : Bytes) : SlM Bool := do
  let r ← slOpen w n .rd
  match r with
  | none => do
    let l ← slLabel o n
    SlM.pure (decide (l ≠ some o.label))
  | some .exist => slFail .bug
  | some .absent => slFail .bug
  | some _ => SlM.pure true
/-- sar::open_writeonly, src/libdar/sar.cpp:1219-1280: opening a slice that exists; the value is unlink_on_error -/
def slReopen (w : SlWorld) (o : SlOpts) (n : Bytes) (erase : Bool) : SlM Bool :=
  if erase then
    if !o.allow then slFail .range
    else do
      let go ← (if o.warn then slAsk w (.overwrite n) else SlM.pure true)
      if go then do
        let r ← slOpenH w o n .trunc
        match r with
        | none => SlM.pure true
        | some .exist => slFail .bug
        | some .absent => slFail .bug
        | some e => slFail (openErrOf e)
      else slFail .userAbort
  else if o.hash.isSome then slFail .bug
  else do
    let r ← slOpenH w o n .keep
    match r with
    | none => SlM.pure false
    | some .exist => slFail .bug
    | some .absent => slFail .bug
    | some e => slFail (openErrOf e)
/-- sar::open_writeonly, src/libdar/sar.cpp:1112-1290: opening a slice; the value is unlink_on_error -/
def slOpenSlice (w : SlWorld) (o : SlOpts) (n : Bytes) : SlM Bool := do
  let r ← slOpenH w o n .excl
  match r with
  | none => SlM.pure false
  | some .exist => do
    let e ← slDoErase w o n
    slReopen w o n e
  | some .other => do
    let e ← slDoErase w o n
    slReopen w o n e
  | some .absent => slFail .bug
  | some e => slFail (openErrOf e)
/-- the header, src/libdar/sar.cpp:1292-1318 -/
def slHeader (w : SlWorld) (o : SlOpts) (n : Bytes) (k : Nat) (unlinkOnError : Bool) : SlM Unit := do
  let ok ← slWrite w n (o.header k)
  if ok then SlM.pure ()
  else if unlinkOnError then do
    let _ ← slUnlink w n
    slFail .range
  else slFail .range
/-- the data of the slice (the one of the step `i`), then the hash file when it is closed -/
def slFill (w : SlWorld) (o : SlOpts) (n : Bytes) (k i : Nat) : SlM Unit := do
  let ok ← slWrite w n (o.header k ++ o.data i)
  if ok then
    match o.hash with
    | none => SlM.pure ()
    | some h => do
      let ok ← slWrite w (hashName n h) (o.hashText i)
      if ok then SlM.pure () else slFail .range
  else slFail .range
/-- sar::open_file in writing mode for each slice written, in this order -/
def slSlices (w : SlWorld) (o : SlOpts) : List Nat → Nat → SlM Unit
  | [], _ => SlM.pure ()
  | k :: l, i => do
    match sliceName o.base k o.md o.ext with
    | .error e => slFail e
    | .ok n => do
      let u ← slOpenSlice w o n
      slHeader w o n k u
      slFill w o n k i
      slSlices w o l (i + 1)
/-- the constructor of trivial_sar, src/libdar/trivial_sar.cpp:112-243: opening the only slice -/
def slOpenSingle (w : SlWorld) (o : SlOpts) (n : Bytes) : SlM Unit := do
  let r ← slOpenH w o n .excl
  match r with
  | none => SlM.pure ()
  | some .exist =>
    if !o.allow then slFail .range
    else do
      let go ← (if o.warn then slAsk w (.overwrite n) else SlM.pure true)
      if go then do
        let r ← slOpenH w o n .trunc
        match r with
        | none => SlM.pure ()
        | some .exist => slFail .bug
        | some e => slFail (openErrOf e)
      else slFail .userAbort
  | some e => slFail (openErrOf e)
/-- an archive of several slices -/
def createSliced (w : SlWorld) (o : SlOpts) (slices : List Nat) : SlM Unit := do
  slAvoid w o
  slSlices w o slices 0
/-- an archive of a single slice -/
def createSingle (w : SlWorld) (o : SlOpts) : SlM Unit := do
  slAvoid w o
  match sliceName o.base 1 o.md o.ext with
  | .error e => slFail e
  | .ok n => do
    slOpenSingle w o n
    slHeader w o n 1 false
    slFill w o n 1 0
/-- the beginning -/
def slStart (d : SDir) : SlSt := ⟨d, 0, [], [(d, [])]⟩

end Dar
