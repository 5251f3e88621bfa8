import Verif.Model.Parallel
/- Multi-threaded decompression, src/libdar/parallel_block_compressor.cpp, reading side. The threads between the two ratelier
are those of the writing side (Model/Parallel.lean, Kind.zip): in the state `p`, `todo` is what the thread zip_below_read will
give to the scatter (the blocks found in the archive, then one flag per worker), `hold` its segment, `wbuf` the content of
lus_data/lus_flags of the main thread, `werr` is should_i_stop (set by do_stop()), `aborted` tells that zip_below_read has seen
it. Blocks are consumed as a whole; the code consumes them byte by byte in order. -/
namespace Dar.Par

/-- What zip_below_read finds after the last complete block: the end marker; a header that raises an exception; a block too
large or truncated, reported by the flag `error` only. zip_below_read::work, parallel_block_compressor.cpp:813-882 -/
inductive Tail where
  | eof | throws | silent
  deriving DecidableEq, Repr

/-- What the main thread is doing: reading; in purge_ratelier_up_to_non_data (first or second call; number of flags still expected;
flag already met); in join(). src/libdar/parallel_block_compressor.cpp:435-471, 567-599 -/
inductive Phase where
  | reading | purge (first : Bool) (expected : Nat) (met : Bool) | join
  deriving DecidableEq, Repr

/-- `got`: the blocks given to the caller (`none`: a block left unprocessed); `reof`: end of file reported; `must`: inherited_read
raises SRC_BUG if join() raises nothing; `asked`: the threads were stopped by another call than read (skip, get_position...) -/
structure RState (β γ : Type) where
  p : State β γ
  phase : Phase
  got : List (Option γ)
  reof : Bool
  must : Bool
  asked : Bool
  deriving DecidableEq, Repr

/-- run_read_threads, src/libdar/parallel_block_compressor.cpp:524-543 -/
def RState.init {β γ : Type} (n : Nat) (blocks : List β) : RState β γ :=
  { p := State.init n blocks, phase := .reading, got := [], reof := false, must := false, asked := false }

/-- the actions: those of the writing side for zip_below_read and the workers; the main thread gathers, treats the first block
it has, or stops the threads on another request -/
inductive RAction where
  | readerGet | readerScatter | readerStop | workerGet (k : Nat) | workerProc (k : Nat) | workerPush (k : Nat) | gather | consume | ask
  deriving DecidableEq, Repr

/-- the first segment of lus_data goes back to the heap -/
def State.pop {β γ : Type} (rest : List (Out γ)) (p : State β γ) : State β γ := { p with wbuf := rest, heap := p.heap + 1 }

/-- the flags sent by zip_below_read are `eof_die` (else `error`) -/
def endIsEof {β γ : Type} (tail : Tail) (p : State β γ) : Bool := p.aborted || decide (tail = .eof)

/-- inherited_read on the first block of lus_data, src/libdar/parallel_block_compressor.cpp:263-305, and stop_read_threads:435-448 -/
def consumeRead {β γ : Type} (n : Nat) (tail : Tail) (s : RState β γ) (o : Out γ) (rest : List (Out γ)) : RState β γ :=
  match o with
  | .good x => { s with p := s.p.pop rest, got := s.got ++ [some x] }
  | .junk => { s with p := s.p.pop rest, got := s.got ++ [none] }
  | .die =>
    let eof := endIsEof tail s.p
    { s with p := { s.p with werr := true }, phase := .purge true n false, reof := eof, must := !eof }
  | _ => { s with p := { s.p.pop rest with werr := true }, phase := .purge true n false, must := true }

/-- purge_ratelier_up_to_non_data on the first block of lus_data, src/libdar/parallel_block_compressor.cpp:580-596, and
stop_read_threads:443-458 -/
def consumePurge {β γ : Type} (n : Nat) (s : RState β γ) (first : Bool) (e : Nat) (met : Bool) (o : Out γ) (rest : List (Out γ)) :
    RState β γ :=
  { s with p := s.p.pop rest, phase := match o, met with
    | .die, _ => if e ≤ 1 then .join else .purge first (e - 1) true
    | .workerError, false => if first then .purge false n false else .join
    | _, _ => .purge first e met }

/-- the main thread treats the first block it has -/
def consume {β γ : Type} (n : Nat) (tail : Tail) (s : RState β γ) : Option (RState β γ) :=
  match s.phase, s.p.wbuf with
  | .reading, o :: rest => some (consumeRead n tail s o rest)
  | .purge first e met, o :: rest => some (consumePurge n s first e met o rest)
  | _, _ => none

/-- skip, skip_to_eof, get_position, truncate, terminate: stop_threads while reading, src/libdar/parallel_block_compressor.cpp:
150-210, 435-443 -/
def ask {β γ : Type} (n : Nat) (s : RState β γ) : Option (RState β γ) :=
  match s.phase with
  | .reading => some { s with p := { s.p with werr := true }, phase := .purge true n false, asked := true }
  | _ => none

/-- ratelier_gather::gather called by the main thread, parallel_block_compressor.cpp:258-259, 575-579 -/
def rgather {β γ : Type} (s : RState β γ) : Option (RState β γ) :=
  match s.phase with
  | .join => none
  | _ => (gather s.p).map fun p => { s with p := p }

/-- one step of one thread, if it can be made; the workers and zip_below_read (:785-899) behave as in the writing side -/
def rstep {β γ : Type} (n : Nat) (g : Nat → β → Outcome γ) (tail : Tail) (s : RState β γ) (a : RAction) : Option (RState β γ) :=
  let c : Cfg β γ := { kind := .zip, n := n, f := g, sinkFails := fun _ => false, eofFails := false }
  match a with
  | .readerGet => (mainGet s.p).map fun p => { s with p := p }
  | .readerScatter => (mainScatter n s.p).map fun p => { s with p := p }
  | .readerStop => (mainAbort n s.p).map fun p => { s with p := p }
  | .workerGet k => (workerGet k s.p).map fun p => { s with p := p }
  | .workerProc k => (workerProc c k s.p).map fun p => { s with p := p }
  | .workerPush k => (workerPush n k s.p).map fun p => { s with p := p }
  | .gather => rgather s
  | .consume => consume n tail s
  | .ask => ask n s

/-- a run along a schedule -/
def rrun {β γ : Type} (n : Nat) (g : Nat → β → Outcome γ) (tail : Tail) : RState β γ → List RAction → Option (RState β γ)
  | s, [] => some s
  | s, a :: as => (rstep n g tail s a).bind fun s' => rrun n g tail s' as

/-- all threads have ended: the join() return -/
def RState.final {β γ : Type} (s : RState β γ) : Bool :=
  decide (s.phase = .join) && s.p.todo.isEmpty && s.p.ws.all fun w => match w.st with
    | .ended => true
    | _ => false

/-- what the caller gets at the end: the exception of zip_below_read or of a worker (raised by join()), or SRC_BUG -/
def RState.result {β γ : Type} (tail : Tail) (s : RState β γ) : Option Err :=
  if tail = .throws ∧ s.p.aborted = false then some .range
  else if s.p.ws.any fun w => w.exc then some .range
  else if s.must then some .bug
  else none

end Dar.Par
