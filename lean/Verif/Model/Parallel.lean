import Verif.Model.Basic
/- Multi-threaded block processing: src/libdar/parallel_block_compressor.cpp (compression, `Kind.zip`) and
src/libdar/parallel_tronconneuse.cpp (ciphering, `Kind.crypto`), writing side.  One action of the model is one visible
operation of one thread; every interleaving of the actions is a run.  A schedule is a list of actions.

The two exchange structures come from libthreadar, which is not part of the repository; they are modelled from its
documented behaviour: `ratelier_scatter` is a FIFO of bounded size that numbers the blocks in the order of their arrival;
`ratelier_gather` is a table of bounded size where workers drop blocks with their numbers, the last free place being kept
for the block the other side waits for; `gather` waits for the next number and returns the run of consecutive blocks
that starts there.  A block is abstract: what it holds is a value of type `β` (clear side) or `γ` (processed side). -/
namespace Dar.Par

/-- which of the two classes: parallel_block_compressor or parallel_tronconneuse -/
inductive Kind where
  | zip | crypto
  deriving DecidableEq, Repr

/-- what compress_data / encrypt_data does with a block: a result, the exception Erange, or any other exception -/
inductive Outcome (γ : Type) where
  | ok (c : γ) | range | other
  deriving DecidableEq, Repr

/-- what the main thread gives to `scatter`: a block (flag data / normal) or the order to stop (flag eof_die / die).
src/libdar/parallel_block_compressor.hpp:121, src/libdar/parallel_tronconneuse.hpp:64 -/
inductive Item (β : Type) where
  | data (b : β) | die
  deriving DecidableEq, Repr

/-- what a worker gives to `gather`: flag data with a processed block, flag data with a block left unprocessed (worker in
error), flag worker_error / exception_worker, flag data_error (crypto only), flag eof_die / die -/
inductive Out (γ : Type) where
  | good (c : γ) | junk | workerError | dataError | die
  deriving DecidableEq, Repr

/-- where a worker is: waiting in worker_get_one, with a block to process, waiting in worker_push_one, or ended -/
inductive WSt (β γ : Type) where
  | idle | hold (i : Nat) (it : Item β) | ready (i : Nat) (o : Out γ) | ended
  deriving DecidableEq, Repr

/-- zip_worker::error (fine / sent), crypto_worker::abort (fine / inform / sent) -/
inductive WErr where
  | fine | inform | sent
  deriving DecidableEq, Repr

/-- a worker thread; `exc`: the thread will end with an exception, which join() raises in the main thread -/
structure Wk (β γ : Type) where
  st : WSt β γ
  err : WErr
  exc : Bool
  deriving DecidableEq, Repr

/-- what does not change during a run: the class, the number of workers, what the processing does to block number i, the
writes of data blocks that fail in the layer below, whether the write of the end marker fails -/
structure Cfg (β γ : Type) where
  kind : Kind
  n : Nat
  f : Nat → β → Outcome γ
  sinkFails : Nat → Bool
  eofFails : Bool

/-- get_ratelier_size, src/libdar/parallel_block_compressor.hpp:228, src/libdar/parallel_tronconneuse.hpp:308 -/
def ratelierSize (n : Nat) : Nat := n + n / 2

/-- get_heap_size, src/libdar/parallel_block_compressor.cpp:601-611, src/libdar/parallel_tronconneuse.cpp:1283-1293 -/
def heapSize (n : Nat) : Nat := ratelierSize n * 2 + n + 1 + ratelierSize n + 2

/-- The whole system while writing. `todo`: what the main thread has still to scatter; `hold`: curwrite / tempo_write is
set; `heap`: number of segments in the heap; `hist`: what was scattered so far (log); `queue`: content of the scatter;
`taken`: number of the next block to leave it; `table`: content of the gather, `next` the number it waits for; `lost`:
numbers of the blocks that a worker dropped; `wbuf`: the writer's `data`/`ones`; `werr`: its `error`; `wexc`: it will end with
an exception; `ending`: orders to stop it still expects; `wended`: the thread has ended; `out`: the blocks written below,
in order (`none`: a block left unprocessed); `eof`: the end marker was written; `aborted`: the main thread saw the error. -/
structure State (β γ : Type) where
  todo : List (Item β)
  hold : Bool
  heap : Nat
  hist : List (Item β)
  queue : List (Item β)
  taken : Nat
  ws : List (Wk β γ)
  table : List (Nat × Out γ)
  next : Nat
  lost : List Nat
  wbuf : List (Out γ)
  werr : Bool
  wexc : Bool
  ending : Nat
  wended : Bool
  out : List (Option γ)
  eof : Bool
  aborted : Bool
  deriving DecidableEq, Repr

/-- The threads just started (run_write_threads, parallel_block_compressor.cpp:545-563, parallel_tronconneuse.cpp:1165-1221)
and a caller that writes `blocks` then stops: stop_write_threads sends one order per worker (parallel_block_compressor.cpp:
473-503, 421-433; send_write_order, parallel_tronconneuse.cpp:660-694) -/
def State.init {β γ : Type} (n : Nat) (blocks : List β) : State β γ :=
  { todo := blocks.map Item.data ++ List.replicate n Item.die, hold := false, heap := heapSize n, hist := [], queue := [],
    taken := 0, ws := List.replicate n ⟨.idle, .fine, false⟩, table := [], next := 0, lost := [], wbuf := [], werr := false,
    wexc := false, ending := n, wended := false, out := [], eof := false, aborted := false }

/-- what the threads can do next -/
inductive Action where
  | mainGet | mainScatter | mainAbort | workerGet (k : Nat) | workerProc (k : Nat) | workerPush (k : Nat) | gather | write
  deriving DecidableEq, Repr

/-- the main thread takes a segment for the next block (inherited_write, parallel_block_compressor.cpp:332-337, parallel_
tronconneuse.cpp:567-573; send flags). heap::get raises an exception when the heap is empty (heap.hpp:67-68): no step here -/
def mainGet {β γ : Type} (s : State β γ) : Option (State β γ) :=
  match s.todo, s.hold, s.heap with
  | _ :: _, false, h + 1 => some { s with hold := true, heap := h }
  | _, _, _ => none

/-- the main thread has filled the segment and gives it to the scatter, which waits while it is full
(parallel_block_compressor.cpp:343-347, parallel_tronconneuse.cpp:579-581) -/
def mainScatter {β γ : Type} (n : Nat) (s : State β γ) : Option (State β γ) :=
  match s.todo, s.hold with
  | it :: rest, true =>
    if s.queue.length < ratelierSize n then
      some { s with todo := rest, hold := false, hist := s.hist ++ [it], queue := s.queue ++ [it] }
    else none
  | _, _ => none

/-- is it a block of data? -/
def Item.isData {β : Type} : Item β → Bool
  | .data _ => true
  | .die => false

/-- the main thread finds writer->exception_pending() set: it sends the block under construction, if any, and the orders to
stop, and raises an exception (parallel_block_compressor.cpp:351-357, parallel_tronconneuse.cpp:540-564). The block under
construction is modelled as the whole next block; the caller writes nothing more after the exception. -/
def mainAbort {β γ : Type} (n : Nat) (s : State β γ) : Option (State β γ) :=
  match s.aborted, s.werr, s.todo with
  | false, true, .data b :: _ =>
    some { s with todo := (if s.hold then [Item.data b] else []) ++ List.replicate n Item.die, aborted := true }
  | _, _, _ => none

/-- worker_get_one by worker `w`: the oldest block of the scatter, with its number -/
def wkGet {β γ : Type} (i : Nat) (it : Item β) (w : Wk β γ) : Option (Wk β γ) :=
  match w.st with
  | .idle => some { w with st := .hold i it }
  | _ => none

/-- worker_get_one (ratelier_scatter) -/
def workerGet {β γ : Type} (k : Nat) (s : State β γ) : Option (State β γ) :=
  match s.queue, s.ws[k]? with
  | it :: q, some w =>
    (wkGet s.taken it w).map fun w' => { s with queue := q, taken := s.taken + 1, ws := s.ws.set k w' }
  | _, _ => none

/-- a data block given to a worker: zip_worker::work and the catch of inherited_run (parallel_block_compressor.cpp:975-1010,
921-967); crypto_worker::work and inherited_run (parallel_tronconneuse.cpp:1714-1767, 1679-1702).  A crypto_worker that meets an
exception other than Erange drops the block (`ptr` is overwritten by the next worker_get_one): second component. -/
def wkData {β γ : Type} (kind : Kind) (i : Nat) (r : Outcome γ) (w : Wk β γ) : Wk β γ × Bool :=
  match w.err, kind, r with
  | .fine, _, .ok c => ({ w with st := .ready i (.good c) }, false)
  | .fine, .zip, _ => (⟨.ready i .workerError, .sent, true⟩, false)
  | .fine, .crypto, .range => ({ w with st := .ready i .dataError }, false)
  | .fine, .crypto, .other => (⟨.idle, .inform, true⟩, true)
  | .inform, _, _ => ({ w with st := .ready i .workerError, err := .sent }, false)
  | .sent, _, _ => ({ w with st := .ready i .junk }, false)

/-- a worker treats the block it has got; the boolean tells whether the block was dropped -/
def wkProc {β γ : Type} (kind : Kind) (f : Nat → β → Outcome γ) (w : Wk β γ) : Option (Wk β γ × Option Nat) :=
  match w.st with
  | .hold i (.data b) => let r := wkData kind i (f i b) w
                         some (r.1, if r.2 then some i else none)
  | .hold i .die => some ({ w with st := .ready i .die }, none)
  | _ => none

/-- the work of one worker on one block -/
def workerProc {β γ : Type} (c : Cfg β γ) (k : Nat) (s : State β γ) : Option (State β γ) :=
  match s.ws[k]? with
  | some w => (wkProc c.kind c.f w).map fun r => { s with ws := s.ws.set k r.1, lost := s.lost ++ r.2.toList }
  | none => none

/-- ratelier_gather::worker_push_one has to wait: no free place, or one free place, kept for the expected block -/
def mayPush {γ : Type} (cap next : Nat) (table : List (Nat × Out γ)) (i : Nat) : Bool :=
  decide (table.length + 2 ≤ cap) || (decide (table.length + 1 ≤ cap) && (decide (i = next) || table.any fun x => x.1 = next))

/-- after worker_push_one: the worker goes for another block, or ends after having passed the order to stop -/
def wkPushed {β γ : Type} (o : Out γ) (w : Wk β γ) : Wk β γ :=
  match o with
  | .die => { w with st := .ended }
  | _ => { w with st := .idle }

/-- worker_push_one (ratelier_gather) -/
def workerPush {β γ : Type} (n : Nat) (k : Nat) (s : State β γ) : Option (State β γ) :=
  match s.ws[k]? with
  | some w =>
    match w.st with
    | .ready i o =>
      if mayPush (ratelierSize n) s.next s.table i then
        some { s with ws := s.ws.set k (wkPushed o w), table := s.table ++ [(i, o)] }
      else none
    | _ => none
  | none => none

/-- the consecutive blocks numbered next, next+1, ... found in the table; what follows; the remaining table -/
def takeRun {γ : Type} : Nat → Nat → List (Nat × Out γ) → List (Out γ) × Nat × List (Nat × Out γ)
  | 0, next, t => ([], next, t)
  | fuel + 1, next, t =>
    match t.find? (fun x => x.1 = next) with
    | none => ([], next, t)
    | some x =>
      let r := takeRun fuel (next + 1) (t.eraseP fun x => x.1 = next)
      (x.2 :: r.1, r.2)

/-- the writer has nothing left and calls ratelier_gather::gather, which waits for the block number `next`
(zip_below_write::work, parallel_block_compressor.cpp:686-697; write_below::work, parallel_tronconneuse.cpp:1596-1601) -/
def gather {β γ : Type} (s : State β γ) : Option (State β γ) :=
  match s.wbuf, s.wended, s.table.find? (fun x => x.1 = s.next) with
  | [], false, some _ =>
    let r := takeRun s.table.length s.next s.table
    some { s with wbuf := r.1, next := r.2.1, table := r.2.2 }
  | _, _, _ => none

/-- the writer counts an order to stop; at the last one zip_below_write writes the end marker: if this fails while no error
was met before, inherited_run calls work() again, which waits in `gather` (parallel_block_compressor.cpp:721-730, 640-676);
write_below just ends (parallel_tronconneuse.cpp:1636-1641) -/
def writeDie {β γ : Type} (c : Cfg β γ) (rest : List (Out γ)) (s : State β γ) : State β γ :=
  let s := { s with wbuf := rest, ending := s.ending - 1, heap := s.heap + 1 }
  if s.ending = 0 then
    match c.kind, c.eofFails, s.werr with
    | .crypto, _, _ => { s with wended := true }
    | .zip, false, _ => { s with wended := true, eof := true }
    | .zip, true, true => { s with wended := true }
    | .zip, true, false => { s with werr := true, wexc := true }
  else s

/-- a data block reaches the writer: written below unless an error was met; a failing write leaves the block in place, the
error is recorded and the block is then dropped (parallel_block_compressor.cpp:709-720, parallel_tronconneuse.cpp:1612-1619) -/
def writeData {β γ : Type} (c : Cfg β γ) (x : Option γ) (rest : List (Out γ)) (s : State β γ) : State β γ :=
  if s.werr then { s with wbuf := rest, heap := s.heap + 1 }
  else if c.sinkFails s.out.length then { s with werr := true, wexc := true }
  else { s with wbuf := rest, heap := s.heap + 1, out := s.out ++ [x] }

/-- the writer treats the first block it has (zip_below_write::work, parallel_block_compressor.cpp:699-752;
write_below::work, parallel_tronconneuse.cpp:1610-1662) -/
def write {β γ : Type} (c : Cfg β γ) (s : State β γ) : Option (State β γ) :=
  match s.wended, s.ending, s.wbuf with
  | false, _ + 1, .good x :: rest => some (writeData c (some x) rest s)
  | false, _ + 1, .junk :: rest => some (writeData c none rest s)
  | false, _ + 1, .workerError :: rest => some { s with wbuf := rest, heap := s.heap + 1, werr := true }
  | false, _ + 1, .dataError :: rest => some { s with wbuf := rest, heap := s.heap + 1, werr := true }
  | false, _ + 1, .die :: rest => some (writeDie c rest s)
  | _, _, _ => none

/-- one step of one thread, if it can be made -/
def step {β γ : Type} (c : Cfg β γ) (s : State β γ) : Action → Option (State β γ)
  | .mainGet => mainGet s
  | .mainScatter => mainScatter c.n s
  | .mainAbort => mainAbort c.n s
  | .workerGet k => workerGet k s
  | .workerProc k => workerProc c k s
  | .workerPush k => workerPush c.n k s
  | .gather => gather s
  | .write => write c s

/-- a run along a schedule -/
def run {β γ : Type} (c : Cfg β γ) : State β γ → List Action → Option (State β γ)
  | s, [] => some s
  | s, a :: as => (step c s a).bind fun s' => run c s' as

/-- the writer and the workers have ended, nothing is left to send: the join() of the main thread return
(stop_write_threads, parallel_block_compressor.cpp:473-503; join_threads, parallel_tronconneuse.cpp:1262-1281) -/
def State.final {β γ : Type} (s : State β γ) : Bool :=
  s.wended && s.todo.isEmpty && s.ws.all fun w => match w.st with
    | .ended => true
    | _ => false

/-- does the caller get an exception: from the write call that saw the error, from join() of the writer or of a worker -/
def State.raised {β γ : Type} (s : State β γ) : Bool := s.aborted || s.wexc || s.ws.any fun w => w.exc

end Dar.Par
