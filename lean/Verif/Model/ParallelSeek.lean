import Verif.Model.Basic
/-
Reading an encrypted archive with several worker threads, at random positions
(`parallel_tronconneuse` in read mode, parallel_tronconneuse.cpp).

Three kinds of thread: "below" (`read_below`) reads the encrypted blocks in order, the workers
decipher them and put them back in order, and the caller's thread picks the result up from the
`ratelier_gather`.  The workers and the two rateliers together are a first-in first-out queue
(this is what Props/ParallelRead.lean proves of them); here the queue is `q` and what is modelled
is the protocol between the caller's thread and "below": the orders `normal`, `stop` and `eof`,
their acknowledgements (one per worker), the barrier, and the search of a new position among the
blocks already deciphered.  How far "below" has advanced each time the caller's thread looks is
given by an oracle, as is the number of blocks each `gather` brings back.
-/
namespace Dar

/-- `tronco_flags` (parallel_tronconneuse.hpp:47-57), the ones used here. -/
inductive PtOrd where
  | normal | stop | eof
deriving DecidableEq, Repr, Inhabited

/-- A `crypto_segment` with its flag, as found in `lus_data`/`lus_flags` (crypto_segment.hpp:38-60):
deciphered block `i` whose first `off` bytes have been read, an undecipherable block, or the
acknowledgement of an order. -/
inductive PtItem (α : Type) where
  | data (i : Nat) (d : List α) (off : Nat)
  | bad (i : Nat)
  | ack (o : PtOrd)
deriving DecidableEq, Repr

/-- What is below: `nb` encrypted blocks for clear blocks of `cb` bytes, `n` workers.  `clear i`:
what the worker makes of block `i` (none: `decrypt_data` throws Erange).  `fix i`: what the caller's
thread makes of such a block once the clear data that follows the encrypted one is removed (none:
it fails again).  `short`: the last encrypted block is not full.  `canSkip i`: does `skip` to block
`i` succeed below.  `sched`: at the k-th synchronisation, how many steps "below" makes and how many
blocks after the first one `gather` returns. -/
structure PtEnv (α : Type) where
  nb : Nat
  cb : Nat
  n : Nat
  clear : Nat → Option (List α)
  fix : Nat → Option (List α)
  short : Bool
  canSkip : Nat → Bool
  sched : Nat → Nat × Nat

/-- State of the caller's object (parallel_tronconneuse.hpp:310-345: current_position, lus_data and
lus_flags, lus_eof, t_status == running, ignore_stop_acks, check_bytes_to_skip), of "below" (flag, index_num,
reof, pos_in_flow; `wait`: blocked on the barrier, `weof`: in the eof branch of work()) and of the
queue between them. `clk` counts the synchronisations. -/
structure PtSt (α : Type) where
  cur : Nat
  lus : List (PtItem α)
  lusEof : Bool
  run : Bool
  ign : Nat
  chk : Bool
  flag : PtOrd
  wait : Bool
  weof : Bool
  idx : Nat
  reof : Bool
  posIn : Nat
  q : List (PtItem α)
  clk : Nat
deriving Repr

/-- The constructor (parallel_tronconneuse.cpp:58-165): the threads are started and wait on the
barrier. -/
def PtSt.init {α : Type} : PtSt α :=
  { cur := 0, lus := [], lusEof := false, run := false, ign := 0, chk := true,
    flag := .normal, wait := true, weof := false, idx := 0, reof := false, posIn := 0, q := [], clk := 0 }

/-- What the worker which got block `i` pushes (parallel_tronconneuse.cpp:1774-1790). -/
def PtEnv.item {α : Type} (e : PtEnv α) (i : Nat) : PtItem α :=
  match e.clear i with
  | some d => .data i d 0
  | none => .bad i

/-- One turn of `read_below::work` (parallel_tronconneuse.cpp:1364-1491); the orders are sent to the
`n` workers, which acknowledge them and wait, as "below" does. -/
def PtSt.below {α : Type} (e : PtEnv α) (s : PtSt α) : PtSt α :=
  if s.wait then s
  else match s.flag with
    | .eof => { s with q := s.q ++ List.replicate e.n (.ack .eof), wait := true, weof := true }
    | .stop =>
      if s.reof then { s with flag := .eof }
      else { s with q := s.q ++ List.replicate e.n (.ack .stop), wait := true, weof := false }
    | .normal =>
      if s.reof then { s with flag := .eof }
      else if s.idx < e.nb then
        { s with q := s.q ++ [e.item s.idx], idx := s.idx + 1, reof := e.short && decide (s.idx + 1 = e.nb) }
      else { s with reof := true }

/-- Several turns. -/
def PtSt.belows {α : Type} (e : PtEnv α) : Nat → PtSt α → PtSt α
  | 0, s => s
  | k + 1, s => PtSt.belows e k (s.below e)

/-- `ratelier_gather::gather`: "below" goes on for a while; the call returns once there is something
to return (three turns of "below" are enough to have something, or it waits and nothing will
ever come). -/
def PtSt.gather {α : Type} (e : PtEnv α) (s : PtSt α) : Except Err (PtSt α) :=
  let s1 := s.belows e (e.sched s.clk).1
  let s2 := if s1.q.isEmpty then s1.belows e 3 else s1
  if s2.q.isEmpty then .error .diverge
  else .ok { s2 with lus := s2.q.take ((e.sched s.clk).2 + 1), q := s2.q.drop ((e.sched s.clk).2 + 1), clk := s.clk + 1 }

/-- `check_bytes_to_skip` in `read_refill` (parallel_tronconneuse.cpp:722-740). -/
def PtSt.adjust {α : Type} (s : PtSt α) : Except Err (PtSt α) :=
  if s.chk then
    match s.lus with
    | .data i d _ :: r =>
      if s.posIn = 0 then .ok { s with chk := false }
      else if s.posIn ≤ d.length then .ok { s with chk := false, lus := .data i d s.posIn :: r }
      else .error .bug
    | _ => .ok s
  else .ok s

/-- `read_refill` (parallel_tronconneuse.cpp:710-742). -/
def PtSt.refill {α : Type} (e : PtEnv α) (s : PtSt α) : Except Err (PtSt α) :=
  if s.lus.isEmpty then
    match s.gather e with
    | .ok s' => s'.adjust
    | .error x => .error x
  else .ok s

/-- `go_read` and what "below" does once released (parallel_tronconneuse.cpp:694-708, 1392-1398, 1409-1413,
1493-1510). -/
def PtSt.goRead {α : Type} (e : PtEnv α) (s : PtSt α) : Except Err (PtSt α) :=
  if s.run then .ok s
  else if s.wait then
    .ok { s with run := true, chk := true, flag := .normal, wait := false,
                 idx := s.cur / e.cb, posIn := s.cur % e.cb,
                 reof := if s.weof then false else !e.canSkip (s.cur / e.cb) }
  else .error .diverge

/-- `find_offset_in_lus_data` (parallel_tronconneuse.cpp:1085-1162): is it found, the new
current_position, what is left of lus_data. -/
def ptFind {α : Type} (pos : Nat) : Nat → List (PtItem α) → Bool × Nat × List (PtItem α)
  | cur, .data i d off :: r =>
    if pos < cur then
      if cur ≤ pos + off then (true, pos, .data i d (off - (cur - pos)) :: r)
      else (false, cur, .data i d off :: r)
    else if pos < cur + (d.length - off) then (true, pos, .data i d (off + pos - cur) :: r)
    else if cur + (d.length - off) = pos ∧ r ≠ [] then (true, pos, r)
    else ptFind pos (cur + (d.length - off)) r
  | cur, l => (false, cur, l)

/-- `find_offset_in_lus_data` on the state. -/
def PtSt.find {α : Type} (pos : Nat) (s : PtSt α) : Bool × PtSt α :=
  match ptFind pos s.cur s.lus with
  | (f, c, l) => (f, { s with cur := c, lus := l })

/-- Bound on the number of turns of the loops below (they have none in the code): each item present or
to come is met once, before and after "below" is released anew.  Model artefact. -/
def PtSt.fuel {α : Type} (e : PtEnv α) (s : PtSt α) : Nat :=
  2 * (s.lus.length + s.q.length + (if s.wait then 0 else (e.nb - s.idx) + e.n)) + 4 * (e.nb + e.n) + 8

/-- One acknowledgement met by `purge_ratelier_from_next_order` (parallel_tronconneuse.cpp:781-853); the new
`ret`, `num` and `pos`. -/
def PtSt.purgeAck {α : Type} (e : PtEnv α) (o : PtOrd) (ret : PtOrd) (num pos : Nat) (s : PtSt α) :
    Except Err (PtSt α × PtOrd × Nat × Nat) :=
  if ret ≠ .normal ∧ ret ≠ o then .error .bug
  else if 0 < s.ign then
    if s.ign = 1 then
      if o = .eof then .ok ({ s with ign := 0, run := false }, o, 0, pos)
      else match ({ s with ign := 0, run := false } : PtSt α).goRead e with
        | .ok s' => .ok (s', .normal, num, 0)
        | .error x => .error x
    else .ok ({ s with ign := s.ign - 1 }, o, num, pos)
  else .ok ({ s with run := if num = 1 then false else s.run }, o, num - 1, pos)

/-- The lookup made by `purge_ratelier_from_next_order` after each refill
(parallel_tronconneuse.cpp:754-775): true, the position was found and the purge ends there. -/
def PtSt.lookup {α : Type} (e : PtEnv α) (ret : PtOrd) (pos : Nat) (s : PtSt α) : Bool × PtSt α :=
  if pos ≠ 0 ∧ ret = .normal then
    match s.find pos with
    | (true, s') => (true, { s' with ign := e.n })
    | (false, s') => (false, s')
  else (false, s)

/-- `purge_ratelier_from_next_order` (parallel_tronconneuse.cpp:744-880): the nested loops, one item or
one refill at a time. -/
def PtSt.purgeLoop {α : Type} (e : PtEnv α) : Nat → PtOrd → Nat → Nat → PtSt α → Except Err (PtOrd × PtSt α)
  | 0, _, _, _, _ => .error .diverge
  | k + 1, ret, num, pos, s =>
    if num = 0 then .ok (ret, s)
    else match s.lus with
      | [] =>
        match s.refill e with
        | .error x => .error x
        | .ok s1 =>
          match s1.lookup e ret pos with
          | (true, s2) => .ok (ret, s2)
          | (false, s2) => PtSt.purgeLoop e k ret num pos s2
      | .ack o :: r =>
        match ({ s with lus := r } : PtSt α).purgeAck e o ret num pos with
        | .error x => .error x
        | .ok (s', ret', num', pos') => PtSt.purgeLoop e k ret' num' pos' s'
      | _ :: r => PtSt.purgeLoop e k ret num pos { s with lus := r }

/-- `purge_ratelier_from_next_order(pos)`: first turn of the outer loop, then the rest. -/
def PtSt.purge {α : Type} (e : PtEnv α) (pos : Nat) (s : PtSt α) : Except Err (PtOrd × PtSt α) :=
  match s.refill e with
  | .error x => .error x
  | .ok s1 =>
    match s1.lookup e .normal pos with
    | (true, s2) => .ok (.normal, s2)
    | (false, s2) => PtSt.purgeLoop e (s.fuel e) .normal e.n pos s2

/-- `send_read_order(stop, pos)` (parallel_tronconneuse.cpp:601-690): true, the threads are stopped;
false, `pos` was found in the pipe first.  "below" has moved on when the order is written. -/
def PtSt.sendStop {α : Type} (e : PtEnv α) (pos : Nat) (s : PtSt α) : Except Err (Bool × PtSt α) :=
  if s.run then
    match ({ s.belows e (e.sched s.clk).1 with flag := .stop, clk := s.clk + 1 } : PtSt α).purge e pos with
    | .error x => .error x
    | .ok (ret, s') =>
      if ret = .normal then
        if pos = 0 then .error .bug else .ok (false, s')
      else .ok (true, s')
  else .ok (true, s)

/-- The loop of `purge_unack_stop_order` (parallel_tronconneuse.cpp:896-1000), entered with
`loop` and `ret` true; `look` is the variable `lookup`. -/
def PtSt.unackLoop {α : Type} (e : PtEnv α) (pos : Nat) : Nat → Bool → PtSt α → Except Err (Bool × PtSt α)
  | 0, _, _ => .error .diverge
  | k + 1, look, s =>
    match s.refill e with
    | .error x => .error x
    | .ok s =>
      match s.lus with
      | [] => .error .bug
      | .ack _ :: r =>
        if s.ign = 0 then .error .bug
        else if s.ign = 1 then .ok (true, { s with ign := 0, lus := r, run := false })
        else PtSt.unackLoop e pos k look { s with ign := s.ign - 1, lus := r }
      | _ :: r =>
        if look && decide (pos ≠ 0) then
          match s.find pos with
          | (true, s') => .ok (false, s')
          | (false, s') =>
            match s'.lus with
            | [] => PtSt.unackLoop e pos k look s'
            | .ack _ :: _ => PtSt.unackLoop e pos k look s'
            | _ :: r' => PtSt.unackLoop e pos k false { s' with lus := r' }
        else PtSt.unackLoop e pos k false { s with lus := r }

/-- `purge_unack_stop_order(pos)` (parallel_tronconneuse.cpp:882-1005). -/
def PtSt.unack {α : Type} (e : PtEnv α) (pos : Nat) (s : PtSt α) : Except Err (Bool × PtSt α) :=
  let fs := if pos = 0 then (false, s) else s.find pos
  if fs.1 then .ok (false, fs.2)
  else if fs.2.ign = 0 then .ok (true, { fs.2 with run := false })
  else PtSt.unackLoop e pos (s.fuel e) true fs.2

/-- `skip(pos)` (parallel_tronconneuse.cpp:190-241). -/
def PtSt.skip {α : Type} (e : PtEnv α) (pos : Nat) (s : PtSt α) : Except Err (PtSt α) :=
  if pos = s.cur then .ok s
  else match s.find pos with
    | (true, s1) => .ok s1
    | (false, s1) =>
      match (if s1.ign = 0 then s1.sendStop e pos else s1.unack e pos) with
      | .error x => .error x
      | .ok (true, s2) => .ok { s2 with cur := pos, lusEof := false }
      | .ok (false, s2) => .ok s2

/-- `inherited_flush_read`, and what `skippable` does (parallel_tronconneuse.cpp:180-188, 606-610). -/
def PtSt.flush {α : Type} (e : PtEnv α) (s : PtSt α) : Except Err (PtSt α) :=
  match s.sendStop e 0 with
  | .error x => .error x
  | .ok (_, s') => .ok s'

/-- The loop of `inherited_read` (parallel_tronconneuse.cpp:387-541); `left`: bytes wanted still, `got`: what was
read and not yet added to current_position, in number.  A block the worker could not decipher: the
caller's thread removes the trailing clear data (with the following block in hand) and tries again. -/
def PtSt.readLoop {α : Type} (e : PtEnv α) : Nat → Nat → Nat → PtSt α → Except Err (List α × PtSt α)
  | 0, _, _, _ => .error .diverge
  | k + 1, left, got, s =>
    if left = 0 ∨ s.lusEof then .ok ([], { s with cur := s.cur + got })
    else match s.refill e with
      | .error x => .error x
      | .ok s =>
        match s.lus with
        | [] => .error .bug
        | .data i d off :: r =>
          let part := (d.drop off).take left
          let s' := { s with lus := if off + part.length = d.length then r else .data i d (off + part.length) :: r }
          match PtSt.readLoop e k (left - part.length) (got + part.length) s' with
          | .error x => .error x
          | .ok (out, s'') => .ok (part ++ out, s'')
        | .ack .normal :: _ => .error .bug
        | .ack .stop :: r =>
          if s.ign = 0 then .error .bug
          else if s.ign = 1 then
            match ({ s with ign := 0, lus := r, run := false, cur := s.cur + got } : PtSt α).goRead e with
            | .error x => .error x
            | .ok s' => PtSt.readLoop e k left 0 s'
          else PtSt.readLoop e k left got { s with ign := s.ign - 1, lus := r }
        | .ack .eof :: _ =>
          match ({ s with lusEof := true } : PtSt α).purge e 0 with
          | .error x => .error x
          | .ok (ret, s') => if ret = .eof then PtSt.readLoop e k left got s' else .error .bug
        | .bad i :: r =>
          match ({ s with lus := r } : PtSt α).refill e with
          | .error x => .error x
          | .ok s' =>
            match e.fix i with
            | none => .error .range
            | some d => PtSt.readLoop e k left got { s' with lus := .data i d 0 :: s'.lus, lusEof := true }

/-- `inherited_read` (parallel_tronconneuse.cpp:373-545). -/
def PtSt.read {α : Type} (e : PtEnv α) (n : Nat) (s : PtSt α) : Except Err (List α × PtSt α) :=
  if s.lusEof then .ok ([], s)
  else match s.goRead e with
    | .error x => .error x
    | .ok s' => PtSt.readLoop e (s'.fuel e) n 0 s'

/-- `skip_relative` (parallel_tronconneuse.cpp:295-320); the boolean is what is returned. -/
def PtSt.skipRel {α : Type} (e : PtEnv α) (back : Bool) (x : Nat) (s : PtSt α) : Except Err (Bool × PtSt α) :=
  if back then
    if x ≤ s.cur then
      match s.skip e (s.cur - x) with | .ok s' => .ok (true, s') | .error y => .error y
    else match s.skip e 0 with | .ok s' => .ok (false, s') | .error y => .error y
  else match s.skip e (s.cur + x) with | .ok s' => .ok (true, s') | .error y => .error y

/-- The reading loop of `skip_to_eof` (parallel_tronconneuse.cpp:275-276), by pieces of `m` bytes. -/
def PtSt.drain {α : Type} (e : PtEnv α) (m : Nat) : Nat → PtSt α → Except Err (PtSt α)
  | 0, _ => .error .diverge
  | k + 1, s =>
    match s.read e m with
    | .error x => .error x
    | .ok (d, s') => if d.length = m then PtSt.drain e m k s' else .ok s'

/-- `skip_to_eof` (parallel_tronconneuse.cpp:243-293); the position of the encrypted side at its end
gives the number of full blocks, and is not at a block boundary when the last block is short.  `m`: the
size of the buffer used. -/
def PtSt.skipToEof {α : Type} (e : PtEnv α) (m : Nat) (s : PtSt α) : Except Err (PtSt α) :=
  match s.flush e with
  | .error x => .error x
  | .ok s1 =>
    if e.short ∧ 0 < e.nb then
      match ({ s1 with cur := (e.nb - 1) * e.cb } : PtSt α).goRead e with
      | .error x => .error x
      | .ok s2 => PtSt.drain e m 3 s2
    else .ok { s1 with cur := e.nb * e.cb }

end Dar
