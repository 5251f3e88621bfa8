import Verif.Model.Basic
/- Reading a remote file through libcurl: src/libdar/fichier_libcurl.cpp, the methods used when the file is open for reading.  The caller's thread and the thread that runs libcurl are
interleaved step by step; each step does one access to what they share (the pipe `interthread`, end_data_mode, sub_is_dying, the end of the thread).
Not modelled: writing, the metadata requests (the size is an input), the time out and the retries of mycurl_easyhandle_node::apply (a transfer gives all that it was asked for or fails),
cancellation.  `fast_tampon` of libthreadar is a first in first out list of at most `cap` blocks of `blk` bytes. -/
namespace Dar.Lc
open Dar

/-- the remote file, the pipe, the protocol (x_proto), and whether the size has been asked (has_maxpos) -/
structure Cfg where
  file : Bytes
  cap : Nat
  blk : Nat
  ftp : Bool
  known : Bool
/-- maxpos -/
def Cfg.size (c : Cfg) : Nat := c.file.length
/-- bytes of the file -/
def Cfg.slice (c : Cfg) (p k : Nat) : Bytes := (c.file.drop p).take k

/-- Where the thread is, inherited_run, src/libdar/fichier_libcurl.cpp:485-553: `cur` is subthread_cur_offset (or the offset given by CURLOPT_RESUME_FROM_LARGE), `loc` local_network_block, `p` the
next byte libcurl will give, `rest` what the callback still has to put in the pipe -/
inductive Sub
  | gone
  | ready (cur loc : Nat)
  | xfer (cur loc p : Nat)
  | push (cur loc p : Nat) (rest : Bytes)
  | feed (cur loc p : Nat) (rest : Bytes)
  | fin0
  | fin1
  | fin2
  | fin3
  deriving DecidableEq, Repr

/-- A call of fichier_global_inherited_read: what was asked, `size` (which set_subthread lowers near the end), what has been copied so far, how much of it is not yet counted in current_offset
(delta), maybe_eof -/
structure Rd where
  n : Nat
  size : Nat
  got : Bytes
  delta : Nat
  maybe : Bool
  deriving DecidableEq, Repr

/-- what follows stop_thread: skip, relaunch_thread in a read (`first`: from the first call of set_subthread), relaunch_thread in read_ahead -/
inductive Kont
  | skip (pos : Nat)
  | rel (need : Nat) (r : Rd) (first : Bool)
  | ahead (need : Nat)
  deriving DecidableEq, Repr

/-- where the caller's thread is -/
inductive Pc
  | idle
  | entry (r : Rd)
  | sst (r : Rd) (first : Bool)
  | sstD (r : Rd) (first : Bool)
  | stop (k : Kont)
  | stopF (k : Kont)
  | join (k : Kont)
  | t0 (r : Rd)
  | t1 (r : Rd)
  | fetch (r : Rd)
  | tail (r : Rd)
  | o0 (r : Rd)
  | o1 (r : Rd)
  | threw (e : Err)
  deriving DecidableEq, Repr

/-- a call that ended -/
inductive Done
  | read (n : Nat) (bytes : Bytes)
  | skip (pos : Nat)
  | ahead (n : Nat)
  deriving DecidableEq, Repr

/-- the object; `exc` is the exception with which the thread ended; `log` the calls that ended, the last first; `goal` (not in the code) is where the running transfer is to end -/
structure St where
  q : List Bytes
  off : Nat
  md : Bool
  endm : Bool
  dying : Bool
  net : Nat
  resume : Nat
  sub : Sub
  exc : Option Err
  goal : Nat
  pc : Pc
  log : List Done
  deriving DecidableEq, Repr

/-- the constructor, src/libdar/fichier_libcurl.cpp:40-103 -/
def St.init : St := ⟨[], 0, true, false, false, 0, 0, .gone, none, 0, .idle, []⟩

/-- the start of the thread, src/libdar/fichier_libcurl.cpp:487-508, 555-560, 702-704 -/
def launch (c : Cfg) (s : St) (pc : Pc) : St :=
  { s with q := [], md := false, endm := false, dying := false, pc := pc,
           sub := .ready (if s.net = 0 then s.resume else s.off) s.net,
           goal := if s.net = 0 then c.size else min (s.off + s.net) c.size }
/-- run_thread, src/libdar/fichier_libcurl.cpp:672-705: an empty block may be left in the pipe -/
def runThread (c : Cfg) (s : St) (pc : Pc) : St := match s.q with
  | [] => launch c s pc
  | [[]] => launch c s pc
  | _ => { s with pc := .threw .bug }
/-- switch_to_metadata(false), src/libdar/fichier_libcurl.cpp:608-632 -/
def toData (c : Cfg) (s : St) (net : Nat) (pc : Pc) : St := runThread c { s with net := net, resume := if net = 0 then s.off else s.resume } pc

/-- after set_subthread: the loop, or its test -/
def afterSst (r : Rd) (first : Bool) : Pc := if first then .t0 r else .o0 r
/-- the argument of set_subthread -/
def Rd.need (r : Rd) : Nat := r.size - r.got.length

/-- one step of the caller's thread, none when it waits or has nothing to do -/
def mainStep (c : Cfg) (s : St) : Option St := match s.pc with
  | .idle => none
  | .threw _ => none
  -- src/libdar/fichier_libcurl.cpp:418-423
  | .entry r =>
    if c.known = true ∧ c.size ≤ s.off then
      if s.q ≠ [] then some { s with pc := .threw .bug } else some { s with pc := .idle, log := .read r.n [] :: s.log }
    else some { s with pc := .sst r true }
  -- set_subthread, src/libdar/fichier_libcurl.cpp:899-936
  | .sst r first =>
    if s.q ≠ [] then some { s with pc := afterSst r first }
    else if s.md = true then
      if c.ftp = true then some (toData c s 0 (afterSst r first))
      else if c.known = true ∧ c.size ≤ s.off + r.need then
        some (toData c s 0 (afterSst (if first then { r with size := c.size - s.off } else r) first))
      else some (toData c s r.need (afterSst r first))
    else some { s with pc := .sstD r first }
  | .sstD r first => if s.dying = true then some { s with pc := .stop (.rel r.need r first) } else some { s with pc := afterSst r first }
  -- stop_thread, src/libdar/fichier_libcurl.cpp:707-739
  | .stop k => if s.sub ≠ .gone then some { s with endm := true, pc := .stopF k } else some { s with pc := .join k }
  | .stopF k => if c.cap ≤ s.q.length then some { s with q := s.q.drop 1, pc := .join k } else some { s with pc := .join k }
  | .join k =>
    if s.sub = .gone then
      match s.exc with
      | some e => some { s with exc := none, pc := .threw e }
      | none =>
        let s := { s with resume := 0 }
        match k with
        -- src/libdar/fichier_libcurl.cpp:640-652, 224-228, inherited_flush_read 341-345
        | .skip pos => some { s with md := true, off := pos, q := [], pc := .idle, log := .skip pos :: s.log }
        -- relaunch_thread, src/libdar/fichier_libcurl.cpp:752-768
        | .rel need r first => some (runThread c { s with net := if c.ftp = true then 0 else need } (afterSst r first))
        | .ahead need => let s := runThread c { s with net := if c.ftp = true then 0 else need } .idle
          some (if s.pc = .idle then { s with log := .ahead need :: s.log } else s)
    else none
  -- src/libdar/fichier_libcurl.cpp:428-447
  | .t0 r =>
    if r.size ≤ r.got.length then some { s with pc := .tail r }
    else if s.dying = false then some { s with pc := .fetch r }
    else some { s with pc := .t1 r }
  | .t1 r => if s.q ≠ [] then some { s with pc := .fetch r } else some { s with pc := .tail r }
  | .fetch r => match s.q with
    | [] => none
    | b :: q =>
      if b.length ≤ r.size - r.got.length then some { s with q := q, pc := .t0 { r with got := r.got ++ b, delta := r.delta + b.length } }
      else some { s with q := b.drop (r.size - r.got.length) :: q,
                         pc := .t0 { r with got := r.got ++ b.take (r.size - r.got.length), delta := r.delta + (r.size - r.got.length) } }
  -- src/libdar/fichier_libcurl.cpp:448-463
  | .tail r =>
    let s := { s with off := s.off + r.delta }
    let r' := { r with delta := 0 }
    if r.got.length < r.size ∧ (c.known = false ∨ s.off < c.size) ∧ r.maybe = false then
      some { s with pc := .sst { r' with maybe := decide (r.delta = 0) } false }
    else some { s with pc := .o0 r' }
  -- src/libdar/fichier_libcurl.cpp:465-468
  | .o0 r =>
    if r.size ≤ r.got.length then some { s with pc := .idle, log := .read r.n r.got :: s.log }
    else if s.sub ≠ .gone then some { s with pc := .t0 r }
    else some { s with pc := .o1 r }
  | .o1 r => if s.q ≠ [] then some { s with pc := .t0 r } else some { s with pc := .idle, log := .read r.n r.got :: s.log }

/-- the end of the transfer that begins at `cur`; 0 means without limit -/
def xferEnd (c : Cfg) (cur loc : Nat) : Nat := if loc = 0 then c.size else min (cur + loc) c.size

/-- one step of the thread of libcurl: `k` is the number of bytes given to the callback, `fail` tells that the transfer fails -/
def subStep (c : Cfg) (k : Nat) (fail : Bool) (s : St) : Option St := match s.sub with
  | .gone => none
  | .ready cur loc => some { s with sub := .xfer cur loc cur }
  | .xfer cur loc p =>
    if fail = true then some { s with exc := some .range, sub := .fin0 }
    else if p < xferEnd c cur loc then
      if 0 < k ∧ p + k ≤ xferEnd c cur loc then some { s with sub := .push cur loc (p + k) (c.slice p k) } else none
    -- src/libdar/fichier_libcurl.cpp:508-544
    else if loc = 0 then some { s with sub := .fin0 }
    else if p - cur ≠ 0 ∧ s.endm = false ∧ loc - (p - cur) ≠ 0 then some { s with sub := .ready p (loc - (p - cur)) }
    else some { s with sub := .fin0 }
  -- write_data_callback, src/libdar/fichier_libcurl.cpp:771-823
  | .push cur loc p rest =>
    if s.endm = false ∧ rest ≠ [] then some { s with sub := .feed cur loc p rest }
    else if rest = [] then some { s with sub := .xfer cur loc p }
    else if s.net = 0 then some { s with sub := .fin0 }
    else some { s with exc := some .bug, sub := .fin0 }
  | .feed cur loc p rest =>
    if s.q.length < c.cap then some { s with q := s.q ++ [rest.take c.blk], sub := .push cur loc p (rest.drop c.blk) } else none
  -- finalize_subthread, src/libdar/fichier_libcurl.cpp:562-590
  | .fin0 => some { s with dying := true, sub := .fin1 }
  | .fin1 => if s.endm = true then some { s with sub := .fin3 } else some { s with sub := .fin2 }
  | .fin2 => if s.q.length < c.cap then some { s with q := s.q ++ [[]], sub := .fin3 } else none
  | .fin3 => some { s with sub := .gone }

/-- the calls -/
inductive Call
  | read (n : Nat)
  | skip (pos : Nat)
  | ahead (n : Nat)
  deriving DecidableEq, Repr
/-- the beginning of a call, made when the former has ended: src/libdar/fichier_libcurl.cpp:206-233 (skip), 283-288 and 741-769 (read_ahead), 404-416 (read) -/
def callStep (c : Cfg) (k : Call) (s : St) : St := match k with
  | .read n => { s with pc := .entry ⟨n, n, [], 0, false⟩ }
  | .skip pos =>
    if pos = s.off then { s with log := .skip pos :: s.log }
    else if s.md = true then { s with off := pos, q := [], log := .skip pos :: s.log }
    else { s with pc := .stop (.skip pos) }
  | .ahead n =>
    if c.known = true ∧ c.size ≤ s.off then { s with log := .ahead n :: s.log }
    else if s.md = true then
      let s := toData c s (if c.ftp = true then 0 else n) .idle
      if s.pc = .idle then { s with log := .ahead n :: s.log } else s
    else if s.dying = true then { s with pc := .stop (.ahead n) }
    else { s with log := .ahead n :: s.log }

/-- a step of one of the threads, or a new call among those allowed -/
inductive Step (c : Cfg) (P : Call → Prop) : St → St → Prop
  | call {s} (k : Call) (hk : P k) (h : s.pc = .idle) : Step c P s (callStep c k s)
  | main {s s'} (h : mainStep c s = some s') : Step c P s s'
  | sub {s s'} (k : Nat) (fail : Bool) (h : subStep c k fail s = some s') : Step c P s s'
/-- what can happen -/
inductive Reach (c : Cfg) (P : Call → Prop) : St → Prop
  | init : Reach c P St.init
  | step {s s'} (h : Reach c P s) (hs : Step c P s s') : Reach c P s'

/-- The executions where no transfer fails and the caller's thread does not run between the moment the other says that it ends (sub_is_dying) and the moment it has put the empty block in the
pipe. -/
inductive CalmStep (c : Cfg) (P : Call → Prop) : St → St → Prop
  | call {s} (k : Call) (hk : P k) (h : s.pc = .idle) (hf : s.sub ≠ .fin1 ∧ s.sub ≠ .fin2) : CalmStep c P s (callStep c k s)
  | main {s s'} (h : mainStep c s = some s') (hf : s.sub ≠ .fin1 ∧ s.sub ≠ .fin2) : CalmStep c P s s'
  | sub {s s'} (k : Nat) (h : subStep c k false s = some s') : CalmStep c P s s'
inductive CalmReach (c : Cfg) (P : Call → Prop) : St → Prop
  | init : CalmReach c P St.init
  | step {s s'} (h : CalmReach c P s) (hs : CalmStep c P s s') : CalmReach c P s'

end Dar.Lc
