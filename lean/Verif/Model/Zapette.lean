import Verif.Model.Headers
import Verif.Model.Text
import Verif.Model.Flat
/- Remote reading of an archive over a pair of pipes: zapette (master, in dar), slave_zapette (dar_slave), their messages
(zapette_protocol) and the pipes (tuyau). -/
namespace Dar

/-- What one read(2) on a pipe does: it gives at most `k + 1` bytes, or fails with EINTR. -/
inductive PipeEv where
  | got (k : Nat)
  | eintr
  deriving DecidableEq, Repr

/-- A pipe, seen from the side that reads: the bytes sent by the peer until it stops, and what the next read(2) calls do
(when the list is over, they give everything asked for). -/
structure Pipe where
  data : Bytes
  ev : List PipeEv := []
  deriving DecidableEq, Repr

/-- tuyau::inherited_read, src/libdar/tuyau.cpp:253-308: the loop over read(2). An interrupted read(2) (EINTR) ends the
loop like an end of file does, because the loop condition is `ret > 0`. `has_one_to_read` (never used over zapette) and
EIO not modelled. -/
def Pipe.read (data : Bytes) : List PipeEv → Nat → Bytes × Pipe
  | [], n => (data.take n, ⟨data.drop n, []⟩)
  | .eintr :: ev, n => if n = 0 then ([], ⟨data, .eintr :: ev⟩) else ([], ⟨data, ev⟩)
  | .got k :: ev, n =>
    if n = 0 then ([], ⟨data, .got k :: ev⟩)
    else if data = [] then ([], ⟨data, ev⟩)
    else
      let m := min n (k + 1)
      let r := Pipe.read (data.drop m) ev (n - (data.take m).length)
      (data.take m ++ r.1, r.2)

/-- Reading values from a pipe. -/
abbrev PR (α : Type) := StateT Pipe (Except Err) α

/-- `f->read(a, n)`: the bytes obtained, possibly fewer than `n` -/
def pread (n : Nat) : PR Bytes := fun p => .ok (Pipe.read p.data p.ev n)

/-- A field read by a function which raises an exception on a short read (infinint::build_from_file, tools_read_string).
Simplification: the interruptions (EINTR) and the splitting of the read(2) calls inside such a field are left out, the
bytes of the field are taken as a whole. -/
def pfield {α : Type} (r : Reader α) : PR α := fun p =>
  match r p.data with
  | .error e => .error e
  | .ok (a, rest) => .ok (a, { p with data := rest })

/-- Two bytes in network order (htons), src/libdar/zapette_protocol.cpp:55, 87 -/
def put16 (n : Nat) : Bytes := [UInt8.ofNat (n / 256), UInt8.ofNat n]
/-- ntohs, src/libdar/zapette_protocol.cpp:77, 121 -/
def val16 : Bytes → Nat
  | [a, b] => a.toNat * 256 + b.toNat
  | _ => 0

/-- `while(pas < sizeof(tmp)) pas += f->read(...)`, src/libdar/zapette_protocol.cpp:74-76, 118-120. At the end of the data
the loop does not end (`diverge`). `fuel`: number of rounds. -/
def pread16 : Nat → Bytes → PR Nat
  | 0, _ => fun _ => .error .diverge
  | fuel + 1, acc => fun p =>
    if acc.length ≥ 2 then .ok (val16 acc, p)
    else match pread (2 - acc.length) p with
      | .error e => .error e
      | .ok (b, p') => pread16 fuel (acc ++ b) p'

/-- Number of rounds given to the loop above: every round either consumes an event or reads everything it can. -/
def fuel16 (p : Pipe) : Nat := p.ev.length + 3

/-- The loop `while(pas < sizeof(tmp))` with enough rounds. -/
def get16 : PR Nat := fun p => pread16 (fuel16 p) [] p

/-- struct request, src/libdar/zapette_protocol.hpp:62-71 -/
structure Request where
  serial : UInt8
  size : Nat
  offset : Nat
  info : Bytes
  deriving DecidableEq, Repr

/-- request::write, src/libdar/zapette_protocol.cpp:53-62 -/
def Request.write (r : Request) : Bytes :=
  [r.serial] ++ putInt r.offset ++ put16 r.size ++ (if r.size = 0 ∧ r.offset = 2 then putStr r.info else [])

/-- The end of request::read, src/libdar/zapette_protocol.cpp:78-81 -/
def Request.readInfo (size offset : Nat) : PR Bytes := if size = 0 ∧ offset = 2 then pfield getStr else pure []

/-- request::read, src/libdar/zapette_protocol.cpp:64-82 -/
def Request.read : PR Request := do
  let s ← pread 1
  match s with
  | [] => fun _ => .error .range
  | b :: _ => do
    let off ← pfield getInt
    let sz ← get16
    let info ← Request.readInfo sz off
    pure ⟨b, sz, off, info⟩

/-- What struct answer and the buffer of data carry (src/libdar/zapette_protocol.hpp:73-82): an answer of type 'D' with
its data or of type 'I' with its integer. -/
inductive Answer where
  | data (serial : UInt8) (d : Bytes)
  | int (serial : UInt8) (arg : Nat)
  deriving DecidableEq, Repr

/-- answer::write, src/libdar/zapette_protocol.cpp:84-106 (`size` is the length of the data given) -/
def Answer.write : Answer → Bytes
  | .data s d => [s, 68] ++ put16 d.length ++ d
  | .int s a => [s, 73] ++ putInt a

/-- What answer::read leaves: serial number, type, size field, integer, and the bytes effectively stored at `data`. -/
structure Got where
  serial : UInt8
  isData : Bool
  size : Nat
  arg : Nat
  stored : Bytes
  deriving DecidableEq, Repr

/-- The type dependent part of answer::read, src/libdar/zapette_protocol.cpp:115-146. The number of bytes returned by
`f->read(data, tmp)` is ignored by the code. copy_to (generic_file.cpp:245-280, BUFFER_SIZE loop not modelled) reads what is in excess, ending early at
the end of file. -/
def Answer.readBody (serial type : UInt8) (max : Nat) : PR Got :=
  if type = 68 then do
    let size ← get16
    let d ← pread (min size max)
    let _ ← pread (size - max)
    pure ⟨serial, true, size, 0, d⟩
  else if type = 73 then do
    let a ← pfield getInt
    pure ⟨serial, false, 0, a, []⟩
  else fun _ => .error .range

/-- answer::read, src/libdar/zapette_protocol.cpp:108-148. The serial number and the type are read without checking the
number of bytes read: when it is zero the fields keep an uninitialised value (`ub`). -/
def Answer.read (max : Nat) : PR Got := do
  let s ← pread 1
  let t ← pread 1
  match s, t with
  | b :: _, c :: _ => Answer.readBody b c max
  | _, _ => fun _ => .error .ub

/-- The slave: its data file (with `seekOk`, the result of skip() on it), the values it answers to the special orders
(get_slice_info() and the two header sizes), its contextual status and the serialised slice header kept between two orders
(`serialzd`). src/libdar/slave_zapette.hpp -/
structure Slave where
  src : Bytes
  seekOk : Nat → Bool
  oldHeader : Bool
  dataName : Bytes
  firstHeader : Nat
  otherHeader : Nat
  sliceInfo : Bytes
  status : Bytes
  serialzd : Bytes

/-- Body of the loop of slave_zapette::action once the request is read, src/libdar/slave_zapette.cpp:108-247. The sizes
of the answers are U_16: the data name has label::common_size() bytes. `Bool`: the loop goes on. -/
def Slave.step (s : Slave) (r : Request) : Res (Slave × Bytes × Bool) :=
  if r.size ≠ 0 then
    if s.seekOk r.offset then .ok (s, (Answer.data r.serial ((s.src.drop r.offset).take r.size)).write, true)
    else .ok (s, (Answer.data r.serial []).write, true)
  else match r.offset with
    | 0 => .ok (s, (Answer.data r.serial []).write, false)
    | 1 => .ok (s, (Answer.int r.serial s.src.length).write, true)
    | 2 => .ok ({ s with status := r.info }, (Answer.int r.serial 1).write, true)
    | 3 => .ok (s, (Answer.int r.serial (if s.oldHeader then 1 else 0)).write, true)
    | 4 => .ok (s, (Answer.data r.serial s.dataName).write, true)
    | 5 => .ok (s, (Answer.int r.serial s.firstHeader).write, true)
    | 6 => .ok (s, (Answer.int r.serial s.otherHeader).write, true)
    | 7 => .ok ({ s with serialzd := s.sliceInfo }, (Answer.int r.serial s.sliceInfo.length).write, true)
    | 8 =>
      if s.serialzd = [] then .error .bug
      else if s.serialzd.length > 65535 then .error .range
      else .ok ({ s with serialzd := [] }, (Answer.data r.serial s.serialzd).write, true)
    | _ => .error .range

/-- The master: class zapette, src/libdar/zapette.hpp:105-112 -/
structure Zap where
  position : Nat
  fileSize : Nat
  serial : UInt8
  status : Bytes
  terminated : Bool
  deriving DecidableEq, Repr

/-- The slave side of an exchange: reads one request on the pipe and answers (one round of the loop of
slave_zapette::action, src/libdar/slave_zapette.cpp:105-249). -/
def Slave.serve (s : Slave) (p : Pipe) : Res (Slave × Bytes × Pipe) :=
  match Request.read p with
  | .error e => .error e
  | .ok (r, p') =>
    match s.step r with
    | .error e => .error e
    | .ok (s', ans, _) => .ok (s', ans, p')

/-- The sanity checks at the end of zapette::make_transfert, src/libdar/zapette.cpp:349-399 (`lu`: the size retained) -/
def Zap.sane (size offset lu : Nat) (g : Got) : Res Unit :=
  if size ≠ 0 then .ok ()
  else match offset with
    | 0 => .ok ()
    | 1 => if g.size ≠ 0 ∨ g.isData then .error .range else .ok ()
    | 2 => if g.arg ≠ 1 then .error .range else .ok ()
    | 3 => if g.isData ∨ (g.arg ≠ 0 ∧ g.arg ≠ 1) then .error .range else .ok ()
    | 4 => if g.isData = false ∨ lu ≠ 10 then .error .range else .ok ()
    | 5 => if g.size ≠ 0 ∨ g.isData then .error .range else .ok ()
    | 6 => if g.size ≠ 0 ∨ g.isData then .error .range else .ok ()
    | 7 => if g.size ≠ 0 ∨ g.isData then .error .range else .ok ()
    | 8 => if lu = 0 ∨ g.isData = false then .error .range else .ok ()
    | _ => .error .range

/-- The two processes between two exchanges: the master, the slave and the two pipes (what remains in them, how they will
deliver their next bytes). -/
structure Link where
  zap : Zap
  slave : Slave
  toSlave : Pipe
  toMaster : Pipe

/-- Writing on a pipe (tuyau::inherited_write): the bytes come after those already there. -/
def Pipe.push (p : Pipe) (b : Bytes) : Pipe := { p with data := p.data ++ b }

/-- The loop reading answers in zapette::make_transfert, src/libdar/zapette.cpp:322-329: an answer which has another serial
number is dropped and the next one is read. The user, asked each time whether to retry, is supposed to agree (otherwise an
exception is raised). `fuel`: number of rounds. -/
def awaitAnswer : Nat → UInt8 → Nat → PR Got
  | 0, _, _ => fun _ => .error .diverge
  | fuel + 1, serial, max => fun p =>
    match Answer.read max p with
    | .error e => .error e
    | .ok (g, p') => if g.serial ≠ serial then awaitAnswer fuel serial max p' else .ok (g, p')

/-- zapette::make_transfert, src/libdar/zapette.cpp:307-400, the slave serving the request meanwhile (the master waits for
the answer, so the two processes alternate). `room`: the incoming value of `lu`. Result: the bytes stored in the buffer,
the value given to `lu`, the integer. -/
def Link.transfer (l : Link) (size offset : Nat) (info : Bytes) (room : Nat) : Res (Link × Bytes × Nat × Nat) :=
  match l.slave.serve (l.toSlave.push (Request.write ⟨l.zap.serial, size, offset, info⟩)) with
  | .error e => .error e
  | .ok (sl, ans, ps) =>
    let max := if size = 0 then room else size
    match awaitAnswer ((l.toMaster.push ans).data.length + 1) l.zap.serial max (l.toMaster.push ans) with
    | .error e => .error e
    | .ok (g, p) =>
        let lu := if g.isData then min g.size max else 0
        match Zap.sane size offset lu g with
        | .error e => .error e
        | .ok () => .ok (⟨{ l.zap with serial := l.zap.serial + 1 }, sl, ps, p⟩, g.stored, lu, if g.isData then 0 else g.arg)

/-- The loop of zapette::inherited_read, src/libdar/zapette.cpp:275-300. When fewer bytes than `lu` were stored in the
buffer, what the buffer contained before (`junk`) is what the caller gets. `fuel`: number of rounds. -/
def Link.readLoop : Nat → Link → Nat → Bytes → Res (Link × Bytes)
  | 0, _, _, _ => .error .diverge
  | fuel + 1, l, size, acc =>
    match l.transfer (min (size - acc.length) 65535) l.zap.position [] 0 with
    | .error e => .error e
    | .ok (l1, d, ret, _) =>
      let l2 := { l1 with zap := { l1.zap with position := l1.zap.position + ret } }
      let acc' := acc ++ (d ++ List.replicate ret 0).take ret
      if acc'.length < size ∧ ret ≠ 0 then Link.readLoop fuel l2 size acc' else .ok (l2, acc')

/-- generic_file::read then zapette::inherited_read. src/libdar/generic_file.cpp:144-153 (terminated → SRC_BUG) -/
def Link.read (l : Link) (size : Nat) : Res (Link × Bytes) :=
  if l.zap.terminated then .error .bug
  else if size = 0 then .ok (l, [])
  else Link.readLoop (size + 1) l size []

/-- zapette::skip, src/libdar/zapette.cpp:132-147 -/
def Link.skip (l : Link) (pos : Nat) : Res (Link × Bool) :=
  if l.zap.terminated then .error .bug
  else if pos ≥ l.zap.fileSize then .ok ({ l with zap := { l.zap with position := l.zap.fileSize } }, false)
  else .ok ({ l with zap := { l.zap with position := pos } }, true)

/-- zapette::skip_relative, src/libdar/zapette.cpp:149-176 -/
def Link.skipRel (l : Link) (x : Int) : Res (Link × Bool) :=
  if l.zap.terminated then .error .bug
  else if 0 ≤ x then
    if l.zap.position + x.natAbs > l.zap.fileSize then .ok ({ l with zap := { l.zap with position := l.zap.fileSize } }, false)
    else .ok ({ l with zap := { l.zap with position := l.zap.position + x.natAbs } }, true)
  else if x.natAbs > l.zap.position then .ok ({ l with zap := { l.zap with position := 0 } }, false)
  else .ok ({ l with zap := { l.zap with position := l.zap.position - x.natAbs } }, true)

/-- zapette::skip_to_eof, src/libdar/zapette.hpp:72 -/
def Link.skipEof (l : Link) : Res (Link × Bool) :=
  if l.zap.terminated then .error .bug else .ok ({ l with zap := { l.zap with position := l.zap.fileSize } }, true)

/-- zapette::set_info_status, src/libdar/zapette.cpp:178-188 -/
def Link.setStatus (l : Link) (s : Bytes) : Res Link :=
  if l.zap.terminated then .error .bug
  else match l.transfer 0 2 s 0 with
    | .error e => .error e
    | .ok (l1, _, _, _) => .ok { l1 with zap := { l1.zap with status := s } }

/-- zapette::get_slice_info, src/libdar/zapette.cpp:190-246: the bytes given to slice_header::read (see Headers for the
reading itself). The size has to fit U_I and `lu` is then cut to U_16 when handed to make_transfert. -/
def Link.sliceInfo (l : Link) : Res (Link × Bytes) :=
  if l.zap.terminated then .error .bug
  else match l.transfer 0 7 [] 0 with
    | .error e => .error e
    | .ok (l1, _, _, n) =>
      if n ≥ 2 ^ 64 then .error .range
      else match l1.transfer 0 8 [] (n % 65536) with
        | .error e => .error e
        | .ok (l2, d, _, _) => .ok (l2, d)

/-- zapette::get_first_slice_header_size (`which` = 5) and get_non_first_slice_header_size (`which` = 6),
src/libdar/zapette.cpp:248-272 -/
def Link.headerSize (l : Link) (which : Nat) : Res (Link × Nat) :=
  if l.zap.terminated then .error .bug
  else match l.transfer 0 which [] 0 with
    | .error e => .error e
    | .ok (l1, _, _, a) => .ok (l1, a)

/-- zapette::inherited_terminate, src/libdar/zapette.cpp:126-130, reached once (generic_file::terminate) -/
def Link.terminate (l : Link) : Res Link :=
  if l.zap.terminated then .ok l
  else match l.transfer 0 0 [] 0 with
    | .error e => .error e
    | .ok (l1, _, _, a) => .ok { l1 with zap := { l1.zap with terminated := true, fileSize := a } }

/-- zapette::zapette, src/libdar/zapette.cpp:56-110: asks for the file size, then goes to the end or to the start. The
initial status is the one of contextual::set_info_status(CONTEXT_INIT), "init". -/
def Link.start (sl : Slave) (toSlave toMaster : Pipe) (byTheEnd : Bool) : Res Link :=
  match (Link.mk ⟨0, 0, 0, [105, 110, 105, 116], false⟩ sl toSlave toMaster).transfer 0 1 [] 0 with
  | .error e => .error e
  | .ok (l1, _, _, a) =>
    let l2 := { l1 with zap := { l1.zap with fileSize := a } }
    if byTheEnd then (l2.skipEof).map (·.1) else (l2.skip 0).map (·.1)

end Dar
