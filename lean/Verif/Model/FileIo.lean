import Verif.Model.Flat
/- Model of the files at the bottom of the stack over the system calls: fichier_local (src/libdar/fichier_local.cpp), fichier_global
(src/libdar/fichier_global.cpp) and the pipes, tuyau (src/libdar/tuyau.cpp).

The system is free to transfer less than asked, to be interrupted, to lack space, to fail: what it does at each call of read(2) or write(2) is given by
a list of events.  Model/Flat.lean is the behaviour the other layers are built on, C61 shows that it is what this code gives.
Not modelled: the delayed cancellation of threads (C46), fadvise, fsync, the opening. -/
namespace Dar

/-- what the system does at a call of read(2) or write(2): it transfers `k + 1` bytes or less if less is asked or available (0 at the end of the
file); it is interrupted by a signal (EINTR); it has no space left (ENOSPC), the user being then asked if this goes on; it would have to wait (EAGAIN); it
fails (EIO, other) -/
inductive SysEv where
  | moved (k : Nat)
  | intr
  | noSpace (goOn : Bool)
  | again
  | io
  | other
  deriving DecidableEq

/-- the answer of a call that loops over system calls, with the state reached: still inside the call when there is no more event, done, failed -/
inductive IoRes (σ α : Type) where
  | running (s : σ)
  | done (a : α) (s : σ) (evs : List SysEv)
  | failed (e : Err) (s : σ)

/-- SSIZE_MAX -/
def ssizeMax : Nat := 2 ^ 63 - 1

/-! ### fichier_local over system calls -/

/-- the loop of fichier_local::fichier_global_inherited_read, src/libdar/fichier_local.cpp:282-323; `got`: what has been read so far -/
def localRead (f : Flat) (size : Nat) (got : Bytes) : List SysEv → IoRes Flat Bytes
  | [] => .running f
  | .moved k :: evs =>
    let r := f.read (min (min (size - got.length) ssizeMax) (k + 1))
    if (got ++ r.2).length < size ∧ r.2.length ≠ 0 then localRead r.1 size (got ++ r.2) evs else .done (got ++ r.2) r.1 evs
  | .intr :: evs => if got.length < size then localRead f size got evs else .done got f evs
  | .again :: _ => .failed .bug f
  | .io :: _ => .failed .hardware f
  | .noSpace _ :: _ => .failed .range f
  | .other :: _ => .failed .range f
/-- fichier_global::inherited_read over fichier_local (which never makes a partial reading), src/libdar/fichier_global.cpp:112-127 -/
def fileRead' (f : Flat) (size : Nat) (evs : List SysEv) : IoRes Flat Bytes := localRead f size [] evs

/-- the loop of fichier_local::fichier_global_inherited_write, src/libdar/fichier_local.cpp:325-385.  `done rest`: what has not been written, for want of space.
With the event `noSpace` comes the answer of the user to the question that fichier_global asks next. -/
def localWrite (f : Flat) : List SysEv → Bytes → IoRes Flat (Bytes × Option Bool)
  | evs, [] => .done ([], none) f evs
  | [], _ => .running f
  | ev :: evs, b :: bs =>
    let a := b :: bs
    match ev with
    | .moved k =>
      let n := min (if a.length > ssizeMax / 2 then ssizeMax / 2 else a.length) (k + 1)
      localWrite (f.write (a.take n)) evs (a.drop n)
    | .intr => localWrite f evs a
    | .noSpace goOn => .done (a, some goOn) f evs
    | .again => .failed .range f
    | .io => .failed .hardware f
    | .other => .failed .range f

/-- the data of a fichier_global: the file and disk_full -/
structure FileW where
  file : Flat
  diskFull : Bool
/-- the loop of fichier_global::inherited_write, src/libdar/fichier_global.cpp:88-110 (as many turns as there are events at most) -/
def globalLoop : Nat → FileW → Bytes → List SysEv → IoRes FileW Unit
  | 0, w, _, _ => .running w
  | n + 1, w, a, evs =>
    if a = [] ∨ w.diskFull then .done () w evs
    else match localWrite w.file evs a with
      | .running f => .running { w with file := f }
      | .failed e f => .failed e { w with file := f }
      | .done (rest, ans) f evs' =>
        if rest = [] then .done () { w with file := f } evs'
        else match ans with
          | some true => globalLoop n { w with file := f } rest evs'
          | _ => .failed .userAbort ⟨f, true⟩
/-- fichier_global::inherited_write -/
def fileWrite (w : FileW) (a : Bytes) (evs : List SysEv) : IoRes FileW Unit := globalLoop (evs.length + 1) w a evs

/-! ### positions -/

/-- the greatest value of off_t -/
def offMax : Nat := 2 ^ 63 - 1
/-- lseek(2) to the offset `p`; `lim`: the greatest offset the file system accepts -/
def seekTo (lim : Nat) (f : Flat) (p : Int) : Option Flat := if 0 ≤ p ∧ p ≤ lim then some { f with pos := p.toNat } else none

/-- the loop of fichier_local::skip, src/libdar/fichier_local.cpp:189-197: unstack takes as much as an off_t can hold (C04) -/
def skipLoop (lim : Nat) : Nat → Flat → Nat → Flat × Bool
  | 0, f, _ => (f, true)
  | n + 1, f, q =>
    let delta := min q offMax
    if delta > 0 then
      match seekTo lim f (f.pos + delta) with
      | none => (f, false)
      | some f' => skipLoop lim n f' (q - delta)
    else (f, true)
/-- fichier_local::skip, src/libdar/fichier_local.cpp:178-200 -/
def fileSkip (lim : Nat) (f : Flat) (q : Nat) : Flat × Bool :=
  match seekTo lim f 0 with
  | none => (f, false)
  | some f' => skipLoop lim (q + 1) f' q
/-- fichier_local::skip_to_eof, src/libdar/fichier_local.cpp:202-208 -/
def fileSkipEof (lim : Nat) (f : Flat) : Flat × Bool :=
  match seekTo lim f f.data.length with
  | none => (f, false)
  | some f' => (f', true)
/-- fichier_local::skip_relative, src/libdar/fichier_local.cpp:210-242; `x` is a signed int of 32 bits, -x overflows for the least one -/
def fileSkipRel (lim : Nat) (f : Flat) (x : Int) : Res (Flat × Bool) :=
  if x > 0 then
    match seekTo lim f (f.pos + x) with
    | none => .ok (f, false)
    | some f' => .ok (f', true)
  else if x < 0 then
    if x = -2 ^ 31 then .error .ub
    else
      let actu : Int := if (f.pos : Int) < -x then 0 else f.pos + x
      let ret := decide (¬ (f.pos : Int) < -x)
      match seekTo lim f actu with
      | none => .ok (f, false)
      | some f' => .ok (f', ret)
  else .ok (f, true)
/-- fichier_local::inherited_truncate, src/libdar/fichier_local.cpp:257-279, with get_eof_offset, 514-533 -/
def fileTruncate (lim : Nat) (f : Flat) (p : Nat) : Res Flat :=
  if p > offMax then .error .range
  else
    -- get_eof_offset
    match seekTo lim f f.data.length with
    | none => .error .range
    | some f1 => match seekTo lim f1 f.pos with
      | none => .error .range
      | some f2 =>
        if p ≥ f.data.length then .ok f2
        else
          -- ftruncate
          let f3 := { f2 with data := f2.data.take p }
          if f3.pos > p then .ok (fileSkipEof lim f3).1 else .ok f3

/-! ### pipes -/

/-- a pipe being read: what is still to come, the byte read in advance by has_next_to_read, the position -/
structure PipeR where
  src : Bytes
  next : Option UInt8
  pos : Nat
/-- the loop of tuyau::inherited_read, src/libdar/tuyau.cpp:284-311: it stops as soon as a call of read(2) does not return anything, *including when it has been
interrupted* -/
def pipeReadLoop (p : PipeR) (size : Nat) (got : Bytes) : List SysEv → IoRes PipeR Bytes
  | [] => .running p
  | .moved k :: evs =>
    let n := min (min (size - got.length) ssizeMax) (k + 1)
    let r := p.src.take n
    let p' := { p with src := p.src.drop n }
    if (got ++ r).length < size ∧ r.length > 0 then pipeReadLoop p' size (got ++ r) evs
    else .done (got ++ r) { p' with pos := p'.pos + (got ++ r).length } evs
  | .intr :: evs => .done got { p with pos := p.pos + got.length } evs
  | .io :: _ => .failed .hardware p
  | .again :: _ => .failed .range p
  | .noSpace _ :: _ => .failed .range p
  | .other :: _ => .failed .range p
/-- tuyau::inherited_read, src/libdar/tuyau.cpp:253-313 -/
def pipeRead (p : PipeR) (size : Nat) (evs : List SysEv) : IoRes PipeR Bytes :=
  if size = 0 then .done [] p evs
  else match p.next with
    | some b => pipeReadLoop { p with next := none } size [b] evs
    | none => pipeReadLoop p size [] evs
/-- tuyau::has_next_to_read, src/libdar/tuyau.cpp:233-251 -/
def pipeHasNext (p : PipeR) (evs : List SysEv) : IoRes PipeR Bool :=
  match p.next with
  | some _ => .done true p evs
  | none => match evs with
    | [] => .running p
    | .moved _ :: evs => match p.src with
      | [] => .done false p evs
      | b :: l => .done true { p with src := l, next := some b } evs
    | _ :: evs => .done false p evs

/-- BUFFER_SIZE, src/libdar/tuyau.cpp -/
def pipeBuf : Nat := 102400
/-- tuyau::read_and_drop, src/libdar/tuyau.cpp:417-467 (the amount is unstacked by pieces of a machine integer, U_I: not modelled, it makes a difference beyond 2^64 only) -/
def pipeDrop : Nat → PipeR → Nat → List SysEv → IoRes PipeR Bool
  | 0, p, _, _ => .running p
  | n + 1, p, amount, evs =>
    if amount = 0 then .done true p evs
    else match pipeRead p (min amount pipeBuf) evs with
      | .running p' => .running p'
      | .failed e p' => .failed e p'
      | .done b p' evs' => if b.length < min amount pipeBuf then .done false p' evs' else pipeDrop n p' (amount - b.length) evs'
/-- tuyau::skip, src/libdar/tuyau.cpp:197-209 -/
def pipeSkip (p : PipeR) (pos : Nat) (evs : List SysEv) : IoRes PipeR Bool :=
  if pos < p.pos then .failed .range p
  else if pos = p.pos then .done true p evs
  else pipeDrop (pos - p.pos + 1) p (pos - p.pos) evs
/-- tuyau::read_to_eof, src/libdar/tuyau.cpp:469-481: the position is increased again by what `read` has just counted.  (as many turns as there are events, at
least one is needed for each) -/
def pipeToEof : Nat → PipeR → List SysEv → IoRes PipeR Bool
  | 0, p, _ => .running p
  | n + 1, p, evs => match pipeRead p pipeBuf evs with
    | .running p' => .running p'
    | .failed e p' => .failed e p'
    | .done b p' evs' => if b.length > 0 then pipeToEof n { p' with pos := p'.pos + b.length } evs' else .done true p' evs'

/-- the loop of tuyau::inherited_write, src/libdar/tuyau.cpp:343-366; `out`: what has gone through the pipe -/
def pipeWriteLoop (out : Bytes) : List SysEv → Bytes → IoRes Bytes Unit
  | evs, [] => .done () out evs
  | [], _ => .running out
  | ev :: evs, b :: bs =>
    let a := b :: bs
    match ev with
    | .moved k =>
      let n := min (if a.length > ssizeMax / 2 then ssizeMax / 2 else a.length) (k + 1)
      pipeWriteLoop (out ++ a.take n) evs (a.drop n)
    | .intr => pipeWriteLoop out evs a
    | .noSpace true => pipeWriteLoop out evs a
    | .noSpace false => .failed .userAbort out
    | .again => .failed .range out
    | .io => .failed .hardware out
    | .other => .failed .range out

end Dar
