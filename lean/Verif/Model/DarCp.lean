import Verif.Model.Flat
/- Model of dar_cp (src/dar_suite/dar_cp.cpp), the command that copies a file from a damaged medium, passing over what cannot be read.

What the system answers to read(2) and write(2) is given by two functions; a place of the medium that cannot be read always fails.  Not modelled: the messages,
the opening of the files (with option -f the destination may exist: it is opened *without* being emptied), the cancellation, lseek(2) that fails. -/
namespace Dar

/-- the source and the answers of the system -/
structure CpEnv where
  /-- the content of the source (whatever the places that cannot be read hold) -/
  data : Bytes
  /-- read(2) of `n` bytes at an offset: fails, or gives that many bytes -/
  rd : Nat → Nat → Option Nat
  /-- write(2) of `n` bytes at an offset of the destination: fails, or writes `k + 1` bytes at most -/
  wr : Nat → Nat → Option Nat

/-- the source position and the destination -/
structure CpSt where
  pos : Nat
  dst : Flat
  deriving DecidableEq

/-- read(2) -/
def CpEnv.read (e : CpEnv) (p n : Nat) : Option Bytes := (e.rd p n).map (fun k => (e.data.drop p).take k)

/-- the loop of normal_copy that writes, src/dar_suite/dar_cp.cpp:368-379: a short write is completed -/
def cpWriteAll (e : CpEnv) : Nat → Flat → Bytes → Res Flat
  | 0, d, _ => .ok d
  | n + 1, d, b =>
    if b = [] then .ok d
    else match e.wr d.pos b.length with
      | none => .error .range
      | some k => cpWriteAll e n (d.write (b.take (k + 1))) (b.drop (k + 1))
/-- normal_copy, src/dar_suite/dar_cp.cpp:363-382: the number of bytes copied, `none` when the reading failed -/
def normalCopy (e : CpEnv) (block : Nat) (s : CpSt) : Res (Option Nat × CpSt) :=
  match e.read s.pos block with
  | none => .ok (none, s)
  | some b => do
    let d ← cpWriteAll e b.length s.dst b
    .ok (some b.length, ⟨s.pos + b.length, d⟩)

/-- the loop of xfer_before_error, src/dar_suite/dar_cp.cpp:282-292: what is written is not looked at, the block is halved until 1 -/
def xferLoop (e : CpEnv) : Nat → Nat → CpSt → Res CpSt
  | 0, _, s => .ok s
  | n + 1, block, s =>
    if block > 1 then
      match e.read s.pos block with
      | none => xferLoop e n (block / 2) s
      | some [] => xferLoop e n (block / 2) s
      | some b => match e.wr s.dst.pos b.length with
        | none => .error .range
        | some k => xferLoop e n block ⟨s.pos + b.length, s.dst.write (b.take (k + 1))⟩
    else .ok s
/-- xfer_before_error, src/dar_suite/dar_cp.cpp:272-293 -/
def xferBefore (e : CpEnv) (block : Nat) (s : CpSt) : Res CpSt :=
  match e.read s.pos 1 with
  | some [_] => xferLoop e (e.data.length + block) block s
  | _ => .ok s

/-- the first step of skip_to_next_readable, src/dar_suite/dar_cp.cpp:307-320: looking further and further for something readable; the position reached.  `block*2` overflows an int beyond 2^30. -/
def leap (e : CpEnv) : Nat → Nat → Nat → Res Nat
  | 0, _, _ => .error .diverge
  | n + 1, block, p =>
    match e.read p 1 with
    | some b => .ok (p + b.length)
    | none => if block * 2 ≥ 2 ^ 31 then .error .ub else leap e n (block * 2) (p + block * 2)
/-- the second step, src/dar_suite/dar_cp.cpp:326-346: between `lo` and `hi` -/
def bisect (e : CpEnv) : Nat → Nat → Nat → Nat
  | 0, _, hi => hi
  | n + 1, lo, hi =>
    if hi - lo > 1 then
      let mid := (hi + lo) / 2
      match e.read mid 1 with
      | some _ => bisect e n lo mid
      | none => bisect e n mid hi
    else hi
/-- skip_to_next_readable, src/dar_suite/dar_cp.cpp:295-361: is there something readable, what has been missed, the state -/
def skipReadable (e : CpEnv) (block : Nat) (s : CpSt) : Res (Bool × Nat × CpSt) := do
  let hi ← leap e 32 block s.pos
  let m := bisect e (hi - s.pos) s.pos hi
  let ok := match e.read m 1 with
    | some [_] => true
    | _ => false
  .ok (ok, m - s.pos, ⟨m, s.dst.skip m⟩)

/-- BUF_SIZE, src/dar_suite/dar_cp.cpp:219 -/
def cpBuf : Nat := 1024
/-- the loop of copy_max, src/dar_suite/dar_cp.cpp:232-266; the result: what is said to be missing (nothing: EXIT_OK, else EXIT_DATA_ERROR), and the destination -/
def cpLoop (e : CpEnv) : Nat → Nat → CpSt → Res (Nat × Flat)
  | 0, _, _ => .error .diverge
  | n + 1, missed, s => do
    let (lu, s1) ← normalCopy e cpBuf s
    match lu with
    | some 0 => .ok (missed, s1.dst)
    | some _ => cpLoop e n missed s1
    | none =>
      let s2 ← xferBefore e (cpBuf / 2) s1
      let (ok, m, s3) ← skipReadable e (cpBuf / 2) s2
      if ok then cpLoop e n (missed + m) s3 else .ok (missed + (e.data.length - s1.pos), s3.dst)
/-- copy_max, src/dar_suite/dar_cp.cpp:215-270; `old`: what the destination holds before (option -f) -/
def copyMax (e : CpEnv) (old : Bytes) : Res (Nat × Flat) := cpLoop e (e.data.length + 2) 0 ⟨0, ⟨old, 0⟩⟩

end Dar
