import Verif.Model.Infinint
/-
Model of the checksum classes crc_n and crc_i, src/libdar/crc.{hpp,cpp}.
A checksum object is its ring of bytes (`cyc`, the C++ `cyclic` area of `size` bytes) and the index
`ptr` of the next byte to modify (`pointer - cyclic`).
-/
namespace Dar

/-- State of crc_n / crc_i: src/libdar/crc.hpp (`cyclic`, `pointer`). -/
structure CrcSt where
  cyc : Bytes
  ptr : Nat
  deriving DecidableEq, Repr

/-- The loop of T_compute, src/libdar/crc.cpp:128-133: `*pointer ^= buffer[cursor]; if(++pointer == end)
pointer = begin;`.  A write outside the ring is undefined behaviour. -/
def tComputeLoop : Bytes → CrcSt → Res CrcSt
  | [], st => .ok st
  | b :: l, st =>
      if st.ptr < st.cyc.length then
        let cyc := st.cyc.set st.ptr (st.cyc.getD st.ptr 0 ^^^ b)
        tComputeLoop l ⟨cyc, if st.ptr + 1 = cyc.length then 0 else st.ptr + 1⟩
      else .error .ub

/-- T_compute, src/libdar/crc.cpp:123-134. -/
def tCompute (buf : Bytes) (st : CrcSt) : Res CrcSt :=
  if st.ptr = st.cyc.length then .error .bug else tComputeLoop buf st

/-- `*crc_ptr ^= *buf_ptr` on machine words of `k` bytes, src/libdar/crc.cpp:112: a word-wide xor is the
xor of the bytes, in any byte order. -/
def xorWord (cyc : Bytes) (p : Nat) (word : Bytes) : Bytes :=
  cyc.take p ++ List.zipWith (· ^^^ ·) ((cyc.drop p).take word.length) word ++ cyc.drop (p + word.length)

/-- The loop of B_compute_block, src/libdar/crc.cpp:110-117, for words of `k` bytes: runs while `k` bytes
remain in the buffer.  Returns the state and what is left of the buffer.  `fuel` bounds the number
of turns (the buffer length is enough). -/
def bLoop (k : Nat) : Nat → Bytes → CrcSt → Res (CrcSt × Bytes)
  | 0, buf, st => .ok (st, buf)
  | n + 1, buf, st =>
      if k ≤ buf.length then
        if st.ptr + k ≤ st.cyc.length then
          let cyc := xorWord st.cyc st.ptr (buf.take k)
          bLoop k n (buf.drop k) ⟨cyc, if st.ptr + k ≥ cyc.length then 0 else st.ptr + k⟩
        else .error .ub
      else .ok (st, buf)

/-- B_compute_block, src/libdar/crc.cpp:90-121 (`crc_ptr` starts at `begin`, l.95). -/
def bComputeBlock (k : Nat) (buf : Bytes) (cyc : Bytes) : Res (CrcSt × Bytes) :=
  if cyc.length = 0 then .error .bug
  else if cyc.length % k ≠ 0 then .error .bug
  else if cyc.length / k = 0 then .error .bug
  else bLoop k buf.length buf ⟨cyc, 0⟩

/-- First loop of n_compute, src/libdar/crc.cpp:144-149: up to the end of the ring. -/
def nHead : Bytes → CrcSt → Bytes × CrcSt
  | [], st => ([], st)
  | b :: l, st =>
      if st.ptr < st.cyc.length then
        nHead l ⟨st.cyc.set st.ptr (st.cyc.getD st.ptr 0 ^^^ b), st.ptr + 1⟩
      else (b :: l, st)

/-- `if(pointer == end) pointer = begin;`, src/libdar/crc.cpp:151-152. -/
def crcWrap (st : CrcSt) : CrcSt := if st.ptr = st.cyc.length then { st with ptr := 0 } else st

/-- n_compute, src/libdar/crc.cpp:136-177.  `addr` is the address of the buffer, on which the choice of
the word size depends. -/
def nCompute (addr : Nat) (buf : Bytes) (st : CrcSt) : Res CrcSt := do
  let (rest, st) :=
    if st.ptr ≠ 0 then
      let (rest, st) := nHead buf st
      (rest, crcWrap st)
    else (buf, st)
  let a := addr + (buf.length - rest.length)
  let size := st.cyc.length
  let (st, rest) ←
    if st.ptr = 0 ∧ rest ≠ [] then
      if size % 8 = 0 ∧ a % 8 = 0 then bComputeBlock 8 rest st.cyc
      else if size % 4 = 0 ∧ a % 4 = 0 then bComputeBlock 4 rest st.cyc
      else if size % 2 = 0 ∧ a % 2 = 0 then bComputeBlock 2 rest st.cyc
      else .ok (st, rest)
    else .ok (st, rest)
  if rest ≠ [] then tCompute rest st else .ok st

/-- The two implementations: crc_n (machine words, width below INFININT_MODE_START) and crc_i. -/
inductive CrcImpl where
  | n | i
  deriving DecidableEq, Repr

/-- A checksum object. -/
structure Crc where
  impl : CrcImpl
  st : CrcSt
  deriving DecidableEq, Repr

/-- crc_n::compute / crc_i::compute (sequential), src/libdar/crc.cpp:370-373, 234-237. -/
def Crc.compute (c : Crc) (addr : Nat) (buf : Bytes) : Res Crc := do
  let st ← match c.impl with
    | .n => nCompute addr buf c.st
    | .i => tCompute buf c.st
  .ok { c with st := st }

/-- crc_n::compute / crc_i::compute with an offset, src/libdar/crc.cpp:353-368, 221-232. -/
def Crc.computeAt (c : Crc) (offset addr : Nat) (buf : Bytes) : Res Crc :=
  if c.st.cyc.length = 0 then .error .infinint
  else Crc.compute { c with st := { c.st with ptr := offset % c.st.cyc.length } } addr buf

/-- INFININT_MODE_START, src/libdar/crc.cpp:47. -/
def INFININT_MODE_START : Nat := 10240

/-- Implementation selected for a width, src/libdar/crc.cpp:462-471, 484-494. -/
def crcImplFor (width : Nat) : CrcImpl := if width < INFININT_MODE_START then .n else .i

/-- create_crc_from_size, src/libdar/crc.cpp:480-500, with the constructors l.197-202, 294-310. -/
def crcCreate (width : Nat) : Res Crc :=
  if width = 0 then .error .range else .ok ⟨crcImplFor width, ⟨List.replicate width 0, 0⟩⟩

/-- crc::clear, src/libdar/crc.cpp:239-243, 375-379. -/
def Crc.clear (c : Crc) : Crc := { c with st := ⟨List.replicate c.st.cyc.length 0, 0⟩ }

/-- crc_n::dump / crc_i::dump, src/libdar/crc.cpp:381-386, 245-249: the width as an integer then the
bytes. -/
def Crc.dump (c : Crc) : Bytes := putInt c.st.cyc.length ++ c.st.cyc

/-- Reading the ring of a crc_n, src/libdar/crc.cpp:312-326: the number of bytes obtained is not checked,
missing bytes are left uninitialised (an `ub` in the model). -/
def crcNRead (width : Nat) : Reader Crc := fun s =>
  if width ≤ s.length then .ok (⟨.n, ⟨s.take width, 0⟩⟩, s.drop width) else .error .ub

/-- create_crc_from_file, src/libdar/crc.cpp:453-478; `old` is the two-byte checksum of old archives.
crc_i reads through storage(f, size), which checks for missing data. -/
def crcRead (old : Bool) : Reader Crc :=
  if old then crcNRead 2
  else do
    let taille ← getInt
    if taille < INFININT_MODE_START then crcNRead taille
    else do
      let l ← readExact taille
      pure ⟨.i, ⟨l, 0⟩⟩

/-- The loop of T_compare, src/libdar/crc.cpp:179-190. -/
def tCompare : Bytes → Bytes → Bool
  | [], [] => true
  | a :: as, b :: bs => if a = b then tCompare as bs else false
  | _, _ => false

/-- crc::operator ==, src/libdar/crc.cpp:209-219, 341-351: comparing objects of different
implementations is a SRC_BUG. -/
def Crc.eqv (a b : Crc) : Res Bool :=
  if a.impl ≠ b.impl then .error .bug
  else if a.st.cyc.length ≠ b.st.cyc.length then .ok false
  else .ok (tCompare a.st.cyc b.st.cyc)

end Dar
