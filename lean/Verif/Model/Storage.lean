import Verif.Model.Flat
/- Model of src/libdar/storage.cpp: bytes held in a list of blocks (cellules). An allocation may fail: the outcome of the
allocation of n bytes is a parameter `ok n`. -/
namespace Dar

/-- the blocks of a storage, in the order of the links `next` -/
abbrev Cells := List Bytes

/-- storage::iterator, src/libdar/storage.hpp:149-153: `cur i off` is on byte `off` of block `i`; `stop` is OFF_END -/
inductive StIter where
  | cur (i off : Nat) | stop
  deriving DecidableEq, Repr

def StIter.next : StIter → StIter
  | .cur i off => .cur (i + 1) off
  | .stop => .stop

/-- storage::begin, src/libdar/storage.hpp:160-161 -/
def stBegin (c : Cells) : StIter := match c with | [] => .stop | _ => .cur 0 0

/-- storage::size, src/libdar/storage.cpp:110-122 -/
def stSize : Cells → Nat
  | [] => 0
  | c :: cs => c.length + stSize cs

/-- storage::operator[], src/libdar/storage.cpp:86-106: once the (at most 2^32-1 first units of the) position are in
`offset`, blocks are left while the offset is over their size; the byte read may be the one after the block -/
def stIndex (offset : Nat) : Cells → Res UInt8
  | [] => .error .ub
  | c :: cs => if offset > c.length then stIndex (offset - c.length) cs else match c[offset]? with | some b => .ok b | none => .error .ub
/-- the first turn of that loop: an empty storage is refused -/
def stAt (c : Cells) (pos : Nat) : Res UInt8 := if c = [] then .error .range else stIndex (min pos (2 ^ 32 - 1)) c

/-- writing through operator[] -/
def stSetIndex (offset : Nat) (v : UInt8) : Cells → Res Cells
  | [] => .error .ub
  | c :: cs =>
    if offset > c.length then do let cs ← stSetIndex (offset - c.length) v cs; .ok (c :: cs)
    else if offset < c.length then .ok (c.set offset v :: cs) else .error .ub
def stSet (c : Cells) (pos : Nat) (v : UInt8) : Res Cells := if c = [] then .error .range else stSetIndex (min pos (2 ^ 32 - 1)) v c

/-- storage::read(iterator), src/libdar/storage.cpp:182-214, from block 0 of `cs` -/
def stReadFrom : Cells → Nat → Nat → Bytes × StIter
  | [], _, _ => ([], .stop)
  | c :: cs, off, n =>
    if n ≤ c.length - off then ((c.drop off).take n, .cur 0 (off + n))
    else
      let r := stReadFrom cs 0 (n - (c.length - off))
      (c.drop off ++ r.1, r.2.next)

/-- storage::write(iterator), src/libdar/storage.cpp:148-180: the new blocks, the iterator, the amount written -/
def stWriteFrom : Cells → Nat → Bytes → Cells × StIter × Nat
  | [], _, _ => ([], .stop, 0)
  | c :: cs, off, b =>
    if b.length ≤ c.length - off then ((c.take off ++ b ++ c.drop (off + b.length)) :: cs, .cur 0 (off + b.length), b.length)
    else
      let r := stWriteFrom cs 0 (b.drop (c.length - off))
      ((c.take off ++ b.take (c.length - off)) :: r.1, r.2.1.next, (c.length - off) + r.2.2)

/-- the same from block `i` -/
def stRead (c : Cells) (it : StIter) (n : Nat) : Bytes × StIter :=
  match it with
  | .stop => ([], .stop)
  | .cur i off => ((stReadFrom (c.drop i) off n).1, match (stReadFrom (c.drop i) off n).2 with | .cur j o => .cur (i + j) o | .stop => .stop)
def stWrite (c : Cells) (it : StIter) (b : Bytes) : Cells × StIter × Nat :=
  match it with
  | .stop => (c, .stop, 0)
  | .cur i off => (c.take i ++ (stWriteFrom (c.drop i) off b).1, (match (stWriteFrom (c.drop i) off b).2.1 with | .cur j o => .cur (i + j) o | .stop => .stop),
      (stWriteFrom (c.drop i) off b).2.2)

/-- storage::iterator::relative_skip_to forward, src/libdar/storage.cpp:786-804, from block 0 -/
def stSkipFrom : Cells → Nat → Nat → StIter
  | [], _, _ => .stop
  | c :: cs, off, val =>
    if val = 0 then .cur 0 off
    else if off + val ≥ c.length then (stSkipFrom cs 0 (val - (c.length - off))).next
    else .cur 0 (off + val)
/-- storage::iterator::skip_to, src/libdar/storage.cpp:767-781; the moves by chunks of at most 2^16-1 bytes are one move -/
def stSkipTo (c : Cells) (pos : Nat) : StIter := stSkipFrom c 0 pos

/-- storage::reduce, src/libdar/storage.cpp:505-560: merging block `cur` with the following ones -/
def stReduceFrom (ok : Nat → Bool) (failed : Nat) (cur : Bytes) : Cells → Cells
  | [] => [cur]
  | n :: rest =>
    if n.length + cur.length < failed then
      if ok (n.length + cur.length) then stReduceFrom ok failed (cur ++ n) rest
      else cur :: stReduceFrom ok (n.length + cur.length) n rest
    else cur :: stReduceFrom ok failed n rest
def stReduce (ok : Nat → Bool) : Cells → Cells
  | [] => []
  | c :: cs => stReduceFrom ok (2 ^ 32 - 1) c cs

/-- search of an allocation in storage::make_alloc, src/libdar/storage.cpp:693-715: the size of the block obtained -/
def stPick (ok : Nat → Bool) (dsize : Nat) : Nat → Res Nat
  | 0 => .error .diverge
  | fuel + 1 =>
    if ok dsize then .ok dsize
    else if dsize > 2 then (if dsize / 2 > 1 then stPick ok (dsize / 2) fuel else .error .ub)
    else .error .memory

/-- subtraction of 32 bits integers -/
def sub32 (a b : Nat) : Nat := (a + 2 ^ 32 - b) % 2 ^ 32

/-- storage::make_alloc, src/libdar/storage.cpp:661-723: the sizes of the blocks; `size` is a 32 bits integer -/
def stAllocLoop (ok : Nat → Bool) (size dsize : Nat) : Nat → Res (List Nat)
  | 0 => .error .diverge
  | fuel + 1 => match stPick ok dsize (dsize + 1) with
    | .error e => .error e
    | .ok d => if 0 < sub32 size d then (stAllocLoop ok (sub32 size d) d fuel).map (fun l => d :: l) else .ok [d]
def stAlloc (ok : Nat → Bool) (size : Nat) (fuel : Nat) : Res (List Nat) := if size > 0 then stAllocLoop ok size size fuel else .ok []

/-- a storage made of new blocks -/
def stNew (sizes : List Nat) : Cells := sizes.map (fun n => List.replicate n 0)

/-- storage::insert_bytes_at_iterator_cmn, src/libdar/storage.cpp:562-640; `sizes` are the blocks obtained by the allocation of
`temp`. Inserting a constant is inserting the list of its repetitions. -/
def stInsert (ok : Nat → Bool) (sizes : List Nat) (c : Cells) (it : StIter) (b : Bytes) : Cells :=
  if b = [] then c
  else match it with
  | .cur i off =>
    let cell := (c.drop i).headD []
    let t0 := stNew sizes
    let (t1, g1, _) := stWrite t0 (stBegin t0) (cell.take off)
    let (t2, g2, _) := stWrite t1 g1 b
    let (t3, _, _) := stWrite t2 g2 (cell.drop off)
    stReduce ok (c.take i ++ t3 ++ c.drop (i + 1))
  | .stop =>
    let t0 := stNew sizes
    let (t1, _, _) := stWrite t0 (stBegin t0) b
    stReduce ok (c ++ t1)

/-- storage::remove_bytes_at_iterator, src/libdar/storage.cpp:241-310, from block 0, without the final reduce -/
def stRemoveFrom : Cells → Nat → Nat → Cells
  | [], _, _ => []
  | c :: cs, off, n =>
    if n = 0 then c :: cs
    else if c.length - off < n then
      if off > 0 then c.take off :: stRemoveFrom cs 0 (n - (c.length - off))
      else stRemoveFrom cs 0 (n - c.length)
    else (c.take off ++ c.drop (off + n)) :: cs
def stRemove (ok : Nat → Bool) (c : Cells) (it : StIter) (n : Nat) : Cells :=
  match it with
  | .cur i off => stReduce ok (c.take i ++ stRemoveFrom (c.drop i) off n)
  | .stop => stReduce ok c

/-- storage::truncate, src/libdar/storage.cpp:327-337 (amounts below 2^32) -/
def stTruncate (ok : Nat → Bool) (c : Cells) (pos : Nat) : Cells :=
  if pos < stSize c then stRemove ok c (stSkipTo c pos) (stSize c - pos) else c

end Dar
