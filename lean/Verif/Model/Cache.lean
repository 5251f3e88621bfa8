import Verif.Model.Flat
/- Model of src/libdar/cache.cpp over an ordinary file. -/
namespace Dar

/-- gf_mode -/
inductive GfMode where | ro | wo | rw
  deriving DecidableEq, Repr

/-- class cache, src/libdar/cache.hpp:90-100; `buf` are the `last` valid bytes of `buffer`; `ftw` is first_to_write. -/
structure Cache where
  mode : GfMode
  size : Nat
  shifted : Bool
  buf : Bytes
  next : Nat
  ftw : Nat
  off : Nat
  eof : Nat
  ref : Flat
  deriving DecidableEq, Repr

/-- cache::cache, src/libdar/cache.cpp:50-72 -/
def cacheNew (mode : GfMode) (size : Nat) (shifted : Bool) (ref : Flat) : Res Cache :=
  if size < 10 then .error .range else .ok ⟨mode, size, shifted, [], 0, size, ref.pos, 0, ref⟩

/-- `last` -/
def Cache.last (c : Cache) : Nat := c.buf.length
/-- cache::get_position, src/libdar/cache.hpp:72 -/
def Cache.pos (c : Cache) : Nat := c.off + c.next
/-- cache::need_flush_write, src/libdar/cache.hpp:102 -/
def Cache.pending (c : Cache) : Bool := decide (c.ftw < c.last)

/-- cache::shift_by_half, src/libdar/cache.cpp:643-664 -/
def Cache.shiftByHalf (c : Cache) : Res Cache :=
  if c.last ≤ c.size / 2 then .ok c
  else
    let shift := if c.next < c.last - c.size / 2 then c.next else c.last - c.size / 2
    if c.ftw < shift then .error .bug
    else .ok { c with buf := c.buf.drop shift, ftw := if c.ftw < c.size then c.ftw - shift else c.ftw, next := c.next - shift, off := c.off + shift }

/-- cache::clear_buffer, src/libdar/cache.cpp:666-672 -/
def Cache.clearBuffer (c : Cache) : Res Cache :=
  if c.pending then .error .bug else .ok { c with off := c.off + c.next, next := 0, buf := [] }

/-- the writing part of cache::flush_write, src/libdar/cache.cpp:681-688 -/
def Cache.flushPart (c : Cache) : Cache :=
  let c1 := if c.pending then { c with ref := (c.ref.skip (c.off + c.ftw)).write (c.buf.drop c.ftw) } else c
  { c1 with ftw := c.size, next := c.last }
/-- cache::flush_write, src/libdar/cache.cpp:674-694 -/
def Cache.flushWrite (c : Cache) : Res Cache :=
  if c.mode = .ro then .ok c
  else if c.shifted then c.flushPart.shiftByHalf else c.flushPart.clearBuffer

/-- `if(need_flush_write()) flush_write()` -/
def Cache.flushIfNeeded (c : Cache) : Res Cache := if c.pending then c.flushWrite else .ok c

/-- first part of cache::fulfill_read, src/libdar/cache.cpp:705-711 -/
def Cache.makeRoom (c : Cache) : Res Cache := if c.shifted then c.shiftByHalf else c.clearBuffer

/-- second part of cache::fulfill_read, src/libdar/cache.cpp:718-764: positions before reading; `skipping` tells that the
cache was empty -/
def Cache.seekFill (c : Cache) (skipping : Bool) : Cache :=
  if c.eof ≠ 0 ∧ c.off + c.last + c.size > c.eof ∧ c.next = c.last ∧ skipping then
    if c.eof > c.size then { c with next := c.off + c.size - c.eof, off := c.eof - c.size, ref := c.ref.skip (c.eof - c.size) }
    else { c with next := c.off, off := 0, ref := c.ref.skip 0 }
  else { c with ref := c.ref.skip (c.off + c.last) }

/-- end of cache::fulfill_read, src/libdar/cache.cpp:765-766 -/
def Cache.fill (c : Cache) : Cache :=
  let (r, b) := c.ref.read (c.size - c.last)
  { c with ref := r, buf := c.buf ++ b }

/-- cache::fulfill_read, src/libdar/cache.cpp:696-767 -/
def Cache.fulfillRead (c : Cache) : Res Cache :=
  if c.mode = .wo then .ok c
  else do
    let c1 ← c.makeRoom
    .ok ((c1.seekFill (decide (c.last = 0))).fill)

/-- one turn of the loop of cache::inherited_read when the cache is exhausted, src/libdar/cache.cpp:372-423; the
exception handlers are not modelled, an ordinary file raises none: the new state, the bytes obtained so far, eof -/
def Cache.refill (c : Cache) (want : Nat) (got : Bytes) : Res (Cache × Bytes × Bool) := do
  let c ← c.flushIfNeeded
  if want - got.length < c.size then do
    let c ← (if c.eof = 0 ∨ c.off + c.last < c.eof then c.fulfillRead else .ok c)
    .ok (c, got, decide (c.next ≥ c.last))
  else do
    let (r, b) := c.ref.read (want - got.length)
    let got := got ++ b
    let c ← Cache.clearBuffer { c with ref := r }
    .ok ({ c with off := r.pos }, got, decide (got.length < want))

/-- loop of cache::inherited_read, src/libdar/cache.cpp:368-445, `fuel` turns at most -/
def Cache.readLoop (c : Cache) (want : Nat) (got : Bytes) : Nat → Res (Cache × Bytes)
  | 0 => .error .diverge
  | fuel + 1 => do
    let (c, got, eof) ← (if c.next ≥ c.last then c.refill want got else .ok (c, got, false))
    if ¬ eof ∧ got.length < want then
      let m := min (want - got.length) (c.last - c.next)
      if m > 0 then Cache.readLoop { c with next := c.next + m } want (got ++ (c.buf.drop c.next).take m) fuel
      else .error .bug
    else .ok (c, got)

/-- generic_file::read, src/libdar/generic_file.cpp:144-154, and cache::inherited_read -/
def Cache.read (c : Cache) (n : Nat) : Res (Cache × Bytes) :=
  if c.mode = .wo then .error .range else c.readLoop n [] (n + 1)

/-- direct writing to the layer below, src/libdar/cache.cpp:479-504 -/
def Cache.writeDirect (c : Cache) (b : Bytes) : Cache :=
  { c with off := c.off + c.next + b.length, next := 0, buf := [], ref := (c.ref.skip (c.off + c.next)).write b }

/-- filling the cache, src/libdar/cache.cpp:505-515 -/
def Cache.writeFill (c : Cache) (b : Bytes) : Cache :=
  { c with
    ftw := if c.ftw ≥ c.last then c.next else c.ftw
    buf := c.buf.take c.next ++ b ++ c.buf.drop (c.next + b.length)
    next := c.next + b.length }

/-- loop of cache::inherited_write, src/libdar/cache.cpp:449-516 -/
def Cache.writeLoop (c : Cache) (b : Bytes) : Nat → Res Cache
  | 0 => .error .diverge
  | fuel + 1 =>
    if b = [] then .ok c
    else do
      let c ← (if c.size - c.next = 0 then c.flushIfNeeded else .ok c)
      if c.size - c.next < b.length ∧ ¬ c.pending then .ok (c.writeDirect b)
      else
        let m := min b.length (c.size - c.next)
        Cache.writeLoop (c.writeFill (b.take m)) (b.drop m) fuel

/-- generic_file::write, src/libdar/generic_file.cpp:156-164, and cache::inherited_write, src/libdar/cache.cpp:447-519 -/
def Cache.write (c : Cache) (b : Bytes) : Res Cache :=
  if c.mode = .ro then .error .range
  else do
    let c ← c.writeLoop b (b.length + 1)
    .ok { c with eof := if b.length > 0 then 0 else c.eof }

/-- cache::skip, src/libdar/cache.cpp:180-225; an ordinary file can always be moved backward -/
def Cache.skip (c : Cache) (p : Nat) : Res (Cache × Bool) :=
  if p ≥ c.off ∧ p ≤ c.off + c.last then
    .ok ({ c with ftw := if c.ftw > p - c.off ∧ c.ftw ≠ c.size then p - c.off else c.ftw, next := p - c.off }, true)
  else do
    let c ← c.flushIfNeeded
    .ok ({ c with next := 0, buf := [], ref := c.ref.skip p, off := p }, true)

/-- end of cache::skip_to_eof, src/libdar/cache.cpp:250-262 -/
def Cache.eofEnd (c : Cache) : Res Cache :=
  if c.off + c.last < c.eof then do
    let c' ← c.clearBuffer
    .ok { c' with off := c.eof }
  else if c.off + c.last > c.eof then .error .bug
  else .ok { c with next := c.last }
/-- cache::skip_to_eof, src/libdar/cache.cpp:227-265 -/
def Cache.skipEof (c : Cache) : Res (Cache × Bool) := do
  let c ← c.flushIfNeeded
  let c ← (if c.eof = 0 then .ok { c with ref := c.ref.skipEof, eof := c.ref.data.length } else do
    let (c, _) ← c.skip c.eof
    .ok c)
  let c ← c.eofEnd
  .ok (c, true)

/-- cache::skip_relative, src/libdar/cache.cpp:267-304 -/
def Cache.skipRel (c : Cache) (x : Int) : Res (Cache × Bool) :=
  let avail := if x ≥ 0 then c.last - c.next else c.next
  if x.natAbs ≤ avail then .ok ({ c with next := if x ≥ 0 then c.next + x.natAbs else c.next - x.natAbs }, true)
  else do
    let c ← c.flushIfNeeded
    if x ≥ 0 then c.skip (c.off + x.natAbs)
    else if c.off < x.natAbs then .ok (c, false) else c.skip (c.off - x.natAbs)

/-- cache::inherited_sync_write, src/libdar/cache.hpp:79 (generic_file::sync_write refuses read-only files) -/
def Cache.syncWrite (c : Cache) : Res Cache := if c.mode = .ro then .error .range else c.flushWrite
/-- cache::inherited_flush_read, src/libdar/cache.hpp:80 -/
def Cache.flushRead (c : Cache) : Res Cache :=
  if c.mode = .wo then .error .range else do
    let c ← c.flushWrite
    c.clearBuffer

end Dar
