import Verif.Spec.Codec
import Verif.Model.Infinint
/- Model of src/libdar/block_compressor.cpp over an ordinary file, with src/libdar/compress_block_header.cpp and
src/libdar/mem_block.cpp.  Thread cancellation is left to C43. -/
namespace Dar

/-- class block_compressor, src/libdar/block_compressor.hpp:85-95, with the block `current->clear_data` (its data and its
reading cursor). -/
structure BComp where
  codec : Codec
  B : Nat
  ro : Bool
  suspended : Bool
  needEof : Bool
  clear : Bytes
  cursor : Nat
  reof : Bool
  file : Flat

/-- block_compressor::block_compressor, src/libdar/block_compressor.cpp:38-66: blocks of less than 100 bytes are an internal
error -/
def bcompNew (c : Codec) (B : Nat) (ro : Bool) (file : Flat) : Res BComp :=
  if B < 100 then .error .bug else .ok ⟨c, B, ro, false, false, [], 0, false, file⟩

/-- compress_block_header::dump, src/libdar/compress_block_header.cpp:36-40 (H_DATA = 1, H_EOF = 2) -/
def cbhDump (type : UInt8) (size : Nat) : Bytes := type :: putInt size

/-- compress_block_header::set_from, src/libdar/compress_block_header.cpp:42-54 -/
def cbhRead : Bytes → Res (Option (UInt8 × Nat) × Bytes)
  | [] => .ok (none, [])
  | t :: s => match getInt s with
    | .error e => .error e
    | .ok (n, rest) => .ok (some (t, n), rest)

/-- block_compressor::compress_and_write_current, src/libdar/block_compressor.cpp:258-299 -/
def BComp.flushBlock (b : BComp) : Res BComp :=
  if b.clear.length > 0 then
    let z := b.codec.zip b.clear
    if z.length > 0 then
      .ok { b with file := (b.file.write (cbhDump 1 z.length)).write z, clear := [], cursor := 0 }
    else .error .bug
  else .ok b

/-- the loop of block_compressor::inherited_write, src/libdar/block_compressor.cpp:195-200 -/
def BComp.writeLoop : Nat → BComp → Bytes → Res BComp
  | 0, _, _ => .error .diverge
  | fuel + 1, b, a =>
    if a = [] then .ok b
    else
      let b1 := { b with clear := b.clear ++ a.take (b.B - b.clear.length) }
      if b1.clear.length = b1.B then
        match b1.flushBlock with
        | .error e => .error e
        | .ok b2 => BComp.writeLoop fuel b2 (a.drop (b.B - b.clear.length))
      else BComp.writeLoop fuel b1 (a.drop (b.B - b.clear.length))

/-- block_compressor::inherited_write, src/libdar/block_compressor.cpp:181-204 -/
def BComp.write (b : BComp) (a : Bytes) : Res BComp :=
  if b.suspended then .ok { b with file := b.file.write a }
  else match b.writeLoop (a.length + 1) a with
    | .error e => .error e
    | .ok b' => .ok { b' with needEof := if a.length > 0 then true else b'.needEof }

/-- block_compressor::inherited_sync_write, src/libdar/block_compressor.cpp:214-233 -/
def BComp.syncWrite (b : BComp) : Res BComp :=
  if b.ro then .ok b
  else match b.flushBlock with
    | .error e => .error e
    | .ok b' => if b'.needEof then .ok { b' with file := b'.file.write (cbhDump 2 0), needEof := false } else .ok b'

/-- block_compressor::inherited_flush_read, src/libdar/block_compressor.hpp:78 -/
def BComp.flushRead (b : BComp) : BComp :=
  if b.ro then { b with clear := [], cursor := 0, reof := false } else { b with reof := false }

/-- block_compressor::suspend_compression, src/libdar/block_compressor.cpp:81-89 -/
def BComp.suspend (b : BComp) : Res BComp :=
  if b.suspended then .ok b
  else match b.syncWrite with
    | .error e => .error e
    | .ok b' => .ok { b'.flushRead with suspended := true }
/-- block_compressor::resume_compression, src/libdar/block_compressor.cpp:91-94 -/
def BComp.resume (b : BComp) : BComp := { b with suspended := false }

/-- block_compressor::skip, src/libdar/block_compressor.cpp:104-113 -/
def BComp.skip (b : BComp) (p : Nat) : BComp :=
  { b with clear := [], cursor := 0, reof := false, needEof := false, file := b.file.skip p }

/-- block_compressor::get_position, src/libdar/block_compressor.cpp:143-161 -/
def BComp.position (b : BComp) : Res Nat :=
  if b.ro then (if b.cursor = b.clear.length then .ok b.file.pos else .error .bug)
  else (if b.clear = [] then .ok b.file.pos else .error .bug)

/-- block_compressor::read_and_uncompress_current, src/libdar/block_compressor.cpp:301-350.  The file position follows what has
been read. -/
def BComp.load (b : BComp) : Res BComp :=
  match cbhRead (b.file.data.drop b.file.pos) with
  | .error e => .error e
  | .ok (none, _) => .ok { b with clear := [], cursor := 0, reof := true }
  | .ok (some (t, n), rest) =>
    let file := b.file.skip (b.file.data.length - rest.length)
    if t = 1 then
      if n ≥ 2 ^ 64 then .error .range
      else if n > b.codec.room b.B then .error .range
      else if n > 0 then
        match b.codec.unzip (file.read n).2 with
        | .error e => .error e
        | .ok x => .ok { b with clear := x, cursor := 0, file := (file.read n).1 }
      else .error .range
    else if t = 2 then
      if n ≠ 0 then .error .range else .ok { b with clear := [], cursor := 0, reof := true, file := file }
    else .error .range

/-- the loop of block_compressor::inherited_read, src/libdar/block_compressor.cpp:167-175; `fuel` bounds the number of turns -/
def BComp.readLoop : Nat → BComp → Nat → Res (BComp × Bytes)
  | 0, _, _ => .error .diverge
  | fuel + 1, b, n =>
    if n = 0 ∨ b.reof = true then .ok (b, [])
    else
      match (if b.cursor = b.clear.length then b.load else .ok b) with
      | .error e => .error e
      | .ok b1 =>
        match BComp.readLoop fuel { b1 with cursor := b1.cursor + ((b1.clear.drop b1.cursor).take n).length } (n - ((b1.clear.drop b1.cursor).take n).length) with
        | .error e => .error e
        | .ok (b2, a) => .ok (b2, (b1.clear.drop b1.cursor).take n ++ a)

/-- block_compressor::inherited_read, src/libdar/block_compressor.cpp:164-179.  Each turn gives a byte or reads at least a block
header, hence the number of turns. -/
def BComp.read (b : BComp) (n : Nat) : Res (BComp × Bytes) :=
  if b.suspended then
    if b.reof then .ok (b, []) else .ok ({ b with file := (b.file.read n).1 }, (b.file.read n).2)
  else b.readLoop (n + b.file.data.length + 2) n

/-- Successive writes. -/
def BComp.writes (b : BComp) : List Bytes → Res BComp
  | [] => .ok b
  | a :: l => match b.write a with
    | .error e => .error e
    | .ok b1 => b1.writes l

/-- Successive reads. -/
def BComp.reads (b : BComp) : List Nat → Res (BComp × List Bytes)
  | [] => .ok (b, [])
  | n :: l => match b.read n with
    | .error e => .error e
    | .ok (b1, a) => match b1.reads l with
      | .error e => .error e
      | .ok (b2, as) => .ok (b2, a :: as)

/-- One stored item: its data written piece by piece, then sync_write as the callers do at the end of each item
(src/libdar/archive_aux / cat_file.cpp); the start position is the one reported before. -/
def BComp.item (b : BComp) (l : List Bytes) : Res (BComp × Nat) :=
  match b.position with
  | .error e => .error e
  | .ok p => match b.writes l with
    | .error e => .error e
    | .ok b1 => match b1.syncWrite with
      | .error e => .error e
      | .ok b2 => .ok (b2, p)

/-- Several items: their start positions. -/
def BComp.items (b : BComp) : List (List Bytes) → Res (BComp × List Nat)
  | [] => .ok (b, [])
  | l :: ls => match b.item l with
    | .error e => .error e
    | .ok (b1, p) => match b1.items ls with
      | .error e => .error e
      | .ok (b2, ps) => .ok (b2, p :: ps)

end Dar
