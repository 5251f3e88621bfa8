import Verif.Model.Escape
import Verif.Model.Tronconneuse
import Verif.Model.BlockComp
import Verif.Model.Terminateur
import Verif.Model.Headers
/- Model of the stack of layers an archive is written and read through: macro_tools_create_layers (src/libdar/macro_tools.cpp:
1148-1693), macro_tools_close_layers (1695-1975), macro_tools_open_archive (383-920, direct access mode) and
macro_tools_get_derivated_catalogue_from (116-240), over the models of the layers themselves.

Simplifications.  The lowest layer (the slices: C13; the cache pushed over it when nothing is encrypted: C15) is an ordinary
file.  Only the block compressor is modelled: streamed compression is refused by `arcCodec`.  What the compressor hands to the
layer below is collected and handed down when it is synchronised, and what is given to a lower layer in several calls is given
in one: C10_write_canonical and C18_write tell it makes no difference.  When reading, the content of a lower layer is obtained
as a whole before the upper layer works on it: C18_read_inside, C10_roundtrip_exact and C20_items tell the answers do not depend
on how the reads are cut.  GnuPG signature of the catalogue and encryption of the key are not modelled. -/
namespace Dar

/- The archive carries the usual escape byte, ESCAPE_FIXED_SEQUENCE_NORMAL, src/libdar/macro_tools.cpp:1629-1645. -/
attribute [local instance] escNormal

/-! ### Counting the escaped patterns -/

/-- Number of times src/libdar/escape.cpp:822 is met in the loop of inherited_write (797-834). -/
def escLoopCount (a : Bytes) : Nat :=
  if h : a = [] then 0
  else
    let k := trouveAmorce a
    if k = a.length then 0
    else if k + 5 ≤ a.length then 1 + escLoopCount (a.drop (k + 5))
    else 0
termination_by a.length
decreasing_by
  have : a.length ≠ 0 := by simpa using h
  simp only [List.length_drop]; omega

/-- Number of times src/libdar/escape.cpp:745 is met (inherited_write, 708-786), and what remains of the caller's buffer. -/
def escPendCount (pend a : Bytes) : Nat :=
  let wb := pend ++ a.take (min (12 - pend.length) a.length)
  let k := trouveAmorce wb
  if k = wb.length then 0 else if k + 5 ≤ wb.length then 1 else 0

/-- How much `escaped_data_count_since_last_skip` grows in a call of escape::inherited_write, src/libdar/escape.cpp:695-843. -/
def escCount (pend a : Bytes) : Nat :=
  if a = [] then 0
  else if pend = [] then escLoopCount a
  else
    match escWritePending pend a with
    | .error _ => 0
    | .ok (_, _, rest) => escPendCount pend a + (if rest = [] then 0 else escLoopCount rest)

/-! ### Writing -/

/-- The layer under the escape layer: the ciphering layer, or the lowest layer (src/libdar/macro_tools.cpp:1440-1565).  The weak
scrambling of old is not modelled. -/
inductive Bot where
  | plain (f : Flat)
  | crypt (t : Tro)

/-- generic_file::write on this layer. -/
def Bot.write (b : Bot) (a : Bytes) : Res Bot :=
  match b with
  | .plain f => .ok (.plain (f.write a))
  | .crypt t => (t.write a).map .crypt

/-- generic_file::get_position on this layer (tronconneuse::get_position, src/libdar/tronconneuse.hpp:97). -/
def Bot.pos : Bot → Nat
  | .plain f => f.pos
  | .crypt t => t.pos

/-- An escape object in write mode: write_buffer, escaped_data_count_since_last_skip, below_position,
src/libdar/escape.hpp:183-193. -/
structure EscW where
  pend : Bytes
  cnt : Nat
  below : Nat

/-- The stack of layers in write mode. -/
structure Stk where
  bot : Bot
  esc : Option EscW
  comp : Option BComp

/-- Writing to the layer under the compressor: escape::inherited_write (src/libdar/escape.cpp:695-843) or the layer below. -/
def Stk.below (s : Stk) (a : Bytes) : Res Stk :=
  match s.esc with
  | none => (s.bot.write a).map fun b => { s with bot := b }
  | some e =>
    match escWrite e.pend a with
    | .error er => .error er
    | .ok (o, p) => (s.bot.write o).map fun b => { s with bot := b, esc := some ⟨p, e.cnt + escCount e.pend a, e.below + o.length⟩ }

/-- Position of the layer under the compressor: escape::get_position, src/libdar/escape.cpp:500-510. -/
def Stk.belowPos (s : Stk) : Nat :=
  match s.esc with
  | none => s.bot.pos
  | some e => e.below + e.pend.length - e.cnt

/-- Position of the stack (pile::get_position asks the layer on top): block_compressor::get_position or, without compression,
compressor::get_position (src/libdar/compressor.hpp), that is the one of the layer below. -/
def Stk.position (s : Stk) : Res Nat :=
  match s.comp with
  | none => .ok s.belowPos
  | some b => if b.clear = [] then .ok s.belowPos else .error .bug

/-- What the compressor handed down. -/
def Stk.drain (s : Stk) (b : BComp) : Res Stk :=
  (s.below b.file.data).map fun s' => { s' with comp := some { b with file := ⟨[], 0⟩ } }

/-- compr->sync_write(). -/
def Stk.sync (s : Stk) : Res Stk :=
  match s.comp with
  | none => .ok s
  | some b =>
    match b.syncWrite with
    | .error e => .error e
    | .ok b' => s.drain b'

/-- compr->suspend_compression(), compr->resume_compression(). -/
def Stk.switch (s : Stk) (stored : Bool) : Res Stk :=
  match s.comp with
  | none => .ok s
  | some b =>
    if stored then
      match b.suspend with
      | .error e => .error e
      | .ok b' => s.drain b'
    else .ok { s with comp := some b.resume }

/-- Writing to the stack. -/
def Stk.writes (s : Stk) (l : List Bytes) : Res Stk :=
  match s.comp with
  | none => s.below l.flatten
  | some b => (b.writes l).map fun b' => { s with comp := some b' }

/-- Adding a mark: escape::add_mark_at_current_position, src/libdar/escape.cpp:124-144, after sync_write_above(esc), as in
src/libdar/cat_entree.cpp:264-270 or filtre.cpp; nothing happens when there is no escape layer. -/
def Stk.mark (s : Stk) (t : SeqT) : Res Stk :=
  match s.sync with
  | .error e => .error e
  | .ok s =>
    match s.esc with
    | none => .ok s
    | some e =>
      if t = .notASequence then .error .range
      else (s.bot.write (e.pend ++ escSeq t)).map fun b =>
        { s with bot := b, esc := some ⟨[], 0, e.below + (e.pend ++ escSeq t).length⟩ }

/-- What the program writes while saving the files. -/
inductive ArcOp where
  /-- a mark -/
  | mark (t : SeqT)
  /-- data given to the escape layer directly (properties of an inode, checksums): cat_entree::specific_dump,
  src/libdar/cat_entree.cpp:264-290 -/
  | direct (b : Bytes)
  /-- data of a file, EA, FSA: written through the whole stack, its position being recorded in the catalogue; `stored` when it
  must not be compressed -/
  | item (stored : Bool) (chunks : List Bytes)

/-- Saving some data: src/libdar/filtre.cpp:3138-3145, 3355-3362, 3517: the compressor is synchronised, switched, the position is
recorded, the data is written, the compressor is synchronised again. -/
def Stk.item (s : Stk) (stored : Bool) (l : List Bytes) : Res (Stk × Nat) :=
  match s.sync with
  | .error e => .error e
  | .ok s => match s.switch stored with
    | .error e => .error e
    | .ok s => match s.position with
      | .error e => .error e
      | .ok p => match s.writes l with
        | .error e => .error e
        | .ok s => match s.sync with
          | .error e => .error e
          | .ok s => .ok (s, p)

/-- One operation; the position recorded, if any.  Marks and direct data exist only with the escape layer
(src/libdar/cat_entree.cpp:271-276). -/
def Stk.op (s : Stk) : ArcOp → Res (Stk × Option Nat)
  | .mark t => if s.esc.isSome then (s.mark t).map fun s => (s, none) else .ok (s, none)
  | .direct b =>
    if s.esc.isSome then
      match s.sync with
      | .error e => .error e
      | .ok s => (s.below b).map fun s => (s, none)
    else .ok (s, none)
  | .item stored l => (s.item stored l).map fun r => (r.1, some r.2)

/-- The whole backup: the positions recorded, one per operation. -/
def Stk.ops (s : Stk) : List ArcOp → Res (Stk × List (Option Nat))
  | [] => .ok (s, [])
  | o :: l => match s.op o with
    | .error e => .error e
    | .ok (s1, p) => match s1.ops l with
      | .error e => .error e
      | .ok (s2, ps) => .ok (s2, p :: ps)

/-- The random numbers drawn for a padding buffer: its size, where its mark is, its bytes. -/
structure Pad where
  rand : Nat
  r : Nat
  rnd : Nat → UInt8

/-- tronco_with_elastic::add_elastic_buffer, src/libdar/tronco_with_elastic.cpp:466-490 -/
def Pad.bytes (p : Pad) (modulo offset : Nat) : Res Bytes :=
  match elMake (elPadSize p.rand modulo offset) with
  | .error e => .error e
  | .ok n => elDump n n p.r p.rnd

/-- The compression layer the header asks for, src/libdar/macro_tools.cpp:1649-1666 -/
def arcCodec (codecs : Compr → Codec) (h : HdrBase) : Res (Option (Codec × Nat)) :=
  if h.algo = .none then .ok none
  else if h.comprBs = 0 then .error .unsupported
  else .ok (some (codecs h.algo, h.comprBs))

/-- The user's settings: the codecs, the cipher made from the password with the size of its blocks. -/
structure ArcEnv where
  codecs : Compr → Codec
  cipher : Cipher
  block : Nat

/-- The ciphering layer with its initial padding: src/libdar/macro_tools.cpp:1480-1560,
tronco_with_elastic::get_ready_for_writing, src/libdar/tronco_with_elastic.cpp:133-155 -/
def arcBot (env : ArcEnv) (h : HdrBase) (p : Pad) (f : Flat) : Res Bot :=
  if h.sym = .none then .ok (.plain f)
  else if h.sym = .scrambling then .error .unsupported
  else
    match troNew env.cipher env.block f.pos none f with
    | .error e => .error e
    | .ok t => match p.bytes 0 0 with
      | .error e => .error e
      | .ok b => (t.write b).map .crypt

/-- macro_tools_create_layers, src/libdar/macro_tools.cpp:1148-1693 (the header is written at 1606, its size kept at 1616): the stack and the position after the header -/
def arcCreate (env : ArcEnv) (h : Hdr) (p : Pad) : Res (Stk × Nat) :=
  match ({ h with base := { h.base with initialOffset := 0 } } : Hdr).write with
  | .error e => .error e
  | .ok hb =>
    match arcBot env h.base p (Flat.write ⟨[], 0⟩ hb) with
    | .error e => .error e
    | .ok bot =>
      let esc := if h.base.tapeMarks then some ⟨[], 0, bot.pos⟩ else none
      match arcCodec env.codecs h.base with
      | .error e => .error e
      | .ok none => .ok (⟨bot, esc, none⟩, hb.length)
      | .ok (some (c, B)) => (bcompNew c B false ⟨[], 0⟩).map fun b => (⟨bot, esc, some b⟩, hb.length)

/-- Closing the ciphering layer, src/libdar/macro_tools.cpp:1914-1936, tronco_with_elastic::write_end_of_file,
src/libdar/tronco_with_elastic.cpp:226-302: gives back the lowest layer -/
def Bot.close (b : Bot) (p : Pad) : Res Flat :=
  match b with
  | .plain f => .ok f
  | .crypt t =>
    match p.bytes t.B (t.pos % t.B) with
    | .error e => .error e
    | .ok pad => (t.write pad).map fun t => t.writeEof.file

/-- What the mark layer still holds: escape::flush_write, src/libdar/escape.cpp:961-971. -/
def Stk.held (s : Stk) : Bytes :=
  match s.esc with
  | none => []
  | some e => e.pend

/-- macro_tools_close_layers, src/libdar/macro_tools.cpp:1695-1975: `off` is the initial offset, `cat` the pieces in which the
catalogue is written (catalogue::dump, src/libdar/catalogue.cpp:1012-1027); gives the archive. -/
def Stk.close (s : Stk) (h : Hdr) (off : Nat) (cat : List Bytes) (p : Pad) : Res Bytes :=
  match (if s.esc.isSome then s.mark .catalogue else s.sync) with
  | .error e => .error e
  | .ok s => match s.item false cat with
    | .error e => .error e
    | .ok (s, start) =>
      match s.bot.write (s.held ++ termDump start) with
      | .error e => .error e
      | .ok bot => match bot.close p with
        | .error e => .error e
        | .ok f => match ({ h with base := { h.base with initialOffset := off } } : Hdr).write with
          | .error e => .error e
          | .ok hb => .ok ((f.write hb).skipEof.write (termDump f.pos)).data

/-- A whole backup: the archive and the recorded positions. -/
def arcWrite (env : ArcEnv) (h : Hdr) (p1 p2 : Pad) (ops : List ArcOp) (cat : List Bytes) : Res (Bytes × List (Option Nat)) :=
  match arcCreate env h p1 with
  | .error e => .error e
  | .ok (s, off) => match s.ops ops with
    | .error e => .error e
    | .ok (s, ps) => (s.close h off cat p2).map fun a => (a, ps)

/-! ### Reading -/

/-- An archive opened for reading: its header, what is under the escape layer, the start of the catalogue, and where what follows
the catalogue (the first terminator and the padding) starts. -/
structure ArcRd where
  hdr : Hdr
  content : Bytes
  catStart : Nat
  termStart : Nat

/-- The content under the escape layer: the window of the lowest layer before the trailer (tronc), deciphered if needed;
src/libdar/macro_tools.cpp:650-830 -/
def arcContent (env : ArcEnv) (h : HdrBase) (window : Bytes) : Res Bytes :=
  if h.sym = .none then .ok window
  else if h.sym = .scrambling then .error .unsupported
  else if h.initialOffset = 0 then .error .bug
  else
    match troNew env.cipher env.block h.initialOffset none ⟨window, 0⟩ with
    | .error e => .error e
    | .ok t => match t.skipEof with
      | .error e => .error e
      | .ok t1 => match t1.skip 0 with
        | .error e => .error e
        | .ok (t2, _) => (t2.read t1.pos).map fun r => r.2

/-- macro_tools_open_archive in direct access mode, src/libdar/macro_tools.cpp:383-920 (the second terminator and the
trailing header are read at 608-646), and the location of the catalogue by macro_tools_get_derivated_catalogue_from, 116-240 -/
def arcOpen (env : ArcEnv) (goOn : Nat → Bool) (file : Bytes) : Res ArcRd :=
  match termRead ⟨file, 0⟩ false false 0 with
  | .error e => .error e
  | .ok (second, _) =>
    if second = 0 then .error .range
    else match hdrRead goOn file.length HdrBase.empty (file.drop second) with
      | .error e => .error e
      | .ok (h, _) => match arcContent env h.base (file.take second) with
        | .error e => .error e
        | .ok content => match termRead ⟨content, 0⟩ (decide (h.base.sym ≠ .none)) false 0 with
          | .error e => .error e
          | .ok (start, q) => .ok ⟨h, content, start, q⟩

/-- Successive reads through the escape layer. -/
def escReads : EscRd → List Nat → Res (List Bytes)
  | _, [] => .ok []
  | st, n :: l => match escRead st n with
    | .error e => .error e
    | .ok (b, st1) => match escReads st1 l with
      | .error e => .error e
      | .ok as => .ok (b :: as)

/-- Going to a recorded position and reading there: escape::skip (src/libdar/escape.cpp:312-360) goes to this offset of the layer
below; `stored` as the catalogue tells. -/
def ArcRd.readAt (env : ArcEnv) (a : ArcRd) (p : Nat) (stored : Bool) (ns : List Nat) : Res (List Bytes) :=
  match arcCodec env.codecs a.hdr.base with
  | .error e => .error e
  | .ok z =>
    match stored, z with
    | false, some (c, B) =>
      match (if a.hdr.base.tapeMarks then (escRead (escOpen (a.content.drop p)) a.content.length).map (·.1) else .ok (a.content.drop p)) with
      | .error e => .error e
      | .ok seg => match bcompNew c B true ⟨seg, 0⟩ with
        | .error e => .error e
        | .ok b => (b.reads ns).map (·.2)
    | _, _ =>
      if a.hdr.base.tapeMarks then escReads (escOpen (a.content.drop p)) ns
      else .ok (plainReads (a.content.drop p) 0 ns)

end Dar
