import Verif.Model.Mask
/-! The listing files given to -[ and -]: how the text is cut into lines.  src/libdar/eols.hpp, src/libdar/eols.cpp and
the reading part of the constructor of mask_list, src/libdar/mask_list.cpp:59-301. -/
namespace Dar.Lf
open Dar

/-- src/libdar/eols.hpp:75-97 class in_progress: one end of line sequence and how far it has been met.  `prog` stands for
`next_to_match - ref.begin()`. -/
structure Cur where
  seq : Bytes
  prog : Nat
  bypass : Bool
  passed : Nat
  larger : Bool
deriving Repr, DecidableEq

/-- src/libdar/eols.hpp:79,82 the constructor and reset. -/
def Cur.fresh (r : Bytes) : Cur := { seq := r, prog := 0, bypass := false, passed := 0, larger := false }

/-- src/libdar/eols.hpp:87 has_matched. -/
def Cur.matched (c : Cur) : Bool := c.prog == c.seq.length

/-- src/libdar/eols.cpp:138-152 set_bypass: the object, and the value returned is its `bypass`. -/
def Cur.setBypass (c : Cur) (prog : Nat) : Cur :=
  if c.bypass then c
  else if c.matched ∨ c.prog < prog then { c with bypass := true, passed := 0 } else c

/-- src/libdar/eols.cpp:103-131 match: the object and whether the sequence is now complete.  Comparing past the end of the
sequence is the internal error of line 112. -/
def Cur.feed (c : Cur) (b : UInt8) : Res (Cur × Bool) :=
  if c.bypass then .ok ((if c.matched then { c with passed := c.passed + 1 } else c), false)
  else if c.matched then .error .bug
  else if c.seq.getD c.prog 0 = b then .ok ({ c with prog := c.prog + 1 }, decide (c.prog + 1 = c.seq.length))
  else .ok ((if c.larger then c.setBypass (c.prog + 1) else Cur.fresh c.seq), false)

/-- src/libdar/eols.hpp:99-100 the fields of eols. -/
structure Cutter where
  curs : List Cur
  refp : Nat
deriving Repr, DecidableEq

/-- src/libdar/eols.cpp:37-57 the constructor and add_sequence: an empty sequence is refused. -/
def Cutter.make (seqs : List Bytes) : Res Cutter :=
  if [] ∈ seqs then .error .range else .ok { curs := seqs.map Cur.fresh, refp := 0 }

/-- src/libdar/eols.cpp:59-69 reset_detection. -/
def Cutter.reset (e : Cutter) : Cutter := { curs := e.curs.map (fun c => Cur.fresh c.seq), refp := 0 }

/-- src/libdar/eols.cpp:78-88 the loop feeding the byte to every sequence: the objects, ref_progression, new_match. -/
def feedAll (b : UInt8) : List Cur → Nat → Res (List Cur × Nat × Bool)
  | [], refp => .ok ([], refp, false)
  | c :: cs, refp => do
    let r ← c.feed b
    let t ← feedAll b cs (if r.2 ∧ refp < r.1.prog then r.1.prog else refp)
    .ok (r.1 :: t.1, t.2.1, r.2 || t.2.2)

/-- src/libdar/eols.cpp:154-170 bypass_or_larger: the objects, and whether all of them are now bypassed. -/
def bypassOrLarger (prog : Nat) (cs : List Cur) : List Cur × Bool :=
  (cs.map (fun c => if (c.setBypass prog).bypass then c.setBypass prog else { c.setBypass prog with larger := true }),
   cs.all (fun c => (c.setBypass prog).bypass))

/-- src/libdar/eols.cpp:182-203 find_larger_match: length of the sequence and number of bytes read after it. -/
def findLarger (cs : List Cur) (refp : Nat) : Res (Option (Nat × Nat)) :=
  match cs.find? (fun c => c.matched && !decide (c.prog < refp)) with
  | none => .ok none
  | some c => if c.prog > refp then .error .bug else .ok (some (c.seq.length, c.passed))

/-- src/libdar/eols.cpp:71-101 eol_reached: the object afterwards; `some (eol_sequence_length, after_eol_read_bytes)`
stands for the value true. -/
def Cutter.eolReached (e : Cutter) (b : UInt8) : Res (Cutter × Option (Nat × Nat)) := do
  let r ← feedAll b e.curs e.refp
  let allDone := !r.2.2 && r.1.all (fun c => c.bypass || c.matched)
  if allDone || r.2.2 then
    let p := if allDone then (r.1, true) else bypassOrLarger r.2.1 r.1
    if p.2 then do
      match ← findLarger p.1 r.2.1 with
      | some x => .ok (({ curs := p.1, refp := r.2.1 } : Cutter).reset, some x)
      | none => .error .bug
    else .ok ({ curs := p.1, refp := r.2.1 }, none)
  else .ok ({ curs := r.1, refp := r.2.1 }, none)

/-- src/libdar/mask_list.cpp:135, 160 the inner loops: bytes are fed until an end of line is found or there is no more.
Gives the number of bytes fed *before* the one that completed the detection (all of them when nothing is found). -/
def scan (e : Cutter) : Bytes → Res (Cutter × Nat × Option (Nat × Nat))
  | [] => .ok (e, 0, none)
  | b :: bs => do
    let r ← e.eolReached b
    match r.2 with
    | some x => .ok (r.1, 0, some x)
    | none =>
      let t ← scan r.1 bs
      .ok (t.1, t.2.1 + 1, t.2.2)

/-- The variables of src/libdar/mask_list.cpp:78-91,118-124: `acc` is current_entry, `lines` is tmp, `nc` and `fc` are
refill_nc and refill_fc; `beg` is an offset in the buffer. -/
structure RdSt where
  cut : Cutter
  acc : Bytes
  lines : List Bytes
  refill : Bytes
  nc : Nat
  fc : Nat
  curs : Nat
  beg : Nat
deriving Repr, DecidableEq

/-- src/libdar/mask_list.cpp:133-157: the branch reading again the bytes of `refill`; `(eol_len, eol_over)` is the second
component. -/
def RdSt.fromRefill (s : RdSt) : Res (RdSt × Nat × Nat) := do
  let r ← scan s.cut (s.refill.drop s.nc)
  let i := s.nc + r.2.1
  let nc := if i < s.refill.length then i + 1 else i
  let eol := if i < s.refill.length then r.2.2.getD (0, 0) else (0, 0)
  let acc := s.acc ++ (s.refill.take nc).drop s.fc
  if nc < s.refill.length then .ok ({ s with cut := r.1, acc := acc, nc := nc, fc := nc }, eol)
  else if nc = s.refill.length then .ok ({ s with cut := r.1, acc := acc, refill := [], nc := 0, fc := 0 }, eol)
  else .error .bug

/-- src/libdar/mask_list.cpp:158-197: the branch reading the bytes of the buffer.  `string(beg, buffer + curs)` with an
end before its beginning has no defined meaning. -/
def RdSt.fromBuffer (s : RdSt) (buf : Bytes) : Res (RdSt × Nat × Nat) := do
  let r ← scan s.cut (buf.drop s.curs)
  let i := s.curs + r.2.1
  if i < buf.length then
    let eol := r.2.2.getD (0, 0)
    let j := if eol.2 ≤ i then i - eol.2 else i
    let over := if eol.2 ≤ i then 0 else eol.2
    let curs := if j < buf.length then j + 1 else j
    if eol.1 = 0 then .error .bug
    else if curs < s.beg then .error .ub
    else
      .ok ({ s with cut := r.1, acc := s.acc ++ (buf.take curs).drop s.beg, curs := curs,
                    beg := if curs < buf.length then curs else s.beg }, eol.1, over)
  else .ok ({ s with cut := r.1, acc := s.acc ++ (buf.take i).drop s.beg, curs := i,
                     beg := if i < buf.length then i else s.beg }, 0, 0)

/-- src/libdar/mask_list.cpp:199-241: what is done when an end of line has been met (`len > 0`); `up` is the conversion
made when the case does not matter (tools_to_upper), the identity otherwise. -/
def RdSt.cutLine (up : Bytes → Bytes) (s : RdSt) (len over : Nat) : Res RdSt :=
  if len > 0 then
    if s.acc.length ≤ len + over then .error .bug
    else
      let refill := if s.refill.isEmpty then s.refill else s.refill.drop s.fc
      let s := if over > 0 then
          { s with refill := s.acc.drop (s.acc.length - over) ++ refill,
                   fc := if s.refill.isEmpty then s.fc else 0, nc := if s.refill.isEmpty then s.nc else 0,
                   acc := s.acc.take (s.acc.length - over) }
        else s
      let line := up (s.acc.take (s.acc.length - len))
      .ok { s with acc := [], lines := if line.isEmpty then s.lines else s.lines ++ [line] }
  else if over > 0 then .error .bug
  else .ok s

/-- src/libdar/mask_list.cpp:131-242: one turn of the loop. -/
def RdSt.turn (up : Bytes → Bytes) (buf : Bytes) (s : RdSt) : Res RdSt := do
  let r ← if s.refill.isEmpty then s.fromBuffer buf else s.fromRefill
  r.1.cutLine up r.2.1 r.2.2

/-- src/libdar/mask_list.cpp:129-243: the loop over one buffer; `fuel` bounds the number of turns, `.diverge` when it is
spent. -/
def RdSt.turns (up : Bytes → Bytes) (buf : Bytes) : Nat → RdSt → Res RdSt
  | 0, _ => .error .diverge
  | fuel + 1, s => do
    let s ← s.turn up buf
    if s.curs < buf.length ∨ s.nc < s.refill.length then RdSt.turns up buf fuel s else .ok s

/-- src/libdar/mask_list.cpp:112-246: the reading loop: `reads` are the non-empty results of the successive read() calls
(at most 20480 bytes each; any partition of the file is allowed here), the last one giving nothing. -/
def readLoop (up : Bytes → Bytes) : List Bytes → RdSt → Res RdSt
  | [], s => .ok s
  | buf :: more, s => do
    let s ← RdSt.turns up buf (2 * buf.length + 2 * s.acc.length + 2)
      { s with refill := [], nc := 0, fc := 0, curs := 0, beg := 0 }
    readLoop up more s

/-- src/libdar/mask_list.cpp:112-250: the list of lines `tmp`.  The last line, not followed by an end of line, is added
as it is. -/
def readLines (up : Bytes → Bytes) (cut : Cutter) (reads : List Bytes) : Res (List Bytes) := do
  let s ← readLoop up reads { cut := cut, acc := [], lines := [], refill := [], nc := 0, fc := 0, curs := 0, beg := 0 }
  .ok (if s.acc.isEmpty then s.lines else s.lines ++ [s.acc])

/-- src/libdar/mask_list.cpp:60,93-97: the sequences in use: those given, or "\n" and "\r\n". -/
def seqsOf (given : List Bytes) : List Bytes := if given = [] then [[10], [13, 10]] else given

/-- src/libdar/mask_list.cpp:59-250: from the sequences given by the user and the contents of the file, as it is read, to
the lines. -/
def linesOf (up : Bytes → Bytes) (given : List Bytes) (reads : List Bytes) : Res (List Bytes) := do
  let cut ← Cutter.make (seqsOf given)
  readLines up cut reads

/-- src/libdar/mask_list.cpp:266-300: the prefix is added to the relative paths.  A line that is not a valid path stops
the whole. -/
def withPrefix (pre : PathT) : List Bytes → Res (List Bytes)
  | [] => .ok []
  | l :: ls => do
    let cur ← match pathOf l false with
      | .ok p => .ok p
      | .error _ => .error .range
    let l' ← if cur.relative then (match pre.addPath cur with
      | .ok p => .ok p.display
      | .error _ => .error .range) else .ok l
    let r ← withPrefix pre ls
    .ok (l' :: r)

end Dar.Lf
