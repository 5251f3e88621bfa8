import Verif.Model.Basic
/-
Model of the escape layer (tape marks inside an archive), src/libdar/escape.{hpp,cpp}.

Simplifications: the layer below is a plain byte sequence; `x_below->read(a, n)` delivers
`min n (what remains)` bytes (the contract of generic_file::read).  `read_buffer`, `already_read` and
`read_buffer_size` are represented by `buf`, the bytes from `already_read` to `read_buffer_size`, and
`escape_seq_offset_in_buffer` by its distance `esc` to `already_read`; so the memmove to the start of
the buffer (escape.cpp:1026-1041), which changes neither, disappears.  Position accounting, skip by
offset, truncate and read_ahead are not modelled.
-/
namespace Dar

/-- Kinds of marks, `escape::sequence_type`, src/libdar/escape.hpp:75-91. -/
inductive SeqT where
  | notASequence | file | ea | catalogue | dataName | fileCrc | eaCrc | changed | dirty
  | failedBackup | fsa | fsaCrc | deltaSig | inPlace
  deriving DecidableEq, Repr

/-- The first byte of the pattern; escape::change_fixed_escape_sequence (src/libdar/escape.hpp:156) may
change it, so the model is written for any value that does not occur in the rest of the pattern. -/
class EscByte where
  b : UInt8
  ok : b ≠ 0xFD ∧ b ≠ 0xEA ∧ b ≠ 0x77 ∧ b ≠ 0x21

/-- ESCAPE_FIXED_SEQUENCE_NORMAL, src/libdar/escape.hpp:55: the layer that carries an archive. -/
@[reducible] def escNormal : EscByte := ⟨0xAD, by decide⟩

/-- ESCAPE_FIXED_SEQUENCE_SPARSE_FILE, src/libdar/escape.hpp:56: the layer inside a sparse file. -/
@[reducible] def escSparse : EscByte := ⟨0xAE, by decide⟩

variable [EscByte]

/-- The first five bytes of `usual_fixed_sequence`, src/libdar/escape.cpp:65. -/
def escPattern : Bytes := [EscByte.b, 0xFD, 0xEA, 0x77, 0x21]

/-- escape::type2char, src/libdar/escape.cpp:880-914. -/
def type2char : SeqT → UInt8
  | .notASequence => 0x58 | .file => 0x46 | .ea => 0x45 | .catalogue => 0x43 | .dataName => 0x44
  | .fileCrc => 0x52 | .eaCrc => 0x72 | .changed => 0x57 | .dirty => 0x49 | .failedBackup => 0x21
  | .fsa => 0x53 | .fsaCrc => 0x73 | .deltaSig => 0x64 | .inPlace => 0x50

/-- escape::char2type, src/libdar/escape.cpp:916-950. -/
def char2type (c : UInt8) : Res SeqT :=
  if c = 0x58 then .ok .notASequence else if c = 0x46 then .ok .file
  else if c = 0x45 then .ok .ea else if c = 0x43 then .ok .catalogue
  else if c = 0x44 then .ok .dataName else if c = 0x52 then .ok .fileCrc
  else if c = 0x72 then .ok .eaCrc else if c = 0x57 then .ok .changed
  else if c = 0x49 then .ok .dirty else if c = 0x21 then .ok .failedBackup
  else if c = 0x53 then .ok .fsa else if c = 0x73 then .ok .fsaCrc
  else if c = 0x64 then .ok .deltaSig else if c = 0x50 then .ok .inPlace
  else .error .range

/-- The six bytes of a mark: set_fixed_sequence_for, src/libdar/escape.hpp:197. -/
def escSeq (t : SeqT) : Bytes := escPattern ++ [type2char t]

/-- The loop of trouve_amorce, src/libdar/escape.cpp:1107-1123.  `fuel` bounds the number of turns. -/
def trouveLoop (a : Bytes) : Nat → Nat → Nat → Nat → Nat × Nat × Nat
  | 0, curs, amorce, ret => (curs, amorce, ret)
  | f + 1, curs, amorce, ret =>
      if curs < a.length ∧ amorce < 5 then
        if a.getD curs 0 = escPattern.getD amorce 0 then
          trouveLoop a f (curs + 1) (amorce + 1) (if amorce = 0 then curs else ret)
        else if amorce > 0 then trouveLoop a f (curs - amorce + 1) 0 ret
        else trouveLoop a f (curs + 1) 0 ret
      else (curs, amorce, ret)

/-- End of trouve_amorce, src/libdar/escape.cpp:1125-1130, on the final (curs, amorce, ret). -/
def trouveEnd (size : Nat) (r : Nat × Nat × Nat) : Nat :=
  if r.1 ≥ size ∧ r.2.1 = 0 then size else r.2.2

/-- escape::trouve_amorce, src/libdar/escape.cpp:1100-1131. -/
def trouveAmorce (a : Bytes) : Nat := trouveEnd a.length (trouveLoop a (6 * a.length + 6) 0 0 0)

/-! ### Writing -/

/-- escape::inherited_write, the loop on the caller's buffer: src/libdar/escape.cpp:797-834.
Returns what goes to the layer below and what stays in `write_buffer`. -/
def escWriteLoop (a : Bytes) : Res (Bytes × Bytes) :=
  if h : a = [] then .ok ([], [])
  else
    let k := trouveAmorce a
    if k = a.length then .ok (a, [])
    else if k + 5 ≤ a.length then
      match escWriteLoop (a.drop (k + 5)) with
      | .ok (o, p) => .ok (a.take k ++ escSeq .notASequence ++ o, p)
      | .error e => .error e
    else if 5 ≤ (a.drop k).length then .error .bug
    else .ok (a.take k, a.drop k)
termination_by a.length
decreasing_by
  have : a.length ≠ 0 := by simpa using h
  simp only [List.length_drop]; omega

/-- escape::inherited_write, completing the pending bytes of `write_buffer`:
src/libdar/escape.cpp:708-786.  Returns what goes below, the new content of `write_buffer` and the part
of the caller's buffer left to process. -/
def escWritePending (pend a : Bytes) : Res (Bytes × Bytes × Bytes) :=
  if 5 ≤ pend.length then .error .bug
  else
    let delta := min (12 - pend.length) a.length
    let wb := pend ++ a.take delta
    let k := trouveAmorce wb
    if k = wb.length then .ok (wb, [], a.drop delta)
    else if k + 5 ≤ wb.length then
      .ok (wb.take k ++ escSeq .notASequence, [], a.drop (k + 5 - pend.length))
    else
      let yet := a.length - delta
      let missing := k + 5 - wb.length
      if wb.length < 12 ∧ yet > 0 then .error .bug
      else if yet ≥ missing then
        if k < pend.length then .error .bug
        else .ok (wb.take k, [], a.drop (k - pend.length))
      else if 5 ≤ (wb.drop k).length then .error .bug
      else if (wb.drop k).length + yet > 12 then .error .bug
      else .ok (wb.take k, wb.drop k ++ a.drop delta, [])

/-- escape::inherited_write, src/libdar/escape.cpp:695-843: `pend` is `write_buffer`; returns what goes
to the layer below and the new content of `write_buffer`. -/
def escWrite (pend a : Bytes) : Res (Bytes × Bytes) :=
  if a = [] then .ok ([], pend)
  else if pend = [] then escWriteLoop a
  else
    match escWritePending pend a with
    | .error e => .error e
    | .ok (o, p, rest) =>
        if rest ≠ [] ∧ p ≠ [] then .error .bug
        else if rest = [] then .ok (o, p)
        else
          match escWriteLoop rest with
          | .error e => .error e
          | .ok (o', p') => .ok (o ++ o', p')

/-- The calls a writer makes on the layer: generic_file::write (src/libdar/generic_file.cpp) which calls
inherited_write, add_mark_at_current_position, sync_write. -/
inductive EscOp where
  | write (a : Bytes)
  | mark (t : SeqT)
  | sync
  deriving DecidableEq, Repr

/-- One call: `st` is (bytes already given to the layer below, `write_buffer`).
add_mark_at_current_position: src/libdar/escape.cpp:124-144; flush_write: 961-971;
inherited_sync_write: escape.hpp:152. -/
def escStep (st : Bytes × Bytes) : EscOp → Res (Bytes × Bytes)
  | .write a =>
      match escWrite st.2 a with
      | .ok (o, p) => .ok (st.1 ++ o, p)
      | .error e => .error e
  | .mark t =>
      if t = .notASequence then .error .range
      else .ok (st.1 ++ st.2 ++ escSeq t, [])
  | .sync => .ok (st.1 ++ st.2, [])

/-- A sequence of calls. -/
def escRun : Bytes × Bytes → List EscOp → Res (Bytes × Bytes)
  | st, [] => .ok st
  | st, op :: ops =>
      match escStep st op with
      | .ok st' => escRun st' ops
      | .error e => .error e

/-- The whole life of an escape object opened for writing: constructor (escape.cpp:71-92), the calls,
then inherited_terminate = flush_or_clean (escape.hpp:154, 201-217).  The result is the content of the
file below. -/
def escProduce (ops : List EscOp) : Res Bytes :=
  match escRun ([], []) ops with
  | .ok (o, p) => .ok (o ++ p)
  | .error e => .error e

/-! ### Reading -/

/-- State of an escape object opened for reading: src/libdar/escape.hpp:183-193. -/
structure EscRd where
  buf : Bytes        -- read_buffer[already_read .. read_buffer_size)
  esc : Nat          -- escape_seq_offset_in_buffer - already_read
  eof : Bool         -- read_eof
  alloc : Nat        -- read_buffer_alloc
  below : Bytes      -- what remains to be read from x_below
  deriving DecidableEq, Repr

/-- Constructor, src/libdar/escape.cpp:71-92 (MAX_BUFFER_SIZE is 102400, escape.hpp:58). -/
def escOpen (below : Bytes) : EscRd := ⟨[], 0, false, 102400, below⟩

/-- remove_data_marks_and_stop_at_first_real_mark, src/libdar/escape.cpp:1134-1165: returns the
unescaped data and what follows it (from the first real or incomplete mark on). -/
def removeMarks (a : Bytes) : Res (Bytes × Bytes) :=
  let k := trouveAmorce a
  let t := a.drop k
  if h : 6 ≤ t.length then
    match char2type (t.getD 5 0) with
    | .error e => .error e
    | .ok ty =>
        if ty = .notASequence then
          match removeMarks (t.drop 6) with
          | .error e => .error e
          | .ok (pre, rest) => .ok (a.take k ++ t.take 5 ++ pre, rest)
        else .ok (a.take k, t)
  else .ok (a.take k, t)
termination_by a.length
decreasing_by
  simp only [t, List.length_drop] at h ⊢; omega

/-- escape::mini_read_buffer, src/libdar/escape.cpp:1019-1098. -/
def miniRead (st : EscRd) : Res (Bool × EscRd) :=
  if st.buf.length < 6 then
    let buf := st.buf ++ st.below.take (6 - st.buf.length)
    let below := st.below.drop (6 - st.buf.length)
    match removeMarks (buf.drop st.esc) with
    | .error e => .error e
    | .ok (pre, t) =>
        let ok := decide (6 ≤ buf.length)
        .ok (ok, { st with buf := buf.take st.esc ++ pre ++ t, esc := st.esc + pre.length,
                           eof := st.eof || !ok, below := below })
  else if st.esc = 0 then
    match char2type (st.buf.getD 5 0) with
    | .error e => .error e
    | .ok ty =>
        if ty = .notASequence then
          match removeMarks st.buf with
          | .error e => .error e
          | .ok (pre, t) => .ok (true, { st with buf := pre ++ t, esc := pre.length })
        else .ok (true, st)
  else .ok (true, st)

/-- escape::inherited_read, first loop: src/libdar/escape.cpp:536-603.  `need` is `size - returned`.
The boolean tells whether the function returned from inside the loop. -/
def escServe : Nat → EscRd → Nat → Res (Bytes × Bool × EscRd)
  | 0, _, _ => .error .diverge
  | f + 1, st, need =>
      let c := min st.esc need
      let got := st.buf.take c
      let st1 := { st with buf := st.buf.drop c, esc := st.esc - c }
      if got.length = need then .ok (got, true, st1)
      else if st1.buf ≠ [] then
        if st1.esc ≠ 0 then .error .bug
        else
          match miniRead st1 with
          | .error e => .error e
          | .ok (true, st2) =>
              if st2.esc = 0 then .ok (got, false, { st2 with eof := true })
              else
                match escServe f st2 (need - got.length) with
                | .error e => .error e
                | .ok (g, d, st3) => .ok (got ++ g, d, st3)
          | .ok (false, st2) =>
              match escServe f { st2 with esc := st2.buf.length } (need - got.length) with
              | .error e => .error e
              | .ok (g, d, st3) => .ok (got ++ g, d, st3)
      else .ok (got, false, st1)

/-- escape::inherited_read, second loop: src/libdar/escape.cpp:605-692; `again` is the recursive call to
inherited_read. -/
def escDirect (again : EscRd → Nat → Res (Bytes × EscRd)) : Nat → EscRd → Nat → Res (Bytes × EscRd)
  | 0, _, _ => .error .diverge
  | f + 1, st, need =>
      if st.eof then .ok ([], st)
      else if need > 6 then
        let rd := st.below.take need
        let eof := decide (rd.length < need)
        let below := st.below.drop need
        match removeMarks rd with
        | .error e => .error e
        | .ok (pre, t) =>
            if t ≠ [] then
              let alloc := if st.alloc < t.length then pre.length + t.length else st.alloc
              let st1 : EscRd := ⟨t, 0, false, alloc, below⟩
              if need - pre.length > 0 then
                match again st1 (need - pre.length) with
                | .error e => .error e
                | .ok (g, st2) => .ok (pre ++ g, st2)
              else .ok (pre, st1)
            else
              let st1 := { st with eof := eof, esc := st.buf.length, below := below }
              if need - pre.length > 0 ∧ ¬ eof then
                match escDirect again f st1 (need - pre.length) with
                | .error e => .error e
                | .ok (g, st2) => .ok (pre ++ g, st2)
              else .ok (pre, st1)
      else
        match miniRead st with
        | .error e => .error e
        | .ok (_, st1) =>
            if st1.esc > 0 then again st1 need
            else .ok ([], { st1 with eof := true })

/-- escape::inherited_read, src/libdar/escape.cpp:525-693.  `f` bounds the depth of the recursive calls
and the number of turns of each loop. -/
def escReadF : Nat → EscRd → Nat → Res (Bytes × EscRd)
  | 0, _, _ => .error .diverge
  | f + 1, st, size =>
      if st.eof ∧ st.buf = [] then .ok ([], st)
      else
        match escServe (f + 1) st size with
        | .error e => .error e
        | .ok (got, true, st1) => .ok (got, st1)
        | .ok (got, false, st1) =>
            match escDirect (escReadF f) (f + 1) st1 (size - got.length) with
            | .error e => .error e
            | .ok (g, st2) => .ok (got ++ g, st2)

/-- escape::inherited_read with enough turns. -/
def escRead (st : EscRd) (size : Nat) : Res (Bytes × EscRd) :=
  escReadF (2 * st.below.length + st.buf.length + 3) st size

/-- escape::next_to_read_is_which_mark, src/libdar/escape.cpp:246-281 (`none`: returns false). -/
def escNextMark (st : EscRd) : Res (Option SeqT × EscRd) :=
  if st.esc > 0 then .ok (none, st)
  else
    match miniRead st with
    | .error e => .error e
    | .ok (false, st1) => .ok (none, st1)
    | .ok (true, st1) =>
        if st1.buf.length < 6 then .error .bug
        else if st1.esc = 0 then
          match char2type (st1.buf.getD 5 0) with
          | .error e => .error e
          | .ok t => if t = .notASequence then .error .bug else .ok (some t, st1)
        else .ok (none, st1)

/-- escape::skip_to_next_mark, src/libdar/escape.cpp:146-221, the do/while loop. -/
def escSkipF (t : SeqT) (jump : Bool) (unj : List SeqT) : Nat → EscRd → Res (Bool × EscRd)
  | 0, _ => .error .diverge
  | f + 1, st =>
      if st.esc < st.buf.length then
        let st1 := { st with buf := st.buf.drop st.esc, esc := 0 }
        match miniRead st1 with
        | .error e => .error e
        | .ok (false, st2) =>
            escSkipF t jump unj f { st2 with buf := [], esc := 0, eof := false }
        | .ok (true, st2) =>
            if st2.esc + 5 < st2.buf.length then
              match char2type (st2.buf.getD (st2.esc + 5) 0) with
              | .error e => .error e
              | .ok ft =>
                  let nb := st2.buf.drop (st2.esc + 6)
                  let st3 := { st2 with buf := nb, esc := trouveAmorce nb }
                  if ft = .notASequence then escSkipF t jump unj f st3
                  else if ft = t then .ok (true, st3)
                  else if jump ∧ ft ∉ unj then escSkipF t jump unj f st3
                  else .ok (false, { st2 with eof := true })
            else
              escSkipF t jump unj f { st2 with buf := st2.buf.drop st2.esc, esc := 0 }
      else
        let nb := st.below.take st.alloc
        let st1 := { st with buf := nb, esc := trouveAmorce nb, below := st.below.drop st.alloc }
        if nb = [] then .ok (false, { st1 with eof := true })
        else escSkipF t jump unj f st1

/-- escape::skip_to_next_mark, src/libdar/escape.cpp:146-221. -/
def escSkip (t : SeqT) (jump : Bool) (unj : List SeqT) (st : EscRd) : Res (Bool × EscRd) :=
  escSkipF t jump unj (2 * st.below.length + st.buf.length + 2) { st with eof := false }

end Dar
