import Verif.Model.Flat
import Verif.Spec.Codec
/- Model of the streamed compression: src/libdar/compressor.cpp (gzip, bzip2, xz through src/libdar/wrapperlib.cpp) and src/libdar/compressor_zstd.cpp, over an ordinary file.
The compression libraries are arbitrary functions: what is given to them and what they answer is explicit, what is required of them is stated in Spec/StreamComp.lean.
Thread cancellation, lack of memory and failures of the file below (flush_write) are left out. -/
namespace Dar

/-- the codes of src/libdar/wrapperlib.hpp -/
inductive WRet where
  | ok | streamEnd | dataError | memError | bufError | streamError | versionError
  deriving DecidableEq, Repr

/-- A compression library.  `step st a room fin`: a call with the input `a` (next_in, avail_in), `room` bytes available for the output, `fin` for WR_FINISH; it gives the new state, the number of bytes
taken from the input, the output and the code returned.  `hint`: the number returned by ZSTD_compressStream. -/
structure ZEnc where
  St : Type
  init : St
  step : St → Bytes → Nat → Bool → St × Nat × Bytes × WRet
  hint : St → Nat
/-- The decompression side of a library -/
structure ZDec where
  St : Type
  init : St
  step : St → Bytes → Nat → St × Nat × Bytes × WRet

/-! ### class compressor, writing -/

/-- class compressor in write mode, src/libdar/compressor.hpp:90-112; `total`: get_total_in() of the library (see wideTotal) -/
structure ZW (E : ZEnc) where
  st : E.St
  total : Nat
  file : Flat
  susp : Bool

/-- total_in as the library keeps it, in `W` bits: uLong for zlib (32 bits on some systems), 64 bits for the others; src/libdar/wrapperlib.cpp:232-236, 290-294, 426-430 -/
def wideTotal (W : Nat) (n : Nat) : Nat := n % 2 ^ W

/-- constructor, src/libdar/compressor.cpp:45-134 -/
def zwNew (E : ZEnc) (file : Flat) : ZW E := ⟨E.init, 0, file, false⟩

/-- the loop of compressor::inherited_write, src/libdar/compressor.cpp:322-356; `B`: BUFFER_SIZE -/
def ZW.feed {E : ZEnc} (B : Nat) : Nat → ZW E → Bytes → Res (ZW E)
  | 0, w, a => if a = [] then .ok w else .error .diverge
  | n + 1, w, a =>
    if a = [] then .ok w
    else match E.step w.st a B false with
      | (st, k, out, ret) =>
        if ret = .ok ∨ ret = .streamEnd then ZW.feed B n { w with st := st, total := w.total + k, file := w.file.write out } (a.drop k)
        else .error .bug
/-- compressor::inherited_write, src/libdar/compressor.cpp:304-358 -/
def ZW.write {E : ZEnc} (B fuel : Nat) (w : ZW E) (a : Bytes) : Res (ZW E) :=
  if w.susp then .ok { w with file := w.file.write a } else w.feed B fuel a
/-- the loop of compressor::inherited_sync_write, src/libdar/compressor.cpp:374-397 -/
def ZW.finish {E : ZEnc} (B : Nat) : Nat → ZW E → Res (ZW E)
  | 0, _ => .error .diverge
  | n + 1, w => match E.step w.st [] B true with
    | (st, _, out, ret) =>
      if ret = .streamEnd then .ok { w with st := st, file := w.file.write out }
      else if ret = .ok then ZW.finish B n { w with st := st, file := w.file.write out }
      else .error .bug
/-- compressor::inherited_sync_write, src/libdar/compressor.cpp:360-401 -/
def ZW.sync {E : ZEnc} (W B fuel : Nat) (w : ZW E) : Res (ZW E) :=
  if wideTotal W w.total = 0 then .ok w
  else match w.finish B fuel with
    | .error e => .error e
    | .ok w => .ok { w with st := E.init, total := 0 }
/-- compressor::suspend_compression, resume_compression, src/libdar/compressor.cpp:162-176 -/
def ZW.suspend {E : ZEnc} (W B fuel : Nat) (w : ZW E) : Res (ZW E) :=
  if w.susp then .ok w else match w.sync W B fuel with
    | .error e => .error e
    | .ok w => .ok { w with susp := true }
def ZW.resume {E : ZEnc} (w : ZW E) : ZW E := { w with susp := false }
/-- compressor::get_position, src/libdar/compressor.hpp:76: refused while data is kept by the library -/
def ZW.position {E : ZEnc} (W : Nat) (w : ZW E) : Res Nat := if wideTotal W w.total ≠ 0 then .error .bug else .ok w.file.pos
/-- compressor::inherited_truncate, src/libdar/compressor.cpp:178-186 -/
def ZW.truncate {E : ZEnc} (W B fuel : Nat) (w : ZW E) (p : Nat) : Res (ZW E) := match w.position W with
  | .error e => .error e
  | .ok q =>
    if p < q then match w.sync W B fuel with
      | .error e => .error e
      | .ok w => .ok { w with file := w.file.truncate p }
    else .ok { w with file := w.file.truncate p }

/-- successive calls to generic_file::write -/
def ZW.writes {E : ZEnc} (B fuel : Nat) : ZW E → List Bytes → Res (ZW E)
  | w, [] => .ok w
  | w, a :: l => match w.write B fuel a with
    | .error e => .error e
    | .ok w => w.writes B fuel l
/-- an item (the data of a file, an extended attribute...) as the archive writes it: its position is noted, its data is written, sync_write is called (src/libdar/generic_file.cpp, cat_file.cpp, escape_catalogue) -/
def ZW.item {E : ZEnc} (W B fuel : Nat) (w : ZW E) (l : List Bytes) : Res (ZW E × Nat) := match w.position W with
  | .error e => .error e
  | .ok p => match w.writes B fuel l with
    | .error e => .error e
    | .ok w => match w.sync W B fuel with
      | .error e => .error e
      | .ok w => .ok (w, p)
def ZW.items {E : ZEnc} (W B fuel : Nat) : ZW E → List (List Bytes) → Res (ZW E × List Nat)
  | w, [] => .ok (w, [])
  | w, l :: ls => match w.item W B fuel l with
    | .error e => .error e
    | .ok (w, p) => match w.items W B fuel ls with
      | .error e => .error e
      | .ok (w, ps) => .ok (w, p :: ps)

/-! ### class compressor, reading -/

/-- class compressor in read mode: the state of the library, the part of the buffer not given to it yet, the file -/
structure ZR (D : ZDec) where
  st : D.St
  inb : Bytes
  file : Flat
  susp : Bool

def zrNew (D : ZDec) (file : Flat) : ZR D := ⟨D.init, [], file, false⟩

/-- the feeding of the input buffer, src/libdar/compressor.cpp:251-269: the new state, mem_avail_out, whether `processing` is no longer `normal` -/
def ZR.fill {D : ZDec} (B : Nat) (r : ZR D) (room mem : Nat) (dry : Bool) : ZR D × Nat × Bool :=
  if r.inb.length = 0 then
    match r.file.read B with
    | (f, got) => ({ r with inb := got, file := f }, if got.length = 0 then room else 0, dry || decide (got.length = 0))
  else (r, mem, dry)
/-- the codes of the library, src/libdar/compressor.cpp:276-297: whether the stream is at its end; `left`: avail_in after the call -/
def zCode (ret : WRet) (left : Nat) : Res Bool := match ret with
  | .ok => .ok false
  | .streamEnd => .ok true
  | .dataError => .error .range
  | .memError => .error .memory
  | .bufError => if left = 0 then .ok true else .error .bug
  | _ => .error .bug
/-- the loop of compressor::inherited_read, src/libdar/compressor.cpp:249-299: what is produced -/
def ZR.pull {D : ZDec} (B : Nat) : Nat → ZR D → Nat → Nat → Bool → Res (Bytes × ZR D)
  | 0, _, _, _, _ => .error .diverge
  | n + 1, r, room, mem, dry =>
    match r.fill B room mem dry with
    | (r, mem, dry) => match D.step r.st r.inb room with
      | (st, k, out, ret) =>
        let room' := room - out.length
        match zCode ret (r.inb.drop k).length with
        | .error e => .error e
        | .ok ended =>
          let r' : ZR D := { r with st := st, inb := r.inb.drop k }
          if room' ≠ mem ∧ ended = false ∧ ¬ (mem = room' ∧ dry = true) then
            match ZR.pull B n r' room' mem dry with
            | .error e => .error e
            | .ok (more, r'') => .ok (out ++ more, r'')
          else .ok (out, r')
/-- compressor::inherited_read, src/libdar/compressor.cpp:230-302 -/
def ZR.read {D : ZDec} (B fuel : Nat) (r : ZR D) (n : Nat) : Res (Bytes × ZR D) :=
  if n = 0 then .ok ([], r)
  else if r.susp then match r.file.read n with
    | (f, got) => .ok (got, { r with file := f })
  else r.pull B fuel n 0 false
/-- compressor::inherited_flush_read, src/libdar/compressor.cpp:403-416 -/
def ZR.flush {D : ZDec} (r : ZR D) : ZR D := { r with st := D.init, inb := [] }
/-- compressor::skip, src/libdar/compressor.hpp:72 -/
def ZR.skip {D : ZDec} (r : ZR D) (p : Nat) : ZR D := { r.flush with file := r.file.skip p }
/-- compressor::suspend_compression in read mode, src/libdar/compressor.cpp:162-170 -/
def ZR.suspend {D : ZDec} (r : ZR D) : ZR D := if r.susp then r else { r.flush with susp := true }

/-- successive reads -/
def ZR.reads {D : ZDec} (B fuel : Nat) : ZR D → List Nat → Res (List Bytes × ZR D)
  | r, [] => .ok ([], r)
  | r, n :: ns => match r.read B fuel n with
    | .error e => .error e
    | .ok (a, r) => match r.reads B fuel ns with
      | .error e => .error e
      | .ok (as, r) => .ok (a :: as, r)
/-- the items visited by a reader: for each of them, skip() to its position then reads -/
def ZR.visits {D : ZDec} (B fuel : Nat) : ZR D → List (Nat × List Nat) → Res (List (List Bytes) × ZR D)
  | r, [] => .ok ([], r)
  | r, v :: vs => match (r.skip v.1).reads B fuel v.2 with
    | .error e => .error e
    | .ok (a, r) => match r.visits B fuel vs with
      | .error e => .error e
      | .ok (as, r) => .ok (a :: as, r)

/-! ### class compressor_zstd -/

/-- class compressor_zstd in write mode, src/libdar/compressor_zstd.hpp:85-105; `flushed`: flueof -/
structure ZsW (E : ZEnc) where
  st : E.St
  flushed : Bool
  file : Flat
  susp : Bool

def zswNew (E : ZEnc) (file : Flat) : ZsW E := ⟨E.init, true, file, false⟩
/-- the loop of compressor_zstd::inherited_write, src/libdar/compressor_zstd.cpp:249-267; `B`: below_tampon_size, `bs`: next_bs -/
def ZsW.feed {E : ZEnc} (B : Nat) : Nat → ZsW E → Nat → Bytes → Res (ZsW E)
  | 0, w, _, a => if a = [] then .ok w else .error .diverge
  | n + 1, w, bs, a =>
    if a = [] then .ok w
    else match E.step w.st (a.take bs) B false with
      | (st, k, out, ret) =>
        if ret = .ok then ZsW.feed B n { w with st := st, file := w.file.write out } (E.hint st) (a.drop k)
        else .error .range
/-- compressor_zstd::inherited_write, src/libdar/compressor_zstd.cpp:226-272; `A`: above_tampon_size -/
def ZsW.write {E : ZEnc} (A B fuel : Nat) (w : ZsW E) (a : Bytes) : Res (ZsW E) :=
  if w.susp then .ok { w with file := w.file.write a } else ZsW.feed B fuel { w with flushed := false } A a
/-- the calls to ZSTD_endStream then ZSTD_flushStream, src/libdar/compressor_zstd.cpp:318-337 -/
def ZsW.finish {E : ZEnc} (B : Nat) : Nat → ZsW E → Res (ZsW E)
  | 0, _ => .error .diverge
  | n + 1, w => match E.step w.st [] B true with
    | (st, _, out, ret) =>
      if ret = .streamEnd then .ok { w with st := st, file := w.file.write out }
      else if ret = .ok then ZsW.finish B n { w with st := st, file := w.file.write out }
      else .error .range
/-- compr_flush_write, src/libdar/compressor_zstd.cpp:307-343; once a frame is ended the library is ready for another one -/
def ZsW.sync {E : ZEnc} (B fuel : Nat) (w : ZsW E) : Res (ZsW E) :=
  if w.flushed then .ok w
  else match w.finish B fuel with
    | .error e => .error e
    | .ok w => .ok { w with st := E.init, flushed := true }
/-- compressor_zstd::get_position, src/libdar/compressor_zstd.hpp:75 -/
def ZsW.position {E : ZEnc} (w : ZsW E) : Nat := w.file.pos

def ZsW.writes {E : ZEnc} (A B fuel : Nat) : ZsW E → List Bytes → Res (ZsW E)
  | w, [] => .ok w
  | w, a :: l => match w.write A B fuel a with
    | .error e => .error e
    | .ok w => w.writes A B fuel l
/-- an item as the archive writes it -/
def ZsW.item {E : ZEnc} (A B fuel : Nat) (w : ZsW E) (l : List Bytes) : Res (ZsW E × Nat) := match w.writes A B fuel l with
  | .error e => .error e
  | .ok w' => match w'.sync B fuel with
    | .error e => .error e
    | .ok w'' => .ok (w'', w.position)
def ZsW.items {E : ZEnc} (A B fuel : Nat) : ZsW E → List (List Bytes) → Res (ZsW E × List Nat)
  | w, [] => .ok (w, [])
  | w, l :: ls => match w.item A B fuel l with
    | .error e => .error e
    | .ok (w, p) => match w.items A B fuel ls with
      | .error e => .error e
      | .ok (w, ps) => .ok (w, p :: ps)
/-- compressor_zstd::suspend_compression in write mode, src/libdar/compressor_zstd.cpp:121-129 -/
def ZsW.suspend {E : ZEnc} (B fuel : Nat) (w : ZsW E) : Res (ZsW E) :=
  if w.susp then .ok w else match w.sync B fuel with
    | .error e => .error e
    | .ok w => .ok { w with susp := true }

/-- class compressor_zstd in read mode; `ended`: flueof, `dry`: no_comp_data -/
structure ZsR (D : ZDec) where
  st : D.St
  inb : Bytes
  ended : Bool
  dry : Bool
  file : Flat
  susp : Bool

def zsrNew (D : ZDec) (file : Flat) : ZsR D := ⟨D.init, [], false, false, file, false⟩
/-- the filling of the input buffer, src/libdar/compressor_zstd.cpp:172-180 -/
def ZsR.fill {D : ZDec} (B : Nat) (r : ZsR D) : ZsR D :=
  if 0 < B - r.inb.length ∧ r.dry = false then
    match r.file.read (B - r.inb.length) with
    | (f, got) => { r with inb := r.inb ++ got, file := f, dry := decide (got.length < B - r.inb.length) }
  else r
/-- the loop of compressor_zstd::inherited_read, src/libdar/compressor_zstd.cpp:170-218; `A`: above_tampon_size, `B`: below_tampon_size; the code is .streamEnd when ZSTD_decompressStream returns 0 -/
def ZsR.pull {D : ZDec} (A B : Nat) : Nat → ZsR D → Nat → Res (Bytes × ZsR D)
  | 0, _, _ => .error .diverge
  | n + 1, r, room =>
    if r.ended = false ∧ 0 < room then
      match r.fill B with
      | r => match D.step r.st r.inb (min room A) with
        | (st, k, out, ret) =>
          if ret ≠ .ok ∧ ret ≠ .streamEnd then .error .range
          else
            let r' : ZsR D := { r with st := st, inb := r.inb.drop k, ended := decide (ret = .streamEnd) }
            if r'.dry = true ∧ out.length = 0 ∧ 0 < room - out.length ∧ r'.ended = false then .error .range
            else match ZsR.pull A B n r' (room - out.length) with
              | .error e => .error e
              | .ok (more, r'') => .ok (out ++ more, r'')
    else .ok ([], r)
/-- compressor_zstd::inherited_read, src/libdar/compressor_zstd.cpp:137-224 -/
def ZsR.read {D : ZDec} (A B fuel : Nat) (r : ZsR D) (n : Nat) : Res (Bytes × ZsR D) :=
  if r.susp then match r.file.read n with
    | (f, got) => .ok (got, { r with file := f })
  else r.pull A B fuel n
/-- compressor_zstd::skip with clean_read, src/libdar/compressor_zstd.hpp:71, compressor_zstd.cpp:345-375 -/
def ZsR.skip {D : ZDec} (r : ZsR D) (p : Nat) : ZsR D := { r with st := D.init, inb := [], ended := false, dry := false, file := r.file.skip p }

def ZsR.reads {D : ZDec} (A B fuel : Nat) : ZsR D → List Nat → Res (List Bytes × ZsR D)
  | r, [] => .ok ([], r)
  | r, n :: ns => match r.read A B fuel n with
    | .error e => .error e
    | .ok (a, r) => match r.reads A B fuel ns with
      | .error e => .error e
      | .ok (as, r) => .ok (a :: as, r)
def ZsR.visits {D : ZDec} (A B fuel : Nat) : ZsR D → List (Nat × List Nat) → Res (List (List Bytes) × ZsR D)
  | r, [] => .ok ([], r)
  | r, v :: vs => match (r.skip v.1).reads A B fuel v.2 with
    | .error e => .error e
    | .ok (a, r) => match r.visits A B fuel vs with
      | .error e => .error e
      | .ok (as, r) => .ok (a :: as, r)

end Dar
