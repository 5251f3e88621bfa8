import Verif.Model.Basic
/- Model of src/libdar/generic_rsync.cpp (signature, delta and patch by librsync) and of filesystem_tools_make_delta_patch (src/libdar/filesystem_tools.cpp:469-709).
librsync is an arbitrary state machine; failures of the layers below, lack of memory and the sizes of U_I are left out. -/
namespace Dar

/-- the results of rs_job_iter that step_forward distinguishes, src/libdar/generic_rsync.cpp:482-493 -/
inductive RsRet where
  | done | blocked | err
  deriving DecidableEq, Repr

/-- a job of librsync: `step state input room eof` gives the new state, how many bytes of the input it took, the bytes it put out (at most `room`) and its answer -/
structure RsJob where
  St : Type
  init : St
  step : St → Bytes → Nat → Bool → St × Nat × Bytes × RsRet

/-- step_forward, src/libdar/generic_rsync.cpp:461-505: the end of the input is told by an empty buffer -/
def RsJob.forward (J : RsJob) (st : J.St) (a : Bytes) (room : Nat) : J.St × Nat × Bytes × RsRet := J.step st a room a.isEmpty

/-! ### signature -/

/-- an object of status `sign`: what is left to read of the file below, the state of the job, working_buffer and the signature storage -/
structure SignR (J : RsJob) where
  below : Bytes
  st : J.St
  wb : Bytes
  sig : Bytes

/-- constructor, src/libdar/generic_rsync.cpp:60-97 -/
def SignR.start (J : RsJob) (x : Bytes) : SignR J := ⟨x, J.init, [], []⟩

/-- the loop of inherited_read, status `sign`, src/libdar/generic_rsync.cpp:283-300; `B` is BUFFER_SIZE, `a` the bytes still to give -/
def SignR.feed {J : RsJob} (B : Nat) : Nat → SignR J → Bytes → SignR J × Res Unit
  | 0, s, _ => (s, .error .diverge)
  | n + 1, s, a =>
    match J.forward s.st a (B - s.wb.length) with
    | (st, k, out, ret) =>
      if ret = .err then ({ s with st := st }, .error .range)
      else
        let s := { s with st := st, wb := s.wb ++ out }
        let s := if s.wb ≠ [] ∧ out = [] then { s with sig := s.sig ++ s.wb, wb := [] } else s
        if a.drop k ≠ [] then SignR.feed B n s (a.drop k) else (s, .ok ())

/-- inherited_read, status `sign`, src/libdar/generic_rsync.cpp:281-301 -/
def SignR.read {J : RsJob} (B fuel : Nat) (s : SignR J) (size : Nat) : SignR J × Res Bytes :=
  let data := s.below.take size
  match SignR.feed B fuel { s with below := s.below.drop size } data with
  | (s, .ok ()) => (s, .ok data)
  | (s, .error e) => (s, .error e)

/-- the loop of send_eof, src/libdar/generic_rsync.cpp:528-540 -/
def SignR.eofLoop {J : RsJob} (B : Nat) : Nat → SignR J → SignR J × Res Unit
  | 0, s => (s, .error .diverge)
  | n + 1, s =>
    match J.forward s.st [] B with
    | (st, _, out, ret) =>
      if ret = .err then ({ s with st := st }, .error .range)
      else
        let s := { s with st := st, sig := s.sig ++ out }
        if out ≠ [] ∧ ret ≠ .done then SignR.eofLoop B n s else (s, .ok ())
/-- inherited_terminate and send_eof, src/libdar/generic_rsync.cpp:402-423 and 520-541 -/
def SignR.finish {J : RsJob} (B fuel : Nat) (s : SignR J) : SignR J × Res Unit := SignR.eofLoop B fuel { s with sig := s.sig ++ s.wb, wb := [] }

/-! ### loading of a signature -/

/-- a job that loads a signature (rs_loadsig_begin) and what it has loaded -/
structure LoadJob (S : Type) extends RsJob where
  sumset : St → S

/-- the loop of the constructor of status `delta`, src/libdar/generic_rsync.cpp:146-163; `rest`: what is left of the signature, `lu`: the bytes kept in inbuf; SMALL_BUF is 10 -/
def loadLoop {S : Type} (J : LoadJob S) (B : Nat) : Nat → J.St → Bytes → Bytes → Res J.St
  | 0, _, _, _ => .error .diverge
  | n + 1, st, rest, lu =>
    let a := lu ++ rest.take (B - lu.length)
    let rest := rest.drop (B - lu.length)
    match J.forward st a 10 with
    | (st, k, out, ret) =>
      if ret = .err then .error .range
      else if ret ≠ .done ∧ a = [] then .error .bug
      else if out ≠ [] then .error .bug
      else if a ≠ [] then loadLoop J B n st rest (a.drop k) else .ok st
/-- the signature loaded by the constructor -/
def loadSig {S : Type} (J : LoadJob S) (B fuel : Nat) (sig : Bytes) : Res S :=
  match loadLoop J B fuel J.init sig [] with
  | .error e => .error e
  | .ok st => .ok (J.sumset st)

/-! ### delta -/

/-- an object of status `delta` above a layer of type `β`; `crcIn`: the bytes given to data_crc -/
structure DeltaR (J : RsJob) (β : Type) where
  below : β
  st : J.St
  wb : Bytes
  crcIn : Bytes

/-- inherited_read, status `delta`, src/libdar/generic_rsync.cpp:302-329; `rd`: the method read of the layer below; `acc`: the bytes put in the buffer of the caller so far -/
def DeltaR.loop {J : RsJob} {β : Type} (rd : β → Nat → β × Res Bytes) (B size : Nat) : Nat → DeltaR J β → Bytes → Bool → DeltaR J β × Res Bytes
  | 0, s, _, _ => (s, .error .diverge)
  | n + 1, s, acc, eof =>
    match (if eof then (s.below, .ok []) else rd s.below (B - s.wb.length)) with
    | (b, .error e) => ({ s with below := b }, .error e)
    | (b, .ok t) =>
      let wb := if eof then [] else s.wb ++ t
      let eof := eof || wb.isEmpty
      match J.forward s.st wb (size - acc.length) with
      | (st, k, out, ret) =>
        let s := { s with below := b, st := st, wb := wb.drop k, crcIn := s.crcIn ++ t }
        if ret = .err then (s, .error .range)
        else
          let acc := acc ++ out
          if acc.length < size ∧ (eof = false ∨ out ≠ []) then DeltaR.loop rd B size n s acc eof else (s, .ok acc)
/-- inherited_read, status `delta` -/
def DeltaR.read {J : RsJob} {β : Type} (rd : β → Nat → β × Res Bytes) (B fuel : Nat) (s : DeltaR J β) (size : Nat) : DeltaR J β × Res Bytes := DeltaR.loop rd B size fuel s [] false

/-- reading of a plain file: `f` is what is left of it -/
def plainRd (f : Bytes) (n : Nat) : Bytes × Res Bytes := (f.drop n, .ok (f.take n))

/-! ### patch -/

/-- patch_callback, src/libdar/generic_rsync.cpp:426-458, on a file in place of content `base`: the bytes read and whether RS_DONE is answered -/
def patchCallback (base : Bytes) (pos len : Nat) : Bytes × Bool :=
  let lu := (base.drop pos).take len
  (lu, !(decide (0 < len) && lu.isEmpty))

/-- a patch job: it reads the file in place by the callback it is given -/
structure PatchLib where
  St : Type
  init : St
  step : (Nat → Nat → Bytes × Bool) → St → Bytes → Nat → Bool → St × Nat × Bytes × RsRet
/-- the job once the callback is known, rs_patch_begin, src/libdar/generic_rsync.cpp:236 -/
def PatchLib.job (P : PatchLib) (base : Bytes) : RsJob := ⟨P.St, P.init, P.step (patchCallback base)⟩

/-- an object of status `patch`; `below`: what is left of the delta, `consumed`: what has been read of it (its CRC is computed on that) -/
structure PatchR (J : RsJob) where
  below : Bytes
  st : J.St
  wb : Bytes
  completed : Bool
  consumed : Bytes

/-- constructor, src/libdar/generic_rsync.cpp:205-246 -/
def PatchR.start (J : RsJob) (d : Bytes) : PatchR J := ⟨d, J.init, [], false, []⟩

/-- inherited_read, status `patch`, src/libdar/generic_rsync.cpp:330-366 -/
def PatchR.loop {J : RsJob} (B size : Nat) : Nat → PatchR J → Bytes → Bool → PatchR J × Res Bytes
  | 0, s, _, _ => (s, .error .diverge)
  | n + 1, s, acc, eof =>
    let t := if eof then [] else s.below.take (B - s.wb.length)
    let below := if eof then s.below else s.below.drop (B - s.wb.length)
    let wb := if eof then [] else s.wb ++ t
    let eof := eof || wb.isEmpty
    match J.forward s.st wb (size - acc.length) with
    | (st, k, out, ret) =>
      let s := { s with below := below, st := st, wb := wb.drop k, consumed := s.consumed ++ t }
      if ret = .err then (s, .error .range)
      else if ret = .done then
        if wb.drop k ≠ [] ∧ out = [] then (s, .error .data) else ({ s with completed := true }, .ok (acc ++ out))
      else if eof = true ∧ out = [] then (s, .error .data)
      else
        let acc := acc ++ out
        if acc.length < size ∧ (out ≠ [] ∨ eof = false) then PatchR.loop B size n s acc eof else (s, .ok acc)
/-- inherited_read, status `patch`, src/libdar/generic_rsync.cpp:270-279 and 330-366 -/
def PatchR.read {J : RsJob} (B fuel : Nat) (s : PatchR J) (size : Nat) : PatchR J × Res Bytes :=
  if s.completed then (s, .ok []) else PatchR.loop B size fuel s [] false

/-! ### use -/

/-- generic_file::copy_to, src/libdar/generic_file.cpp:191-225, of an object read by `rd`, in pieces of `B` bytes; gives what has been written too when it fails -/
def rsCopy {σ : Type} (rd : σ → Nat → σ × Res Bytes) (B : Nat) : Nat → σ → Bytes → σ × Bytes × Res Unit
  | 0, s, w => (s, w, .error .diverge)
  | n + 1, s, w =>
    match rd s B with
    | (s, .error e) => (s, w, .error e)
    | (s, .ok t) => if t = [] then (s, w, .ok ()) else rsCopy rd B n s (w ++ t)

/-- what filesystem_tools_make_delta_patch does once the patch has been computed, src/libdar/filesystem_tools.cpp:590-670: the content `base` of the file in place is replaced by `result`, in the end.
`crc size data`: the CRC of a size; `baseSz`, `patchSz`: the sizes of CRC chosen by tools_file_size_to_crc_size; `v112`: disable_base_check; gives the result and the content of the file in place afterwards.
filesystem_tools_copy_content_from_to (lines 770-808) erases the file in place before it compares the CRC. -/
def patchFinish (crc : Nat → Bytes → Bytes) (baseSz patchSz : Nat) (base result consumed : Bytes) (expBase expPatch expRes : Bytes) (hardLinked v112 failed : Bool) : Res Unit × Bytes :=
  let bad := !v112 && decide (crc baseSz base ≠ expBase)
  if bad = true ∧ hardLinked = false then (.error .range, base)
  else if bad = false ∧ failed = true then (.error .data, base)
  else if crc patchSz consumed ≠ expPatch then (.error .range, base)
  else if bad = false then
    if crc expRes.length result ≠ expRes then (.error .range, result) else (.ok (), result)
  else if crc baseSz base ≠ expRes then (.error .range, base) else (.ok (), base)
/-- filesystem_tools_make_delta_patch, src/libdar/filesystem_tools.cpp:469-709: the patch `d` applied to the file in place of content `base` -/
def makeDeltaPatch (P : PatchLib) (B fuel : Nat) (crc : Nat → Bytes → Bytes) (baseSz patchSz : Nat) (base d : Bytes) (expBase expPatch expRes : Bytes) (hardLinked v112 : Bool) : Res Unit × Bytes :=
  match rsCopy (PatchR.read B fuel) B fuel (PatchR.start (P.job base) d) [] with
  | (s, result, .ok ()) => patchFinish crc baseSz patchSz base result s.consumed expBase expPatch expRes hardLinked v112 false
  | (s, result, .error e) =>
    if e = .bug ∨ hardLinked = false then (.error e, base)
    else patchFinish crc baseSz patchSz base result s.consumed expBase expPatch expRes hardLinked v112 true

end Dar
