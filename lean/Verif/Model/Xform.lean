import Verif.Model.Sar
import Verif.Model.Headers
import Verif.Model.Difference
/- Model of the re-slicing of an archive: libdar_xform (src/libdar/i_libdar_xform.cpp), with what it rests on: the opening of the slices of an archive of which only
the files are known (src/libdar/sar.cpp:255-281, 852-1110, 1505-1620), unsliced archives (src/libdar/trivial_sar.cpp) as files and through a pipe.

The slices are the files of the list, slice 1 first.  When a slice is absent, unreadable or not from the expected archive the program asks the user for the right file: here the user
answers no (Euser_abort).  Not modelled: the lax mode, user commands and pauses, hash files, the check of existing files (C68), names of slices (C57), the failures of the disk
while data is copied, what signals do to pipes (C61). -/
namespace Dar

/-! ### reading an archive given as slices -/

/-- the layout found in a slice header -/
def SliceHdr.lay (h : SliceHdr) : SliceLayout := ⟨h.firstSize, h.otherSize, h.firstHdr, h.otherHdr, h.old⟩
/-- what the functions on slices (Model/Sar.lean) need for a reading: the layout only -/
def SliceHdr.rd (h : SliceHdr) : SarCfg := ⟨h.lay, fun _ => [], fun _ => []⟩

/-- exceptions of the reading of a slice header that are not followed by a question to the user, src/libdar/sar.cpp:930-960 -/
def hdrThrows (e : Err) : Bool := match e with
  | .cancel => true
  | .userAbort => true
  | .unsupported => true
  | .limitint => true
  | .bug => true
  | .ub => true
  | .diverge => true
  | _ => false
/-- the reading of the header of a slice, src/libdar/sar.cpp:925-965: the header, and the position that follows it -/
def openHdr (goOn : Nat → Bool) (f : Bytes) : Res (SliceHdr × Nat) := match sliceRead goOn (some f.length) f.length f with
  | .ok (h, rest) => .ok (h, f.length - rest.length)
  | .error e => .error (if hdrThrows e then e else .userAbort)
/-- the flag of a slice, src/libdar/sar.cpp:970-1022 and, for an unknown flag, 1052-1058 -/
def openFlag (h : SliceHdr) (f : Bytes) : Res UInt8 :=
  if h.flag = flagAtEnd then match f.getLast? with
    | none => .error .range
    | some x => if x = flagTerminal ∨ x = flagNonTerminal then .ok x else .error .range
  else if h.flag = flagTerminal ∨ h.flag = flagNonTerminal then .ok h.flag else .error .userAbort
/-- what is known of the last slice, src/libdar/sar.cpp:1024-1051 -/
def openLast (last : Option Nat) (num : Nat) (fl : UInt8) : Res (Option Nat) :=
  if fl = flagTerminal then match last with
    | some k => if k ≠ num then .error .range else .ok (some k)
    | none => .ok (some num)
  else .ok last
/-- the opening of slice `num`; `s`: the header known so far (`slicing`, once `initial` is false); src/libdar/sar.cpp:852-1110, check_header 1505-1620, open_file 1317-1395.
The first slice is always the first opened here (src/libdar/sar.cpp:262-272) -/
def setOpen (goOn : Nat → Bool) (files : List Bytes) (s : Option SliceHdr) (last : Option Nat) (num : Nat) : Res (SliceHdr × SarR) :=
  match files[num - 1]? with
  | none => .error .userAbort
  | some f => do
    let (h, pos) ← openHdr goOn f
    let s := s.getD h
    if s.iname ≠ h.iname then .error .userAbort
    else do
      let fl ← openFlag h f
      let last ← openLast last num fl
      .ok (s, ⟨num, pos, s.rd.hlen num, fl, last⟩)
/-- the first opening, src/libdar/sar.cpp:262-281 and fetch_slicing 1474-1496 -/
def setStart (goOn : Nat → Bool) (files : List Bytes) : Res (SliceHdr × SarR) := setOpen goOn files none none 1
/-- sar::inherited_read, src/libdar/sar.cpp:645-719 (see sarRead in Model/Sar.lean) -/
def setRead (goOn : Nat → Bool) (files : List Bytes) (s : SliceHdr) : Nat → SarR → Nat → Res (Bytes × SarR)
  | _, r, 0 => .ok ([], r)
  | 0, _, _ + 1 => .error .diverge
  | fuel + 1, r, sz@(_ + 1) =>
    let f := files.getD (r.num - 1) []
    let got := (f.drop r.fd).take sz
    let fd' := r.fd + got.length
    let data := if s.old = false ∧ fd' = f.length ∧ 0 < got.length then got.dropLast else got
    if data.length = 0 then
      if r.flag = flagTerminal ∨ r.lastReached = true then
        .ok ([], { r with fd := fd' })
      else if r.off ≥ s.rd.size r.num - s.rd.delta then do
        let (_, r) ← setOpen goOn files (some s) r.last (r.num + 1)
        setRead goOn files s fuel r sz
      else do
        let place := min (s.rd.size r.num - r.off - s.rd.delta) sz
        let (rest, r') ← setRead goOn files s fuel { r with fd := fd', off := r.off + place } (sz - place)
        .ok (List.replicate place 0 ++ rest, r')
    else do
      let (rest, r') ← setRead goOn files s fuel { r with fd := fd', off := r.off + data.length } (sz - data.length)
      .ok (data ++ rest, r')

/-- generic_file::copy_to, src/libdar/generic_file.cpp:191-225: the pieces successively read, and the exception that ends the reading, if any -/
def setCopy (goOn : Nat → Bool) (files : List Bytes) (s : SliceHdr) : Nat → SarR → List Bytes × Option Err
  | 0, _ => ([], some .diverge)
  | n + 1, r => match setRead goOn files s (genericBuffer + files.length + 1) r genericBuffer with
    | .error e => ([], some e)
    | .ok (got, r) =>
      if got.length = 0 then ([], none)
      else
        let (l, e) := setCopy goOn files s n r
        (got :: l, e)
/-- a bound on the number of turns of the loop: what can be read, missing parts of slices being replaced -/
def setTurns (files : List Bytes) (s : SliceHdr) : Nat := (files.map List.length).sum + files.length * (s.firstSize + s.otherSize) + 1

/-! ### reading an unsliced archive through a pipe -/

/-- trivial_sar::init_read, src/libdar/trivial_sar.cpp:451-474: the header and what follows it -/
def pipeStart (goOn : Nat → Bool) (s : Bytes) : Res (SliceHdr × Bytes) := match sliceRead goOn none s.length s with
  | .error e => .error e
  | .ok (h, rest) => if h.flag = flagNonTerminal then .error .range else .ok (h, rest)
/-- copy_to with trivial_sar::inherited_read, src/libdar/trivial_sar.cpp:508-537 -/
def pipeCopy (old : Bool) : Nat → Bytes → List Bytes × Option Err
  | 0, _ => ([], some .diverge)
  | n + 1, s =>
    let got := s.take genericBuffer
    let rest := s.drop genericBuffer
    if got.length = 0 then ([], none)
    else if rest.length = 0 ∧ old = false then
      if got.getLast? ≠ some flagTerminal then ([], some .range)
      else if got.dropLast.length = 0 then ([], none)
      else
        let (l, e) := pipeCopy old n rest
        (got.dropLast :: l, e)
    else
      let (l, e) := pipeCopy old n rest
      (got :: l, e)

/-! ### the source of a transformation -/

/-- where the archive to transform comes from, src/libdar/i_libdar_xform.cpp:41-94 -/
inductive XSrc where
  | slices (files : List Bytes)
  | pipe (s : Bytes)
/-- the slice header of the source (get_slice_info), and the pieces copy_to reads from it -/
def XSrc.take (goOn : Nat → Bool) : XSrc → Res (SliceHdr × List Bytes × Option Err)
  | .slices files => do
    let (s, r) ← setStart goOn files
    .ok (s, setCopy goOn files s (setTurns files s) r)
  | .pipe s => do
    let (h, rest) ← pipeStart goOn s
    .ok (h, pipeCopy h.old (rest.length + 1) rest)
/-- the whole content of the source: its slice header and its data, when everything can be read -/
def XSrc.read (goOn : Nat → Bool) (x : XSrc) : Res (SliceHdr × Bytes) := match x.take goOn with
  | .error e => .error e
  | .ok (h, l, none) => .ok (h, l.flatten)
  | .ok (_, _, some e) => .error e

/-! ### writing -/

/-- what is asked for: a single file (or a pipe, src/libdar/i_libdar_xform.cpp:183-204), or slices of given sizes -/
inductive XDst where
  | single
  | slices (first other : Nat)
/-- the slice header of a new archive: src/libdar/sar.cpp:186-192 and open_file_init 1302-1315, src/libdar/trivial_sar.cpp:492-500 -/
def newHdr (iname dname : Bytes) (old : Bool) : XDst → SliceHdr
  | .single => ⟨SAUV_MAGIC, iname, dname, flagTerminal, 0, 0, 0, 0, old⟩
  | .slices first other => ⟨SAUV_MAGIC, iname, dname, flagAtEnd, first, other, 0, 0, old⟩
/-- the bytes of a header -/
def SliceHdr.out (h : SliceHdr) (asFirst : Bool) (flag : UInt8) : Bytes := match { h with flag := flag }.bytes asFirst false with
  | .ok b => b
  | .error _ => []
/-- a new sliced archive: constructor of sar in write mode, src/libdar/sar.cpp:147-225, with the writing of the first header (open_writeonly 1272-1285) -/
def newSlices (h : SliceHdr) : Res SarCfg :=
  if h.otherSize < sliceMin + 1 then .error .range
  else if h.firstSize < sliceMin + 1 then .error .range
  else match h.write 0 true false with
    | .error e => .error e
    | .ok (_, h) => .ok ⟨h.lay, h.out true, h.out false⟩
/-- an archive under construction: sliced, or not -/
inductive XOut where
  | slices (c : SarCfg) (w : SarW)
  | single (old : Bool) (b : Bytes)
/-- the creation of the destination, src/libdar/i_libdar_xform.cpp:139-186; trivial_sar: src/libdar/trivial_sar.cpp:484-506 -/
def newOut (h : SliceHdr) : XDst → Res XOut
  | .single => match h.write 0 true false with
    | .error e => .error e
    | .ok (b, _) => .ok (.single h.old b)
  | .slices _ _ => match newSlices h with
    | .error e => .error e
    | .ok c => .ok (.slices c (sarOpenW c []))
/-- one write -/
def XOut.write (o : XOut) (a : Bytes) : Res XOut := match o with
  | .single old b => .ok (.single old (b ++ a))
  | .slices c w => match sarWrite c (2 * a.length + 1) w a with
    | .error e => .error e
    | .ok w => .ok (.slices c w)
/-- successive writes: the state at the end, and the exception that stopped them, if any (what the failed write did is not modelled) -/
def XOut.writes : XOut → List Bytes → XOut × Option Err
  | o, [] => (o, none)
  | o, a :: l => match o.write a with
    | .error e => (o, some e)
    | .ok o => o.writes l
/-- the destructor, src/libdar/sar.cpp:235-247 and trivial_sar.cpp:326-338: the archive is terminated, and an exception met on the way (`fails`: the closing of the last slice fails) is ignored -/
def XOut.close (fails : Bool) : XOut → List Bytes
  | .single old b => [if fails ∨ old then b else b ++ [flagTerminal]]
  | .slices c w => if fails then w.done ++ [w.cur] else match sarClose c w.num w.cur true with
    | .error _ => w.done ++ [w.cur]
    | .ok f => w.done ++ [f]

/-- the exceptions of the copy, src/libdar/i_libdar_xform.cpp:225-249 -/
def xformErr (e : Err) : Err := match e with
  | .script => .script
  | .userAbort => .userAbort
  | .bug => .bug
  | .cancel => .cancel
  | .ub => .ub
  | .diverge => .diverge
  | _ => .data
/-- xform_to, src/libdar/i_libdar_xform.cpp:96-250: the slices of the new archive, and the exception thrown, if any.  `iname`: the name drawn for the new set of slices;
`fails`: see XOut.close -/
def xformTo (goOn : Nat → Bool) (src : XSrc) (iname : Bytes) (dst : XDst) (fails : Bool) : List Bytes × Option Err :=
  match src.take goOn with
  | .error e => ([], some e)
  | .ok (s, pieces, err) => match newOut (newHdr iname s.dname s.old dst) dst with
    | .error e => ([], some e)
    | .ok o => match o.writes pieces with
      | (o, some e) => (o.close fails, some (xformErr e))
      | (o, none) => (o.close fails, err.map xformErr)

/-- an archive written by the other operations: the same objects receive the data, src/libdar/macro_tools.cpp:1225-1290 -/
def createTo (iname dname : Bytes) (old : Bool) (dst : XDst) (writes : List Bytes) : List Bytes × Option Err :=
  match newOut (newHdr iname dname old dst) dst with
  | .error e => ([], some e)
  | .ok o => match o.writes writes with
    | (o, e) => (o.close false, e)

end Dar
