import Verif.Model.Headers
import Verif.Model.Catalogue
import Verif.Model.ToolsText
/- Model of the isolation of the catalogue of an archive and of the uses of an isolated catalogue: archive::i_archive::op_isolate
(src/libdar/i_archive.cpp:1658-1841), the opening of an archive, alone or with the help of an isolated catalogue (i_archive.cpp:80-475,
macro_tools.cpp:330-560), catalogue::transfer_delta_signatures and drop_delta_signatures (catalogue.cpp:1086-1318), the storage of delta
signatures (cat_delta_signature.cpp:50-200, 330-395), the tests telling an isolated catalogue from an archive (i_archive.cpp:2928-2985) and
get_catalogue_slice_layout (2041-2075).
The layers (encryption, escape marks, compression) are not modelled: `data` is what they give, at the positions they give.  Direct access only (no sequential
reading), no lax mode, no repairing, no signatures of catalogues. -/
namespace Dar

/-- an archive as it can be found on disk: the header its slices have, the archive header at its end and the position it is found at, the catalogue, and the
bytes of the archive as the layers give them -/
structure IsoFile where
  sl : SliceHdr
  hdr : Bytes
  term : Nat
  cat : Bytes
  data : Bytes

/-- class i_archive once an archive is opened, src/libdar/i_archive.hpp:380-400: sl_header, ver, second_term_offset, cat (with its hard linked inodes), the
bytes the delta signatures are fetched from (`none`: the object giving them does not exist any more), and exploitable -/
structure IsoArc where
  sl : SliceHdr
  ver : Hdr
  term : Nat
  cat : Cat
  stars : Nat → Star
  sigs : Option Bytes
  exploitable : Bool

/-! ### delta signatures -/

/-- cat_delta_signature::dump_data, src/libdar/cat_delta_signature.cpp:145-185 (the signature is at hand): the size of blocks, the signature, its checksum -/
def sigPut (bl : Nat) (sg : Bytes) : Res Bytes := do
  let w ← crcSizeFor sg.length
  let c ← crcCreate w
  let c ← c.compute 0 sg
  .ok (putInt bl ++ sg ++ c.dump)
/-- the comparison with the checksum, src/libdar/cat_delta_signature.cpp:372-376 -/
def sigCheck (sg : Bytes) : Reader Unit := fun s =>
  match crcRead false s with
  | .error e => .error e
  | .ok (k, s') => match crcSizeFor sg.length with
    | .error e => .error e
    | .ok w => match crcCreate w with
      | .error e => .error e
      | .ok c => match c.compute 0 sg with
        | .error e => .error e
        | .ok c => match k.eqv c with
          | .error e => .error e
          | .ok true => .ok ((), s')
          | .ok false => .error .range
/-- the reading at the right place, src/libdar/cat_delta_signature.cpp:340-376 (format 10.1 and after); a signature cut by the end of the archive is
reported at once -/
def sigRead1 (size : Nat) : Reader (Nat × Bytes) := do
  let bl ← getInt
  if bl ≥ 2 ^ 64 then Reader.fail .range
  else
  let sg ← readExact size
  sigCheck sg
  pure (bl, sg)
/-- cat_delta_signature::fetch_data, src/libdar/cat_delta_signature.cpp:315-395, for a signature that has a size: `src` leads to a deleted object when there is no data -/
def sigFetch (data : Option Bytes) (d : DSig) : Res (Nat × Bytes) :=
  if d.offset = 0 then .error .bug
  else match data with
    | none => .error .ub
    | some b => match sigRead1 d.size (b.drop d.offset) with
      | .error e => .error e
      | .ok (r, _) => .ok r

/-- cat_file::clear_delta_signature_only, src/libdar/cat_file.cpp:1431-1450; drop_sig (cat_delta_signature.hpp:163) only frees the memory the signature uses -/
def FileB.clearSigOnly (st : SavedStatus) (f : FileB) : FileB :=
  if f.sig.isSome then (if st = .delta then f else { f with sig := none, base := none }) else f
/-- the body of the loop of drop_delta_signatures for a file, src/libdar/catalogue.cpp:1305-1315 -/
def FileB.dropSig (st : SavedStatus) (f : FileB) : FileB :=
  match f.sig with
  | none => f
  | some d => if d.size ≠ 0 then f.clearSigOnly st else f
/-- dynamic_cast<const cat_file *> (a cat_door is a cat_file) -/
def Special.dropSig (st : SavedStatus) : Special → Special
  | .file f => .file (f.dropSig st)
  | .door f => .door (f.dropSig st)
  | s => s
def Node.dropSig (n : Node) : Node := { n with special := n.special.dropSig n.status }
mutual
/-- catalogue::drop_delta_signatures, src/libdar/catalogue.cpp:1293-1318 -/
def Entry.dropSig (e : Entry) : Entry :=
  match e with
  | .node n => .node n.dropSig
  | .dir name st i l => .dir name st i (Entry.dropSigs l)
  | e => e
def Entry.dropSigs (l : List Entry) : List Entry :=
  match l with
  | [] => []
  | e :: l => Entry.dropSig e :: Entry.dropSigs l
end
/-- the same for the inodes the hard links lead to -/
def starsDropSig (stars : Nat → Star) : Nat → Star := fun k => { stars k with node := (stars k).node.dropSig }

/-- options of the isolation: archive_options_isolate.  `delta`: get_delta_signature; `build`: get_has_delta_mask_been_set; `mask`: get_delta_mask;
`minSize`: get_delta_sig_min_size; `make`: the signature computed from the data of a file of the archive, its algorithm and its blocks size;
`label`: the generated label; `base`: the fields of the header depending on the options; `sl`: the slices of the isolated catalogue; `start`: what the
archive holds before the signatures; `term`: where its last header will be -/
structure IsoOpts where
  delta : Bool
  build : Bool
  mask : List Bytes → Bool
  minSize : Nat
  make : FileB → Res (SigMagic × Bytes × Nat)
  label : Bytes
  base : HdrBase
  sl : SliceHdr
  start : Bytes
  term : Nat

/-- cat_file::dump_delta_signature with a signature, src/libdar/cat_file.cpp:1283-1297 and cat_delta_signature::set_sig, cat_delta_signature.cpp:129-143 -/
def sigStore (bl : Nat) (sg : Bytes) (out : Bytes) : Res Bytes :=
  if sg = [] ∨ bl = 0 then .error .bug
  else do
    let b ← sigPut bl sg
    .ok (out ++ b)

/-- an existing signature is copied, src/libdar/catalogue.cpp:1139-1160 -/
def xferSig (data : Option Bytes) (d : DSig) (out : Bytes) : Res (DSig × Bytes) :=
  if d.size ≠ 0 then do
    let (bl, sg) ← sigFetch data d
    let out' ← sigStore bl sg out
    .ok ({ d with size := sg.length, offset := out.length }, out')
  else .ok ({ d with magic := .none, size := 0, offset := 0 }, out)
/-- a signature is added, src/libdar/catalogue.cpp:1176-1251 -/
def buildSig (o : IsoOpts) (st : SavedStatus) (f : FileB) (out : Bytes) : Res (FileB × Bytes) :=
  match st with
  | .saved => do
    let k ← need f.check
    let (m, sg, bl) ← o.make f
    let out' ← sigStore bl sg out
    .ok ({ f with base := some k, sig := some ⟨m, sg.length, out.length, some k⟩ }, out')
  | .fake => .ok (f, out)
  | .notSaved => .ok (f, out)
  | .delta => .ok (f, out)
  | .inodeOnly => .error .bug
/-- "build/transfer delta sig if they match size and mask criteria" -/
def IsoOpts.wants (o : IsoOpts) (p : List Bytes) (f : FileB) : Bool := o.mask p && decide (o.minSize ≤ f.size)
/-- the body of the loop of catalogue::transfer_delta_signatures for a file, src/libdar/catalogue.cpp:1121-1254 -/
def xferFile (o : IsoOpts) (data : Option Bytes) (p : List Bytes) (st : SavedStatus) (f : FileB) (out : Bytes) : Res (FileB × Bytes) :=
  match f.sig with
  | some d =>
    if !o.build || o.wants p f then do
      let (d', out') ← xferSig data d out
      .ok ({ f with sig := some d' }, out')
    else if st = .delta then .ok (f, out)
    else .ok ({ f with sig := none, base := none }, out)
  | none => if o.build && o.wants p f then buildSig o st f out else .ok (f, out)
def xferSpecial (o : IsoOpts) (data : Option Bytes) (p : List Bytes) (st : SavedStatus) (s : Special) (out : Bytes) : Res (Special × Bytes) :=
  match s with
  | .file f => do let (f', out') ← xferFile o data p st f out; .ok (.file f', out')
  | .door f => do let (f', out') ← xferFile o data p st f out; .ok (.door f', out')
  | s => .ok (s, out)
def xferNode (o : IsoOpts) (data : Option Bytes) (p : List Bytes) (n : Node) (out : Bytes) : Res (Node × Bytes) := do
  let (s, out') ← xferSpecial o data p n.status n.special out
  .ok ({ n with special := s }, out')
/-- what the loop updates: the bytes written, the labels of the inodes treated (set_inode_wrote), the hard linked inodes -/
structure XferSt where
  out : Bytes
  seen : List Nat
  stars : Nat → Star
/-- a hard link, src/libdar/catalogue.cpp:1109-1118 -/
def xferStar (o : IsoOpts) (data : Option Bytes) (p : List Bytes) (k : Nat) (s : XferSt) : Res XferSt :=
  if k ∈ s.seen then .ok s
  else do
    let (n, out') ← xferNode o data p (s.stars k).node s.out
    .ok ⟨out', k :: s.seen, fun j => if j = k then { s.stars k with node := n } else s.stars j⟩
mutual
/-- catalogue::transfer_delta_signatures, src/libdar/catalogue.cpp:1059-1290; `p`: the path of the directory -/
def xferEntry (o : IsoOpts) (data : Option Bytes) (p : List Bytes) (e : Entry) (s : XferSt) : Res (Entry × XferSt) :=
  match e with
  | .node n => do
    let (n', out') ← xferNode o data (p ++ [n.name]) n s.out
    .ok (.node n', { s with out := out' })
  | .dir name st i l => do
    let (l', s') ← xferEntries o data (p ++ [name]) l s
    .ok (.dir name st i l', s')
  | .mirage name k => do
    let s' ← xferStar o data (p ++ [name]) k s
    .ok (.mirage name k, s')
  | e => .ok (e, s)
def xferEntries (o : IsoOpts) (data : Option Bytes) (p : List Bytes) (l : List Entry) (s : XferSt) : Res (List Entry × XferSt) :=
  match l with
  | [] => .ok ([], s)
  | e :: l => do
    let (e', s') ← xferEntry o data p e s
    let (l', s'') ← xferEntries o data p l s'
    .ok (e' :: l', s'')
end

/-! ### isolation -/

/-- header_version::get_slice_header, src/libdar/header_version.cpp:110-119 -/
def Hdr.sliceHeader (h : Hdr) : Option SliceHdr := if h.base.onlyLayout then none else h.base.refHeader
/-- header_version::get_slice_layout, src/libdar/header_version.cpp:121-127 (the slice header, of which only the sizes are looked at) -/
def Hdr.layout (h : Hdr) : Option SliceHdr := h.base.refHeader

/-- ref_version, ref_second_term_offset and ref_slicing of op_isolate, src/libdar/i_archive.cpp:1663-1720 -/
def isoRef (a : IsoArc) : Res (SliceHdr × HdrBase × Nat) :=
  if a.ver.refVersion.isNone != a.ver.sliceHeader.isNone then .error .bug
  else
    let sl := a.ver.sliceHeader.getD a.sl
    match a.ver.refVersion with
    | some r => .ok (sl, r, a.ver.refOffset)
    | none => .ok (sl, a.ver.base, a.term)
/-- the header given to the isolated catalogue, src/libdar/macro_tools.cpp:1473-1520 -/
def isoHdr (o : IsoOpts) (r : SliceHdr × HdrBase × Nat) : Hdr := ⟨{ o.base with refHeader := some r.1, onlyLayout := false }, some r.2.1, r.2.2⟩
/-- the catalogue once its signatures have been transferred or dropped, src/libdar/i_archive.cpp:1775-1797: the catalogue, the hard linked inodes, what has been written -/
def isoCat (o : IsoOpts) (a : IsoArc) : Res (Cat × (Nat → Star) × Bytes) :=
  if o.delta then do
    let (l, s) ← xferEntries o a.sigs [] a.cat.children ⟨o.start, [], a.stars⟩
    .ok ({ a.cat with children := l }, s.stars, s.out)
  else .ok ({ a.cat with children := Entry.dropSigs a.cat.children }, starsDropSig a.stars, o.start)
/-- archive::i_archive::op_isolate, src/libdar/i_archive.cpp:1658-1841: the isolated catalogue and the archive object after the operation.  The label is
generated until it differs from the one of the data (1692-1696): an equal one stands for a generator that never stops. -/
def opIsolate (o : IsoOpts) (a : IsoArc) : Res (IsoFile × IsoArc) :=
  if !a.exploitable && o.delta then .error .range
  else if o.label = a.cat.label then .error .diverge
  else do
    let r ← isoRef a
    let h ← (isoHdr o r).write
    let (c, stars, out) ← isoCat o a
    let b ← c.dump stars
    .ok (⟨{ o.sl with iname := o.label, dname := o.label }, h, o.term, b, out⟩, { a with cat := c, stars := stars })

/-! ### opening -/

mutual
/-- the number of hard links to an inode -/
def Entry.linksTo (k : Nat) (e : Entry) : Nat :=
  match e with
  | .mirage _ j => if j = k then 1 else 0
  | .dir _ _ _ l => Entry.linksToL k l
  | _ => 0
def Entry.linksToL (k : Nat) (l : List Entry) : Nat :=
  match l with
  | [] => 0
  | e :: l => Entry.linksTo k e + Entry.linksToL k l
end
/-- the cat_etoile objects of a catalogue that has been read, src/libdar/cat_mirage.cpp:138-200: an inode has as many references as there are hard links to it -/
def starsOf (c : Corres) (l : List Entry) : Nat → Star := fun k =>
  ⟨(c.find k).getD ⟨[], .saved, ⟨0, 0, 0, ⟨0, .s⟩, ⟨0, .s⟩, ⟨0, .s⟩, .none, none, none, none, .none, none, none, none, none⟩, .pipe⟩,
    Entry.linksToL k l, false⟩

/-- header_version::read on a new object, at the end of the archive -/
def hdrOf (b : Bytes) : Res Hdr := match hdrRead (fun _ => true) b.length HdrBase.empty b with
  | .error e => .error e
  | .ok (h, _) => .ok h
/-- macro_tools_get_catalogue_from: the catalogue and its hard linked inodes -/
def catOf (ver : ArchVer) (dalgo : Compr) (b : Bytes) : Res (Cat × (Nat → Star)) := match catRead (fun _ => true) ver dalgo (2 * b.length) b with
  | .error e => .error e
  | .ok ((c, t), _) => .ok (c, starsOf t c.children)

/-- archive::i_archive::i_archive, src/libdar/i_archive.cpp:80-475, without external catalogue -/
def openArc (f : IsoFile) : Res IsoArc := do
  let h ← hdrOf f.hdr
  let (c, stars) ← catOf h.base.edition h.base.algo f.cat
  .ok ⟨f.sl, h, f.term, c, stars, some f.data, true⟩

/-- sar::check_header for a header that does not come from a slice, src/libdar/sar.cpp:1452-1475 -/
def externalOk (h : SliceHdr) : Res Unit := if h.old then .error .range else .ok ()
/-- ref_header, src/libdar/i_archive.cpp:157-178, then macro_tools_open_archive, src/libdar/macro_tools.cpp:437-515: the slice header, the archive header and the
position of its end used to read `f`; `ignoreHdr`: get_ignore_external_slice_header -/
def openLayers (f : IsoFile) (ref : Hdr) (ignoreHdr : Bool) : Res (SliceHdr × Hdr × Nat) :=
  match (if ignoreHdr then none else ref.sliceHeader), ref.refVersion with
  | some sl, some v => do
    externalOk sl
    .ok (sl, ⟨v, none, 0⟩, ref.refOffset)
  | _, _ => do
    let h ← hdrOf f.hdr
    .ok (f.sl, h, f.term)
/-- archive::i_archive::i_archive with the catalogue of `iso`, src/libdar/i_archive.cpp:110-313.  The signatures that remain lead to ref_stack, which is gone at
the end of the constructor. -/
def openWith (f iso : IsoFile) (ignoreHdr : Bool) : Res IsoArc := do
  let ref ← hdrOf iso.hdr
  let (sl, ver, term) ← openLayers f ref ignoreHdr
  let (c, stars) ← catOf ref.base.edition ver.base.algo iso.cat
  if sl.dname ≠ c.label then .error .range
  else .ok ⟨sl, ver, term, { c with children := Entry.dropSigs c.children }, starsDropSig stars, none, true⟩
/-- sar::check_header for the slices opened afterwards, src/libdar/sar.cpp:1530-1562, slice_header::check_same_slice_set (slice_header.cpp:355-358): a slice of another
set is refused (the user is asked for the right one) -/
def sliceTaken (a : IsoArc) (h : SliceHdr) : Bool := decide (a.sl.iname = h.iname)

/-- only_contains_an_isolated_catalogue, src/libdar/i_archive.cpp:2948-2951 -/
def onlyIsolated (a : IsoArc) : Bool := decide (a.sl.dname ≠ a.cat.label) && a.ver.base.edition.ge ⟨8, 0⟩
/-- check_against_isolation (lax false), src/libdar/i_archive.cpp:2953-2985, done before any restoration, comparison, test -/
def checkIsolation (a : IsoArc) : Res Unit := if onlyIsolated a then .error .range else .ok ()
/-- get_catalogue_slice_layout, src/libdar/i_archive.cpp:2041-2075; `none`: not known -/
def sliceLayoutOf (a : IsoArc) : Res (Option SliceHdr) :=
  if onlyIsolated a then
    match a.ver.layout with
    | some l => .ok (some l)
    | none => if a.ver.base.edition.ge ⟨9, 0⟩ then .error .bug else .ok none
  else .ok (some a.sl)

end Dar
