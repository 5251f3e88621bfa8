import Verif.Model.Headers
import Verif.Model.Criterium
import Verif.Model.Path
/- Model of the storage of the catalogue: src/libdar/cat_signature.cpp, cat_entree.cpp, cat_nomme.cpp, cat_inode.cpp, cat_file.cpp, cat_lien.cpp,
cat_device.cpp, cat_detruit.cpp, cat_directory.cpp, cat_mirage.cpp, cat_delta_signature.cpp and catalogue.cpp, for the current archive format (12,
that is what `dump` always writes) and outside the lax (repair) mode.  `small` is the in-line form of an entry (stored in front of its data,
behind a tape mark), the other form is the one found in the catalogue at the end of the archive.
Not modelled: the statistics updated while reading, the parent pointers, the search map `fils` of LIBDAR_FAST_DIR, `only_detruit`. -/
namespace Dar

/-- fsa_saved_status -/
inductive FsaSaved where | none | part | full
  deriving DecidableEq, Repr

/-- the code of cat_signature's constructor, src/libdar/cat_signature.cpp:36-65 -/
def SavedStatus.code : SavedStatus → Nat
  | .saved => 3 | .inodeOnly => 4 | .fake => 7 | .notSaved => 2 | .delta => 1
/-- cat_signature (constructor), src/libdar/cat_signature.cpp:36-65; `letter` is a lower case letter -/
def sigByte (letter : UInt8) (st : SavedStatus) : UInt8 := UInt8.ofNat (st.code * 32 + letter.toNat % 32)
/-- cat_signature::get_base_and_status, src/libdar/cat_signature.cpp:86-122 -/
def sigDecode (field : UInt8) : Option (UInt8 × SavedStatus) :=
  let base := UInt8.ofNat (field.toNat % 32 + 96)
  if 97 ≤ base ∧ base ≤ 122 then
    match field.toNat / 32 with
    | 1 => some (base, .delta)
    | 2 => some (base, .notSaved)
    | 3 => some (base, .saved)
    | 4 => some (base, .inodeOnly)
    | 7 => some (base, .fake)
    | _ => none
  else none

/-- cat_inode data members, src/libdar/cat_inode.hpp:300-330 (pointers are options) -/
structure InodeB where
  uid : Nat
  gid : Nat
  perm : Nat
  atime : DateT
  mtime : DateT
  ctime : DateT
  ea : EaStatus
  eaSize : Option Nat
  eaOffset : Option Nat
  eaCrc : Option Crc
  fsa : FsaSaved
  fsaFamilies : Option Nat
  fsaSize : Option Nat
  fsaOffset : Option Nat
  fsaCrc : Option Crc
  deriving DecidableEq

/-- INODE_FLAG_*, src/libdar/cat_inode.cpp:63-78 -/
def EaStatus.flag : EaStatus → UInt8
  | .full => 1 | .part => 2 | .none => 3 | .fake => 4 | .removed => 5
def FsaSaved.flag : FsaSaved → UInt8
  | .none => 0 | .part => 8 | .full => 16
def eaOfFlag (flag : UInt8) : Option EaStatus :=
  let b := flag &&& 7
  if b = 1 then some .full else if b = 2 then some .part else if b = 3 then some .none else if b = 4 then some .fake
  else if b = 5 then some .removed else none
def fsaOfFlag (flag : UInt8) : Option FsaSaved :=
  let b := flag &&& 24
  if b = 0 then some .none else if b = 8 then some .part else if b = 16 then some .full else none

/-- `if(ptr == nullptr) throw SRC_BUG` -/
def need {α : Type} : Option α → Res α
  | some a => .ok a
  | none => .error .bug

/-- cat_inode::inherited_dump, EA part, src/libdar/cat_inode.cpp:591-616; an unknown EA size is written as zero (ea_get_size, 838-857) -/
def InodeB.eaBytes (small : Bool) (i : InodeB) : Res Bytes :=
  if i.ea = .full then
    if small then .ok (putInt (i.eaSize.getD 0))
    else do
      let o ← need i.eaOffset
      let c ← need i.eaCrc
      .ok (putInt (i.eaSize.getD 0) ++ putInt o ++ c.dump)
  else .ok []
/-- cat_inode::inherited_dump, FSA part, src/libdar/cat_inode.cpp:618-652 -/
def InodeB.fsaBytes (small : Bool) (i : InodeB) : Res Bytes :=
  match i.fsa with
  | .none => .ok []
  | .part => (need i.fsaFamilies).map putInt
  | .full => do
    let fam ← need i.fsaFamilies
    let size ← need i.fsaSize
    if small then .ok (putInt fam ++ putInt size)
    else do
      let o ← need i.fsaOffset
      let c ← need i.fsaCrc
      .ok (putInt fam ++ putInt size ++ putInt o ++ c.dump)
/-- cat_inode::inherited_dump without the cat_nomme part, src/libdar/cat_inode.cpp:526-652 -/
def InodeB.dump (small : Bool) (i : InodeB) : Res Bytes := do
  let a ← i.atime.dump
  let m ← i.mtime.dump
  let c ← i.ctime.dump
  let e ← i.eaBytes small
  let f ← i.fsaBytes small
  .ok ([i.ea.flag ||| i.fsa.flag] ++ putInt i.uid ++ putInt i.gid ++ putNum i.perm ++ a ++ m ++ c ++ e ++ f)

/-- a byte read without looking whether there was one: the variable is left uninitialised at the end of the file -/
def readRaw : Reader UInt8 := fun s => match s with | [] => .error .ub | b :: r => .ok (b, r)
/-- the same when the variable has been set to zero before -/
def readOr0 : Reader UInt8 := fun s => match s with | [] => .ok (0, []) | b :: r => .ok (b, r)
/-- an optional part -/
def optRead {α : Type} (b : Bool) (r : Reader α) : Reader (Option α) := if b then do let a ← r; pure (some a) else pure none
/-- `default: throw Erange` -/
def orRange {α : Type} : Option α → Reader α
  | some a => pure a
  | none => Reader.fail .range

/-- cat_inode::cat_inode (reading constructor, format 9 and after), src/libdar/cat_inode.cpp:121-330 without the cat_nomme part -/
def inodeRead (fits : Nat → Bool) (ver : ArchVer) (small : Bool) : Reader InodeB := do
  let flag ← readRaw
  let ea ← orRange (eaOfFlag flag)
  let uid ← getInt
  let gid ← getInt
  let perm ← getNum
  let a ← dateRead fits ver
  let m ← dateRead fits ver
  let c ← dateRead fits ver
  let eaSize ← optRead (ea = .full) getInt
  let eaOffset ← optRead (ea = .full && !small) getInt
  let eaCrc ← optRead (ea = .full && !small) (crcRead false)
  let fsa ← orRange (fsaOfFlag flag)
  let fam ← optRead (fsa ≠ .none) getInt
  let fsaSize ← optRead (fsa = .full) getInt
  let fsaOffset ← optRead (fsa = .full && !small) getInt
  let fsaCrc ← optRead (fsa = .full && !small) (crcRead false)
  pure ⟨uid, gid, perm, a, m, c, ea, eaSize, eaOffset, eaCrc, fsa, fam, fsaSize, fsaOffset, fsaCrc⟩

/-- rsync_sig_magic, src/libdar/archive_aux.hpp -/
inductive SigMagic where | none | md4 | blake2 | rkBlake2
  deriving DecidableEq, Repr
/-- rsync_sig_magic_to_char, src/libdar/archive_aux.cpp:228-243 -/
def SigMagic.char : SigMagic → UInt8
  | .none => 110 | .md4 => 52 | .blake2 => 66 | .rkBlake2 => 82
/-- char_to_rsync_sig_magic, src/libdar/archive_aux.cpp:245-262 -/
def charMagic (c : UInt8) : Res SigMagic :=
  if c = 110 then .ok .none else if c = 52 then .ok .md4 else if c = 66 then .ok .blake2 else if c = 82 then .ok .rkBlake2 else .error .range

/-- the metadata of cat_delta_signature, src/libdar/cat_delta_signature.hpp -/
structure DSig where
  magic : SigMagic
  size : Nat
  offset : Nat
  result : Option Crc
  deriving DecidableEq
/-- cat_delta_signature::init, src/libdar/cat_delta_signature.cpp:246-258: what a structure not yet read holds -/
def DSig.pending : DSig := ⟨.none, 0, 0, none⟩
/-- cat_delta_signature::dump_metadata, src/libdar/cat_delta_signature.cpp:197-208 -/
def DSig.dump (d : DSig) : Res Bytes := do
  let c ← need d.result
  .ok ([d.magic.char] ++ putInt d.size ++ (if d.size ≠ 0 then putInt d.offset else []) ++ c.dump)
/-- cat_delta_signature::read (sequential_read false, format 12), src/libdar/cat_delta_signature.cpp:50-101 -/
def dsigRead : Reader DSig := do
  let t ← readRaw
  let m ← Reader.lift (charMagic t)
  let n ← getInt
  let o ← (if n ≠ 0 then getInt else pure 0)
  let c ← crcRead false
  pure ⟨m, n, o, some c⟩

/-- cat_file data members that go through the catalogue, src/libdar/cat_file.hpp:266-300 -/
structure FileB where
  size : Nat
  offset : Nat
  storage : Nat
  stRead : UInt8
  stWrite : UInt8
  dirty : Bool
  algo : Compr
  base : Option Crc
  check : Option Crc
  sig : Option DSig
  deriving DecidableEq

/-- `flags` of cat_file::inherited_dump, src/libdar/cat_file.cpp:408-421 -/
def FileB.flags (f : FileB) : UInt8 := (if f.sig.isSome then 4 else 0) ||| f.stWrite ||| (if f.dirty then 2 else 0)
/-- get_saved_status() == saved || delta -/
def SavedStatus.hasData (st : SavedStatus) : Bool := st = .saved ∨ st = .delta
/-- the part of cat_file::inherited_dump that follows the flags and the compression letter: src/libdar/cat_file.cpp:443-448 and 475-480 -/
def FileB.baseBytes (st : SavedStatus) (f : FileB) : Res Bytes :=
  if st = .delta then (need f.base).map (·.dump) else .ok []
/-- src/libdar/cat_file.cpp:453-462 -/
def FileB.checkBytes (st : SavedStatus) (f : FileB) : Res Bytes :=
  if st.hasData then (need f.check).map (·.dump) else .ok []
/-- src/libdar/cat_file.cpp:464-465 -/
def FileB.sigBytes (f : FileB) : Res Bytes :=
  match f.sig with
  | none => .ok []
  | some d => d.dump
/-- cat_file::inherited_dump after the cat_inode part, src/libdar/cat_file.cpp:405-487 -/
def FileB.dump (small : Bool) (st : SavedStatus) (f : FileB) : Res Bytes := do
  let b ← f.baseBytes st
  if small then
    .ok (putInt f.size ++ (if st.hasData then [f.flags, f.algo.char] ++ b else [f.flags]))
  else do
    let c ← f.checkBytes st
    let g ← f.sigBytes
    .ok (putInt f.size ++ (if st.hasData then putInt f.offset ++ putInt f.storage ++ [f.flags, f.algo.char] ++ b else [f.flags]) ++ c ++ g)

/-- the flags and compression letter of an entry having data, followed by the checksum of the base of the patch:
src/libdar/cat_file.cpp:160-184 and 269-287.  The result: flags without the delta signature bit, compression, whether there is a delta signature
structure, the checksum.  In the catalogue the dirty bit is removed by the caller. -/
def fileFlags (st : SavedStatus) : Reader (UInt8 × Compr × Bool × Option Crc) := do
  let fl ← readOr0
  let t ← readRaw
  let a ← Reader.lift (charCompr t)
  let sig := decide (fl &&& 4 ≠ 0)
  let b ← optRead (sig && st = .delta) (crcRead false)
  pure (fl &&& 251, a, sig, b)

/-- cat_file::cat_file (reading constructor, format 11.2 and after) after the cat_inode part, src/libdar/cat_file.cpp:107-331 -/
def fileRead (small : Bool) (st : SavedStatus) (dalgo : Compr) : Reader FileB := do
  let size ← getInt
  if small then
    if st.hasData then do
      let (fl, a, sig, b) ← fileFlags st
      pure ⟨size, 0, 0, fl, fl, false, a, b, none, if sig then some DSig.pending else none⟩
    else do
      let fl ← readOr0
      pure ⟨size, 0, 0, fl &&& 251, fl &&& 251, false, dalgo, none, none, if fl &&& 4 ≠ 0 then some DSig.pending else none⟩
  else
    if st.hasData then do
      let o ← getInt
      let s ← getInt
      let (fl, a, sig, b) ← fileFlags st
      let c ← crcRead false
      let g ← optRead sig dsigRead
      pure ⟨size, o, s, fl &&& 253, fl &&& 253, decide (fl &&& 2 ≠ 0), a, b, some c, g⟩
    else do
      let fl ← readOr0
      let g ← optRead (fl &&& 4 ≠ 0) dsigRead
      pure ⟨size, 0, 0, fl &&& 251, 0, false, dalgo, none, none, g⟩

/-- what is specific to each type of inode: cat_file, cat_door (a cat_file), cat_lien, cat_chardev, cat_blockdev, cat_tube, cat_prise -/
inductive Special where
  | file (f : FileB)
  | door (f : FileB)
  | link (target : Bytes)
  | chardev (major minor : Nat)
  | blockdev (major minor : Nat)
  | pipe
  | socket
  deriving DecidableEq

/-- signature(), one letter for each class -/
def Special.letter : Special → UInt8
  | .file _ => 102 | .door _ => 111 | .link _ => 108 | .chardev _ _ => 99 | .blockdev _ _ => 98 | .pipe => 112 | .socket => 115

/-- cat_lien::inherited_dump (cat_lien.cpp:104-118), cat_device::inherited_dump (cat_device.cpp:140-162), cat_file::inherited_dump -/
def Special.dump (small : Bool) (st : SavedStatus) : Special → Res Bytes
  | .file f => f.dump small st
  | .door f => f.dump small st
  | .link t => .ok (if st = .saved then putStr t else [])
  | .chardev a b => .ok (if st = .saved then putNum a ++ putNum b else [])
  | .blockdev a b => .ok (if st = .saved then putNum a ++ putNum b else [])
  | .pipe => .ok []
  | .socket => .ok []

/-- an inode that is not a directory -/
structure Node where
  name : Bytes
  status : SavedStatus
  inode : InodeB
  special : Special
  deriving DecidableEq

/-- cat_nomme::inherited_dump, src/libdar/cat_nomme.cpp:61-70 and cat_entree::inherited_dump, src/libdar/cat_entree.cpp:441-450 -/
def nommeBytes (letter : UInt8) (st : SavedStatus) (name : Bytes) : Bytes := [sigByte letter st] ++ putStr name

/-- inherited_dump of an inode -/
def Node.dump (small : Bool) (n : Node) : Res Bytes := do
  let i ← n.inode.dump small
  let s ← n.special.dump small n.status
  .ok (nommeBytes n.special.letter n.status n.name ++ i ++ s)

/-- cat_device::cat_device, src/libdar/cat_device.cpp:81-107 -/
def deviceRead (st : SavedStatus) (k : Nat → Nat → Special) : Reader Special :=
  if st = .saved then do
    let a ← getNum
    let b ← getNum
    pure (k a b)
  else pure (k 0 0)
/-- the reading constructors after the cat_inode part; `none`: not the letter of an inode (other than a directory) -/
def specialRead (small : Bool) (st : SavedStatus) (dalgo : Compr) (letter : UInt8) : Option (Reader Special) :=
  if letter = 102 then some (do let f ← fileRead small st dalgo; pure (.file f))
  else if letter = 111 then some (do let f ← fileRead small st dalgo; pure (.door f))
  else if letter = 108 then some (if st = .saved then do let t ← getStr; pure (.link t) else pure (.link []))
  else if letter = 99 then some (deviceRead st .chardev)
  else if letter = 98 then some (deviceRead st .blockdev)
  else if letter = 112 then some (pure .pipe)
  else if letter = 115 then some (pure .socket)
  else none

/-- the contents of a directory: cat_nomme objects.  A mirage is a name and the label (etiquette) of the hard linked inode it leads to; the inodes
are in a separate table. -/
inductive Entry where
  | node (n : Node)
  | dir (name : Bytes) (status : SavedStatus) (inode : InodeB) (children : List Entry)
  | detruit (name : Bytes) (signe : UInt8) (date : DateT)
  | mirage (name : Bytes) (etiquette : Nat)
  | ignored (name : Bytes)

/-- cat_etoile, src/libdar/cat_etoile.hpp: the inode, the number of mirages leading to it, and `tags.reduceable = 0` -/
structure Star where
  node : Node
  refs : Nat
  keep : Bool

/-- cat_eod::inherited_dump -/
def eodBytes : Bytes := [sigByte 122 .saved]

/-- cat_mirage::inherited_dump, src/libdar/cat_mirage.cpp:316-349.  `seen`: the labels whose inode has been written (`tags.dumped` in the
catalogue, `tags.wrote` for the in-line form, the latter being updated by the caller). -/
def mirageDump (stars : Nat → Star) (small : Bool) (seen : List Nat) (name : Bytes) (k : Nat) : Res (Bytes × List Nat) :=
  let s := stars k
  if s.refs > 1 ∨ s.keep then
    let start := nommeBytes 109 .saved name ++ putInt k
    if k ∈ seen then .ok (start ++ [88], seen)
    else do
      let i ← s.node.dump small
      .ok (start ++ [62] ++ i, if small then seen else k :: seen)
  else do
    let i ← Node.dump small { s.node with name := name }
    .ok (i, seen)

mutual
/-- specific_dump of an entry: src/libdar/cat_directory.cpp:248-276, cat_detruit.cpp:69-84, cat_mirage.cpp:316-349.  cat_ignored objects are
only skipped by cat_directory; they cannot be dumped (cat_ignored.hpp:62, SRC_BUG). -/
def Entry.dump (stars : Nat → Star) (small : Bool) (seen : List Nat) (e : Entry) : Res (Bytes × List Nat) :=
  match e with
  | .node n => do let b ← n.dump small; .ok (b, seen)
  | .dir name st i children => do
    let b ← i.dump small
    let (l, seen) ← (if small then .ok ([], seen) else Entry.dumpList stars seen children)
    .ok (nommeBytes 100 st name ++ b ++ l ++ eodBytes, seen)
  | .detruit name signe date => do
    let d ← date.dump
    .ok (nommeBytes 120 .saved name ++ [signe] ++ d, seen)
  | .mirage name k => mirageDump stars small seen name k
  | .ignored _ => .error .bug
/-- the loop of cat_directory::inherited_dump, src/libdar/cat_directory.cpp:255-267 -/
def Entry.dumpList (stars : Nat → Star) (seen : List Nat) (l : List Entry) : Res (Bytes × List Nat) :=
  match l with
  | [] => .ok ([], seen)
  | .ignored _ :: l => Entry.dumpList stars seen l
  | e :: l => do
    let (b, seen) ← Entry.dump stars false seen e
    let (bs, seen) ← Entry.dumpList stars seen l
    .ok (b ++ bs, seen)
end

/-- `corres`: the hard linked inodes read so far, by label -/
abbrev Corres := List (Nat × Node)
def Corres.find (c : Corres) (k : Nat) : Option Node := List.lookup k c

/-- what cat_entree::read returns: an end of directory or an object with a name -/
inductive Item where
  | eod
  | entry (e : Entry)

/-- the end of cat_mirage::init with the flag MIRAGE_WITH_INODE once the inode is read, src/libdar/cat_mirage.cpp:177-232 -/
def mirageBind (name : Bytes) (k : Nat) (it : Item) (c : Corres) : Res (Item × Corres) :=
  match it with
  | .entry (.node n) => match c.find k with
    | none => .ok (.entry (.mirage name k), (k, n) :: c)
    | some _ => .error .range
  | _ => .error .range
/-- MIRAGE_ALONE, src/libdar/cat_mirage.cpp:137-150 -/
def mirageAlone (name : Bytes) (k : Nat) (c : Corres) : Res (Item × Corres) :=
  match c.find k with
  | none => .error .range
  | some _ => .ok (.entry (.mirage name k), c)

/-- cat_nomme::cat_nomme then the cat_inode and specific constructors -/
def nodeRead (fits : Nat → Bool) (ver : ArchVer) (small : Bool) (st : SavedStatus) (sp : Reader Special) : Reader Node := do
  let name ← getStr
  let i ← inodeRead fits ver small
  let s ← sp
  pure ⟨name, st, i, s⟩

/-- 'h' and 'e', hard links of the old formats, src/libdar/cat_entree.cpp:118-123 and cat_mirage.cpp:104-165 (still accepted) -/
def oldMirageRead (fits : Nat → Bool) (ver : ArchVer) (small : Bool) (st : SavedStatus) (dalgo : Compr) (letter : UInt8) (c : Corres) :
    Reader (Item × Corres) :=
  if letter = 104 then do
    let name ← getStr
    let k ← getInt
    Reader.lift (mirageAlone name k c)
  else do
    let n ← nodeRead fits ver small st (do let f ← fileRead small st dalgo; pure (.file f))
    let k ← getInt
    Reader.lift (mirageBind n.name k (.entry (.node { n with name := [] })) c)

/-- cat_signature::cat_signature(generic_file &) then get_base_and_status, src/libdar/cat_entree.cpp:77-95: every failure gives the letter ' ' -/
def sigRead : Reader (Option (UInt8 × SavedStatus)) := fun s =>
  match s with
  | [] => .ok (none, [])
  | b :: r => .ok (sigDecode b, r)

/-- 'x': cat_detruit, src/libdar/cat_entree.cpp:134-143 and cat_detruit.cpp:33-52 -/
def detruitRead (fits : Nat → Bool) (ver : ArchVer) (st : SavedStatus) (c : Corres) : Reader (Item × Corres) :=
  if st ≠ .saved then Reader.fail .range
  else do
    let name ← getStr
    let b ← readByte
    let d ← dateRead fits ver
    pure (.entry (.detruit name b d), c)

mutual
/-- cat_entree::read without the checksum, src/libdar/cat_entree.cpp:46-163.  A null result (unknown signature, end of file) is Erange for each of
the callers outside lax mode: src/libdar/cat_directory.cpp:207-209, cat_mirage.cpp:168-177 -/
def entryRead (fits : Nat → Bool) (ver : ArchVer) (small : Bool) (dalgo : Compr) (fuel : Nat) (c : Corres) : Reader (Item × Corres) :=
  match fuel with
  | 0 => Reader.fail .diverge
  | fuel + 1 => do
    let sg ← sigRead
    match sg with
    | none => Reader.fail .range
    | some (letter, st) =>
      match specialRead small st dalgo letter with
      | some sp => do
        let n ← nodeRead fits ver small st sp
        pure (.entry (.node n), c)
      | none =>
        if letter = 100 then do
          let name ← getStr
          let i ← inodeRead fits ver small
          let (l, c) ← entriesRead fits ver small dalgo fuel c
          pure (.entry (.dir name st i l), c)
        else if letter = 109 then do
          let name ← getStr
          let k ← getInt
          let fl ← readRaw
          if fl = 88 then Reader.lift (mirageAlone name k c)
          else if fl = 62 then do
            let (it, c) ← entryRead fits ver small dalgo fuel c
            Reader.lift (mirageBind name k it c)
          else Reader.fail .range
        else if letter = 104 ∨ letter = 101 then oldMirageRead fits ver small st dalgo letter c
        else if letter = 122 then (if st ≠ .saved then Reader.fail .range else pure (.eod, c))
        else if letter = 120 then detruitRead fits ver st c
        else Reader.fail .range
/-- the loop of cat_directory::cat_directory, src/libdar/cat_directory.cpp:148-217 -/
def entriesRead (fits : Nat → Bool) (ver : ArchVer) (small : Bool) (dalgo : Compr) (fuel : Nat) (c : Corres) : Reader (List Entry × Corres) :=
  match fuel with
  | 0 => Reader.fail .diverge
  | fuel + 1 => do
    let (it, c) ← entryRead fits ver small dalgo fuel c
    match it with
    | .eod => pure ([], c)
    | .entry e => do
      let (l, c) ← entriesRead fits ver small dalgo fuel c
      pure (e :: l, c)
end

/-- cat_entree::dump with small set, src/libdar/cat_entree.cpp:262-305: the entry followed by its checksum (2 bytes wide) -/
def Entry.dumpInline (stars : Nat → Star) (seen : List Nat) (e : Entry) : Res Bytes := do
  let (b, _) ← e.dump stars true seen
  let c ← headerCrc b
  .ok (b ++ c.dump)

/-- comparison of the checksum read with the calculated one -/
def crcMatch (ctrl : Res Crc) : Reader Unit := fun s =>
  match crcRead false s with
  | .error e => .error e
  | .ok (rd, s') => match ctrl with
    | .error e => .error e
    | .ok k => match rd.eqv k with
      | .error e => .error e
      | .ok true => .ok ((), s')
      | .ok false => .error .range
/-- cat_entree::read with small set, src/libdar/cat_entree.cpp:46-228, without the call to post_constructor which reads what follows -/
def entryReadInline (fits : Nat → Bool) (ver : ArchVer) (dalgo : Compr) (fuel : Nat) (c : Corres) : Reader (Item × Corres) := fun s =>
  match entryRead fits ver true dalgo fuel c s with
  | .error e => .error e
  | .ok (r, s') => match crcMatch (headerCrc (s.take (s.length - s'.length))) s' with
    | .error e => .error e
    | .ok (_, s'') => .ok (r, s'')

/-- class catalogue, src/libdar/catalogue.hpp:290-320 (what is stored) -/
structure Cat where
  label : Bytes
  inPlace : PathT
  status : SavedStatus
  inode : InodeB
  name : Bytes
  children : List Entry

/-- reset_crc(CAT_CRC_SIZE) ... get_crc(), src/libdar/catalogue.cpp:1031-1046 -/
def catCrc (b : Bytes) : Res Crc := do
  let c ← crcCreate 4
  c.compute 0 b
/-- what catalogue::dump writes before the checksum, after reset_dump (macro_tools.cpp:1798), src/libdar/catalogue.cpp:1013-1046 -/
def Cat.body (stars : Nat → Star) (c : Cat) : Res Bytes := do
  let (b, _) ← Entry.dump stars false [] (.dir c.name c.status c.inode c.children)
  .ok (c.label ++ putStr c.inPlace.display ++ b)
/-- catalogue::dump, src/libdar/catalogue.cpp:1013-1056 -/
def Cat.dump (stars : Nat → Star) (c : Cat) : Res Bytes := do
  let b ← c.body stars
  let k ← catCrc b
  .ok (b ++ k.dump)

/-- the reading of the in_place path, src/libdar/catalogue.cpp:156-180: a relative path must be "." -/
def inPlaceRead : Reader PathT := do
  let t ← getStr
  let p ← Reader.lift (match pathOf t false with
    | .ok p => .ok p
    | .error .range => pathOf t true
    | .error e => .error e)
  if p.relative ∧ t ≠ pDot then Reader.fail .range else pure p
/-- the signature of the root directory, src/libdar/catalogue.cpp:192-197 -/
def rootSig : Reader SavedStatus := do
  let sg ← sigRead
  match sg with
  | none => Reader.fail .range
  | some (letter, st) => if letter ≠ 100 then Reader.fail .range else pure st
/-- catalogue::catalogue (reading constructor, format 11.1 and after) without the checksum, src/libdar/catalogue.cpp:116-214 -/
def catReadBody (fits : Nat → Bool) (ver : ArchVer) (dalgo : Compr) (fuel : Nat) : Reader (Cat × Corres) := do
  let label ← readExact LABEL_SIZE
  let p ← inPlaceRead
  let st ← rootSig
  let name ← getStr
  let i ← inodeRead fits ver false
  let (l, c) ← entriesRead fits ver false dalgo fuel []
  pure (⟨label, p, st, i, name, l⟩, c)
/-- catalogue::catalogue, src/libdar/catalogue.cpp:116-264 -/
def catRead (fits : Nat → Bool) (ver : ArchVer) (dalgo : Compr) (fuel : Nat) : Reader (Cat × Corres) := fun s =>
  match catReadBody fits ver dalgo fuel s with
  | .error e => .error e
  | .ok (r, s') => match crcMatch (catCrc (s.take (s.length - s'.length))) s' with
    | .error e => .error e
    | .ok (_, s'') => .ok (r, s'')

end Dar
