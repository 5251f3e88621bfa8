import Verif.Model.Tlv
import Verif.Model.Database
/- Model of src/libdar/header_flags.cpp, slice_header.cpp and header_version.cpp.
The lax mode (repair mode, which asks questions to the user) is not modelled: `lax_mode` is false. -/
namespace Dar

/-! ### header_flags -/

/-- header_flags::has_an_lsb_set, src/libdar/header_flags.cpp:99-108 (U_I has 8 bytes: 8 turns) -/
def hasLsb : Nat → Nat → Bool
  | 0, _ => false
  | k + 1, b => if b > 0 then (if b &&& 1 > 0 then true else hasLsb k (b >>> 8)) else false
/-- header_flags::set_bits, src/libdar/header_flags.cpp:36-41 -/
def setBits (bits bf : Nat) : Res Nat := if hasLsb 8 bf then .error .bug else .ok (bits ||| bf)
/-- header_flags::is_set, src/libdar/header_flags.cpp:50-55 -/
def isSet (bits bf : Nat) : Res Bool := if hasLsb 8 bf then .error .bug else .ok (bits &&& bf == bf)

/-- first loop of header_flags::dump, src/libdar/header_flags.cpp:84-88, `bit_size = 8 * k`; `0x01 << bit_size` is
undefined from 31 bits on (type int). -/
def flagWiden : Nat → Nat → Nat → Res (Nat × Nat)
  | 0, bf, k => .ok (bf, k)
  | fuel + 1, bf, k =>
    if bf >>> (8 * k) > 0 then
      if 8 * k ≥ 31 then .error .ub else flagWiden fuel (bf ||| (1 <<< (8 * k))) (k + 1)
    else .ok (bf, k)
/-- second loop, src/libdar/header_flags.cpp:92-98 -/
def flagOut (bf : Nat) : Nat → Bytes
  | 0 => []
  | k + 1 => UInt8.ofNat ((bf >>> (8 * k)) &&& 255) :: flagOut bf k
/-- header_flags::dump, src/libdar/header_flags.cpp:77-98 -/
def flagsDump (bits : Nat) : Res Bytes :=
  match flagWiden 8 bits 1 with
  | .error e => .error e
  | .ok (bf, k) => .ok (flagOut bf k)
/-- loop of header_flags::read, src/libdar/header_flags.cpp:57-75, U_I of 64 bits -/
def flagReadLoop : Nat → Nat → Bytes → Res (Nat × Bytes)
  | 0, _, _ => .error .diverge
  | fuel + 1, bits, s =>
    match s with
    | [] => .error .range
    | a :: s =>
      if ((bits <<< 8) % 2 ^ 64) >>> 8 = bits then
        let bits := (bits <<< 8) ||| (a.toNat &&& 254)
        if a.toNat &&& 1 > 0 then flagReadLoop fuel bits s else .ok (bits, s)
      else .error .range
def flagsRead : Reader Nat := fun s => flagReadLoop (s.length + 1) 0 s

/-! ### slice_header -/

/-- class slice_header, src/libdar/slice_header.hpp and slice_layout.hpp (`sly`); labels are 10 bytes -/
structure SliceHdr where
  magic : Nat
  iname : Bytes
  dname : Bytes
  flag : UInt8
  firstSize : Nat
  otherSize : Nat
  firstHdr : Nat
  otherHdr : Nat
  old : Bool
  deriving DecidableEq, Repr

/-- label::LABEL_SIZE, src/libdar/label.hpp:75 -/
def LABEL_SIZE : Nat := 10
/-- SAUV_MAGIC_NUMBER, src/libdar/slice_header.hpp:46 -/
def SAUV_MAGIC : Nat := 123
/-- slice_header::min_size, src/libdar/slice_header.hpp:130 -/
def sliceMin : Nat := 4 + LABEL_SIZE + 2
/-- label::is_cleared, src/libdar/label.cpp:66-73 -/
def labelCleared (l : Bytes) : Bool := l.all (· == 0)

/-- htonl -/
def be32 (n : Nat) : Bytes := [UInt8.ofNat (n / 2 ^ 24), UInt8.ofNat (n / 2 ^ 16 % 256), UInt8.ofNat (n / 2 ^ 8 % 256), UInt8.ofNat (n % 256)]
/-- ntohl -/
def of32 (l : Bytes) : Nat := (l.getD 0 0).toNat * 2 ^ 24 + (l.getD 1 0).toNat * 2 ^ 16 + (l.getD 2 0).toNat * 2 ^ 8 + (l.getD 3 0).toNat

/-- slice_header::build_tlv_list, src/libdar/slice_header.cpp:389-436 -/
def SliceHdr.tlvs (h : SliceHdr) (withSize : Bool) : Res (List Tlv) :=
  if withSize ∧ (h.otherHdr = 0 ∨ h.firstHdr = 0) then .error .bug
  else .ok ((if h.firstSize = 0 then [] else [⟨2, putInt h.firstSize⟩]) ++ (if h.otherSize = 0 then [] else [⟨1, putInt h.otherSize⟩])
    ++ (if withSize then [⟨4, putInt h.firstHdr ++ putInt h.otherHdr⟩] else []) ++ [⟨3, h.dname⟩])

/-- The bytes written by slice_header::write, src/libdar/slice_header.cpp:236-288 -/
def SliceHdr.bytes (h : SliceHdr) (asFirst withSize : Bool) : Res Bytes :=
  if withSize ∧ ¬ asFirst then .error .bug
  else
    let start := be32 h.magic ++ h.iname ++ [h.flag]
    if h.old then
      if h.firstSize ≠ h.otherSize ∧ asFirst then .ok (start ++ [83] ++ putInt h.otherSize) else .ok (start ++ [78])
    else match h.tlvs withSize with
      | .error e => .error e
      | .ok l => .ok (start ++ [84] ++ tlvsDump l)

/-- slice_header::write, src/libdar/slice_header.cpp:236-322, in a file whose position is `pos`: the bytes and the object
afterwards (the header sizes are recorded the first time) -/
def SliceHdr.write (h : SliceHdr) (pos : Nat) (asFirst withSize : Bool) : Res (Bytes × SliceHdr) :=
  match h.bytes asFirst withSize with
  | .error e => .error e
  | .ok b =>
    if ¬ withSize ∧ h.firstHdr = 0 ∧ h.otherHdr = 0 then
      let fh := pos + b.length
      let oh := if h.old then sliceMin else fh
      if fh < sliceMin then .error .bug
      else if h.firstSize ≠ 0 ∧ fh ≥ h.firstSize then .error .bug
      else if h.otherSize ≠ 0 ∧ oh ≥ h.otherSize then .error .bug
      else .ok (b, { h with firstHdr := fh, otherHdr := oh })
    else .ok (b, h)

/-- an integer read at the beginning of the content of a record -/
def intIn (v : Bytes) : Res Nat := match getInt v with | .error e => .error e | .ok (n, _) => .ok n
/-- two integers -/
def intsIn (v : Bytes) : Res (Nat × Nat) :=
  match getInt v with
  | .error e => .error e
  | .ok (n, s) => match getInt s with
    | .error e => .error e
    | .ok (m, _) => .ok (n, m)
/-- one turn of slice_header::fill_from, src/libdar/slice_header.cpp:350-386; `goOn`: whether the user accepts to ignore an
unknown record of that type (otherwise Euser_abort) -/
def fillOne (goOn : Nat → Bool) (h : SliceHdr) (t : Tlv) : Res SliceHdr :=
  if t.type = 2 then (intIn t.value).map fun n => { h with firstSize := n }
  else if t.type = 1 then (intIn t.value).map fun n => { h with otherSize := n }
  else if t.type = 3 then (if t.value.length < LABEL_SIZE then .error .range else .ok { h with dname := t.value.take LABEL_SIZE })
  else if t.type = 4 then
    match intsIn t.value with
    | .error e => .error e
    | .ok (n, m) => if n = 0 ∨ m = 0 then .error .range else .ok { h with firstHdr := n, otherHdr := m }
  else if goOn t.type then .ok h else .error .userAbort
/-- slice_header::fill_from, src/libdar/slice_header.cpp:340-387 -/
def fillFrom (goOn : Nat → Bool) (h : SliceHdr) : List Tlv → Res SliceHdr
  | [] => .ok h
  | t :: l => match fillOne goOn h t with
    | .error e => .error e
    | .ok h => fillFrom goOn h l

/-- case extension_tlv of slice_header::read after the reading of the records, src/libdar/slice_header.cpp:170-222; `fic`: the size of
the file when it is a fichier_global, `pos`: position of the file -/
def sliceFinish (fic : Option Nat) (pos : Nat) (h : SliceHdr) : Res SliceHdr :=
  let r : Res SliceHdr :=
    if h.otherHdr = 0 then
      if pos ≤ sliceMin then .error .range
      else
        let fh := if h.firstHdr = 0 then pos else h.firstHdr
        if fh ≠ pos then .error .bug
        else .ok { h with otherHdr := pos, firstHdr := fh, otherSize := if h.otherSize = 0 then fic.getD 0 else h.otherSize }
    else .ok h
  match r with
  | .error e => .error e
  | .ok h =>
    let h := { h with firstSize := if h.firstSize = 0 then h.otherSize else h.firstSize, old := false }
    if h.firstSize ≠ 0 ∧ h.firstSize ≤ h.firstHdr then .error .range
    else if h.otherSize ≠ 0 ∧ h.otherSize ≤ h.otherHdr then .error .range
    else .ok h

/-- cases extension_none and extension_size, src/libdar/slice_header.cpp:116-168 (`size`: the integer read for extension_size) -/
def sliceOld (fic : Option Nat) (pos : Nat) (size : Option Nat) (h : SliceHdr) : Res SliceHdr :=
  match size, fic with
  | none, some n => if n ≤ sliceMin then .error .range
      else .ok { h with otherSize := n, firstSize := n, otherHdr := sliceMin, firstHdr := sliceMin, old := true }
  | none, none => .ok { h with otherSize := 0, firstSize := 0, otherHdr := sliceMin, firstHdr := sliceMin, old := true }
  | some o, some n => if o ≤ sliceMin then .error .range else if n ≤ sliceMin then .error .range
      else if pos < sliceMin then .error .range
      else .ok { h with otherSize := o, firstSize := n, otherHdr := sliceMin, firstHdr := pos, old := true }
  | some _, none => .error .range

/-- position of the file: `total` is the size of the whole file read -/
def posOf (total : Nat) : Reader Nat := fun s => .ok (total - s.length, s)

/-- slice_header::read, src/libdar/slice_header.cpp:84-234 -/
def sliceRead (goOn : Nat → Bool) (fic : Option Nat) (total : Nat) : Reader SliceHdr := do
  let m ← readExact 4
  if of32 m ≠ SAUV_MAGIC then Reader.fail .range
  else
  let iname ← readExact LABEL_SIZE
  let flag ← readByte
  let ext ← readByte
  let h : SliceHdr := ⟨of32 m, iname, List.replicate LABEL_SIZE 0, flag, 0, 0, 0, 0, false⟩
  let h ← (if ext = 78 then do
        let p ← posOf total
        Reader.lift (sliceOld fic p none h)
      else if ext = 83 then do
        let n ← getInt
        let p ← posOf total
        Reader.lift (sliceOld fic p (some n) h)
      else if ext = 84 then do
        let l ← tlvsRead
        let p ← posOf total
        let h ← Reader.lift (fillFrom goOn h l)
        Reader.lift (sliceFinish fic p h)
      else Reader.fail .range)
  pure { h with dname := if labelCleared h.dname then h.iname else h.dname }

/-! ### header_version -/

/-- src/libdar/compression.hpp -/
inductive Compr where | none | gzip | bzip2 | lzo | xz | lzo1x_1_15 | lzo1x_1 | zstd | lz4
  deriving DecidableEq, Repr
/-- compression2char (per_block false), src/libdar/compression.cpp:80-105 -/
def Compr.char : Compr → UInt8
  | .none => 110 | .gzip => 122 | .bzip2 => 121 | .lzo => 108 | .xz => 120 | .lzo1x_1_15 => 106 | .lzo1x_1 => 107 | .zstd => 100 | .lz4 => 113
/-- char2compression, src/libdar/compression.cpp:40-73 -/
def charCompr (c : UInt8) : Res Compr :=
  if c = 110 then .ok .none
  else if c = 122 ∨ c = 90 then .ok .gzip
  else if c = 121 ∨ c = 89 then .ok .bzip2
  else if c = 106 ∨ c = 74 then .ok .lzo1x_1_15
  else if c = 107 ∨ c = 75 then .ok .lzo1x_1
  else if c = 108 ∨ c = 76 then .ok .lzo
  else if c = 120 ∨ c = 88 then .ok .xz
  else if c = 100 ∨ c = 68 then .ok .zstd
  else if c = 113 ∨ c = 81 then .ok .lz4
  else .error .range

/-- src/libdar/archive_aux.hpp hash_algo -/
inductive HashAlgo where | none | md5 | sha1 | sha512 | argon2 | whirlpool | sha3_512 | blake2b_512
  deriving DecidableEq, Repr
/-- hash_algo_to_char, src/libdar/archive_aux.cpp:147-170 -/
def HashAlgo.char : HashAlgo → UInt8
  | .none => 110 | .md5 => 109 | .sha1 => 49 | .sha512 => 53 | .argon2 => 97 | .whirlpool => 119 | .sha3_512 => 51 | .blake2b_512 => 98
/-- char_to_hash_algo, src/libdar/archive_aux.cpp:172-195 -/
def charHash (c : UInt8) : Res HashAlgo :=
  if c = 49 then .ok .sha1 else if c = 51 then .ok .sha3_512 else if c = 53 then .ok .sha512 else if c = 109 then .ok .md5
  else if c = 110 then .ok .none else if c = 97 then .ok .argon2 else if c = 119 then .ok .whirlpool else if c = 98 then .ok .blake2b_512
  else .error .range

/-- Fields of header_version without the archive of reference, src/libdar/header_version.hpp:145-172 -/
structure HdrBase where
  edition : ArchVer
  algo : Compr
  cmdLine : Bytes
  initialOffset : Nat
  sym : CryptoAlgo
  cryptedKey : Option Bytes
  refHeader : Option SliceHdr
  onlyLayout : Bool
  tapeMarks : Bool
  ciphered : Bool
  signed : Bool
  hasKdf : Bool
  salt : Bytes
  iterations : Nat
  kdfHash : HashAlgo
  comprBs : Nat
  deriving DecidableEq, Repr
/-- class header_version; the header of the archive of reference cannot have one itself (enforced at writing and reading,
src/libdar/header_version.cpp:745-755, 500-501), so that `refVersion` has no third level.  The write of a three-level object
(SRC_BUG) is not modelled. -/
structure Hdr where
  base : HdrBase
  refVersion : Option HdrBase
  refOffset : Nat
  deriving DecidableEq, Repr

/-- PRE_FORMAT_10_ITERATION, src/libdar/header_version.hpp:183 -/
def PRE10_ITER : Nat := 2000

/-- FLAG_* constants, src/libdar/header_version.cpp:46-66 -/
def F_SCRAMBLED : Nat := 0x20
def F_SEQUENCE : Nat := 0x10
def F_INITIAL : Nat := 0x08
def F_KEY : Nat := 0x04
def F_SLICING : Nat := 0x02
def F_REFHDR : Nat := 0x8000
def F_REFVER : Nat := 0x4000
def F_COMPBS : Nat := 0x0800
def F_KDF : Nat := 0x0400
def F_SIGNED : Nat := 0x0200
/-- bits of all_flags_known, src/libdar/header_version.cpp:795-816 -/
def F_ALL : Nat := 0x80 ||| 0x40 ||| F_SCRAMBLED ||| F_SEQUENCE ||| F_INITIAL ||| F_KEY ||| F_SLICING ||| F_REFVER ||| F_SIGNED ||| F_KDF ||| F_COMPBS ||| F_REFHDR

/-- `if(cond) flag.set_bits(f)` -/
def setIf (c : Bool) (f : Nat) (bits : Nat) : Res Nat := if c then setBits bits f else .ok bits
/-- Preparation of the flags in inner_write, src/libdar/header_version.cpp:668-706 -/
def HdrBase.flags (h : HdrBase) (refVer : Bool) : Res Nat := do
  let b ← setIf (h.initialOffset ≠ 0) F_INITIAL 0
  let b ← setIf h.cryptedKey.isSome F_KEY b
  let b ← setIf h.refHeader.isSome F_REFHDR b
  let b ← setIf refVer F_REFVER b
  let b ← setIf h.tapeMarks F_SEQUENCE b
  let b ← setIf (h.sym ≠ .none) F_SCRAMBLED b
  let b ← setIf h.signed F_SIGNED b
  let b ← setIf (h.salt.length > 0) F_KDF b
  let b ← setIf (h.comprBs > 0) F_COMPBS b
  .ok b

/-- `f.write` of the slice header of reference, src/libdar/header_version.cpp:732-750 -/
def HdrBase.refBytes (h : HdrBase) : Res Bytes :=
  match h.refHeader with
  | none => .ok []
  | some r => if h.onlyLayout then .error .bug else r.bytes true true

/-- fields written before the archive of reference, src/libdar/header_version.cpp:713-750 -/
def HdrBase.head (h : HdrBase) (refVer : Bool) : Res Bytes := do
  let bits ← h.flags refVer
  if bits &&& F_ALL ≠ bits then .error .bug
  else
  let fl ← flagsDump bits
  let rb ← h.refBytes
  .ok (h.edition.dump ++ ([h.algo.char] ++ (putStr h.cmdLine ++ (fl ++ ((if h.initialOffset ≠ 0 then putInt h.initialOffset else [])
    ++ ((if h.sym ≠ .none then [h.sym.char] else []) ++ ((match h.cryptedKey with | none => [] | some k => putInt k.length ++ k) ++ rb)))))))
/-- fields written after, src/libdar/header_version.cpp:769-783 -/
def HdrBase.tail (h : HdrBase) : Bytes :=
  (if h.salt.length > 0 then putInt h.salt.length ++ (h.salt ++ (putInt h.iterations ++ [h.kdfHash.char])) else [])
    ++ (if h.comprBs > 0 then putInt h.comprBs else [])

/-- inner_write without checksum for a header without archive of reference -/
def HdrBase.plain (h : HdrBase) : Res Bytes := do
  let a ← h.head false
  .ok (a ++ h.tail)

/-- inner_write without the checksum, src/libdar/header_version.cpp:659-783 -/
def Hdr.body (h : Hdr) : Res Bytes :=
  match h.refVersion with
  | none => h.base.plain
  | some r => do
    let a ← h.base.head true
    let b ← r.plain
    .ok (a ++ (b ++ (putInt h.refOffset ++ h.base.tail)))

/-- the checksum of width HEADER_CRC_SIZE computed by generic_file over the bytes of the header; C07 shows that the
chunks in which they are written or read do not matter -/
def headerCrc (b : Bytes) : Res Crc := do
  let c ← crcCreate 2
  c.compute 0 b

/-- header_version::write, src/libdar/header_version.cpp:659-793 -/
def Hdr.write (h : Hdr) : Res Bytes := do
  let b ← h.body
  let c ← headerCrc b
  .ok (b ++ c.dump)

/-- tools_read_string_size, src/libdar/tools.cpp:218-239: when the data is missing the loop never ends -/
def getStrSize (n : Nat) : Reader Bytes := fun s => if n ≤ s.length then .ok (s.take n, s.drop n) else .error .diverge

/-- slice_layout::read, src/libdar/slice_layout.cpp:29-52, into a cleared slice_header (header_version.cpp:455-466) -/
def layoutRead : Reader SliceHdr := do
  let a ← getInt
  let b ← getInt
  let c ← getInt
  let d ← getInt
  let t ← readByte
  if t = 55 then pure ⟨0, List.replicate LABEL_SIZE 0, List.replicate LABEL_SIZE 0, 0, a, b, c, d, true⟩
  else if t = 56 then pure ⟨0, List.replicate LABEL_SIZE 0, List.replicate LABEL_SIZE 0, 0, a, b, c, d, false⟩
  else Reader.fail .bug

/-- What the first part of inner_read gives: the fields up to the slice header of reference, and the flags,
src/libdar/header_version.cpp:263-490.  `was`: the object before the call (`hasKdf` is not reset). -/
def hdrHead (goOn : Nat → Bool) (total : Nat) (was : HdrBase) : Reader (HdrBase × Nat) := do
  let ed ← was.edition.read
  let c ← readByte
  let algo ← Reader.lift (charCompr c)
  let cmd ← getStr
  let fl ← (if ed.gt ⟨1, 0⟩ then flagsRead else pure 0)
  let fi ← Reader.lift (isSet fl F_INITIAL)
  let off ← (if fi then getInt else pure 0)
  let fs ← Reader.lift (isSet fl F_SCRAMBLED)
  let sym ← (if fs && ed.ge ⟨9, 0⟩ then do let t ← readByte; Reader.lift (charCrypto t) else pure CryptoAlgo.none)
  let ft ← Reader.lift (isSet fl F_SEQUENCE)
  if ed.lt ⟨8, 0⟩ && ft then Reader.fail .range
  else
  let fk ← Reader.lift (isSet fl F_KEY)
  let key ← (if fk then do let n ← getInt; let k ← readExact n; pure (some k) else pure none)
  let fl1 ← Reader.lift (isSet fl F_SLICING)
  let fl2 ← Reader.lift (isSet fl F_REFHDR)
  if fl1 && fl2 then Reader.fail .range
  else
  let rh ← (if fl1 then do let l ← layoutRead; pure (some l)
    else if fl2 then do let r ← sliceRead goOn none total; pure (some r) else pure none)
  pure (⟨ed, algo, cmd, off, sym, key, rh, fl1, ft, fs, false, was.hasKdf, [], PRE10_ITER, .sha1, 0⟩, fl)

/-- Last part of inner_read before the checksum, src/libdar/header_version.cpp:504-580.  The reading of the character of the
hash is not checked: at the end of the file the character is undefined (`ub`). -/
def hdrTail (h : HdrBase) (fl : Nat) : Reader HdrBase := do
  let fg ← Reader.lift (isSet fl F_SIGNED)
  let h := { h with signed := fg }
  let fk ← Reader.lift (isSet fl F_KDF)
  let h ← (if fk then do
      let n ← getInt
      let salt ← getStrSize n
      let it ← getInt
      let c ← (fun s => match s with | [] => .error .ub | b :: s => .ok (b, s) : Reader UInt8)
      let k ← Reader.lift (charHash c)
      if k = .none then Reader.fail .range
      else pure { h with hasKdf := true, salt := salt, iterations := it, kdfHash := k }
    else pure h)
  let fb ← Reader.lift (isSet fl F_COMPBS)
  let bs ← (if fb then getInt else pure 0)
  pure { h with comprBs := bs }

/-- src/libdar/header_version.cpp:590-596 then 636-637: unknown version, and initial offset replaced by the position -/
def hdrDone (total : Nat) (h : HdrBase) : Reader HdrBase := do
  let p ← posOf total
  pure { h with initialOffset := if h.initialOffset = 0 then p else h.initialOffset }

/-- `edition == empty_archive_version()` -/
def hdrEmptyEdition (h : HdrBase) : Bool :=
  match emptyArchVer with
  | .ok e => h.edition.eq e
  | .error _ => false

/-- header_version::header_version() / clear, src/libdar/header_version.cpp:159-179 -/
def HdrBase.empty : HdrBase := ⟨⟨0, 0⟩, .none, [], 0, .none, none, none, false, false, false, false, false, [], PRE10_ITER, .sha1, 0⟩

/-- inner_read of the header of the archive of reference (without checksum), src/libdar/header_version.cpp:493-502; a third
level raises Erange after having been read: here at once -/
def hdrReadPlain (goOn : Nat → Bool) (total : Nat) : Reader HdrBase := do
  let (h, fl) ← hdrHead goOn total HdrBase.empty
  let f ← Reader.lift (isSet fl F_REFVER)
  if f then Reader.fail .range
  else
  let h ← hdrTail h fl
  if hdrEmptyEdition h then Reader.fail .range else hdrDone total h

/-- inner_read without the checksum -/
def hdrReadBody (goOn : Nat → Bool) (total : Nat) (was : HdrBase) : Reader (Hdr × Nat) := do
  let (h, fl) ← hdrHead goOn total was
  let f ← Reader.lift (isSet fl F_REFVER)
  let (rv, off) ← (if f then do let r ← hdrReadPlain goOn total; let o ← getInt; pure (some r, o) else pure (none, 0))
  let h ← hdrTail h fl
  pure (⟨h, rv, off⟩, fl)

/-- comparison with the checksum, src/libdar/header_version.cpp:599-635: when a flag is unknown every failure of the
comparison is ignored (then the position is what the failed reading left: `s` as an approximation) -/
def hdrCheck (fl : Nat) (ctrl : Res Crc) : Reader Unit := fun s =>
  let r : Res (Unit × Bytes) :=
    match crcRead false s with
    | .error e => .error e
    | .ok (coh, s') =>
      match ctrl with
      | .error e => .error e
      | .ok c =>
        match coh.eqv c with
        | .error e => .error e
        | .ok true => .ok ((), s')
        | .ok false => .error .range
  match r with
  | .ok x => .ok x
  | .error e => if fl &&& F_ALL ≠ fl then .ok ((), s) else .error e

/-- header_version::read (not lax), src/libdar/header_version.cpp:263-650, on an object holding `was` -/
def hdrRead (goOn : Nat → Bool) (total : Nat) (was : HdrBase) : Reader Hdr := fun s =>
  match hdrReadBody goOn total was s with
  | .error e => .error e
  | .ok ((h, fl), s') =>
    if hdrEmptyEdition h.base then .error .range
    else
      match (if h.base.edition.gt ⟨7, 0⟩ then hdrCheck fl (headerCrc (s.take (s.length - s'.length))) s' else .ok ((), s')) with
      | .error e => .error e
      | .ok (_, s'') => match hdrDone total h.base s'' with
        | .error e => .error e
        | .ok (b, s3) => .ok ({ h with base := b }, s3)

end Dar
