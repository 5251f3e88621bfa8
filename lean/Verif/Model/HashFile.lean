import Verif.Model.Elastic
/- Model of src/libdar/hash_fichier.{hpp,cpp} over fichier_local (fichier_global.cpp:86-107, fichier_local.cpp:325-381): the hash of a slice computed while it is written or read.
The hash function of libgcrypt is a parameter `H`; its contract is that gcry_md_read gives H of the concatenation of what gcry_md_write was given. -/
namespace Dar

/-- what a call to ::write (or the check for a cancellation before it) can answer: a number of bytes, an interruption by a signal, no space left (with the answer of the user, who is
asked whether to continue), an input-output error, another error, a cancellation of the thread.  When nothing more is planned the call writes everything. -/
inductive WrEv where
  | wrote (n : Nat)
  | eintr
  | nospc (cont : Bool)
  | eio
  | other
  | cancel
  deriving DecidableEq, Repr

/-- fichier_global::inherited_write calling fichier_local::fichier_global_inherited_write: what has been written, the exception if any, what remains planned -/
def rawWrite (a : Bytes) : List WrEv → Bytes × Option Err × List WrEv
  | [] => (a, none, [])
  | ev :: l =>
    if a = [] then ([], none, ev :: l)
    else match ev with
      | .wrote n =>
        let (w, e, l) := rawWrite (a.drop n) l
        (a.take n ++ w, e, l)
      | .eintr => rawWrite a l
      | .nospc true => rawWrite a l
      | .nospc false => ([], some .userAbort, l)
      | .eio => ([], some .hardware, l)
      | .other => ([], some .range, l)
      | .cancel => ([], some .cancel, l)

/-- the slice: its content, and the field disk_full of fichier_global -/
structure RawFile where
  data : Bytes
  diskFull : Bool
/-- hash_fichier over it: the bytes given to the hash, the field aborting_write, what the hash file contains (none before it is created) -/
structure HashFile where
  ref : RawFile
  hashed : Bytes
  aborting : Bool
  hashFile : Option Bytes
  terminated : Bool

/-- generic_file::write to the slice -/
def RawFile.write (f : RawFile) (a : Bytes) (env : List WrEv) : RawFile × Option Err × List WrEv :=
  if f.diskFull then (f, none, env)
  else
    let (w, e, l) := rawWrite a env
    (⟨f.data ++ w, decide (e = some .userAbort)⟩, e, l)

/-- hash_fichier::fichier_global_inherited_write called by fichier_global::inherited_write, src/libdar/hash_fichier.cpp:134-173: it returns `size`, so that it is called once, and
not at all for an empty write.  (The field disk_full of the hash_fichier itself is never set.) -/
def HashFile.write (h : HashFile) (a : Bytes) (env : List WrEv) : HashFile × Option Err × List WrEv :=
  if h.terminated then (h, some .bug, env)
  else if a = [] then (h, none, env)
  else
    let (f, e, l) := h.ref.write a env
    ({ h with ref := f, hashed := h.hashed ++ a, aborting := h.aborting || decide (e = some .userAbort) }, e, l)

/-- a hexadecimal digit, tools.cpp:2064-2068 -/
def hexDigit (t : Nat) : UInt8 := if t > 9 then UInt8.ofNat (97 + (t - 10)) else UInt8.ofNat (48 + t)
/-- tools_unsigned_char_to_hexa, src/libdar/tools.cpp:2042-2074 -/
def byteToHex (x : UInt8) : Bytes :=
  let digit := baseDigits 16 x.toNat
  (match digit.length with
    | 0 => [48, 48]
    | 1 => [48]
    | _ => []) ++ digit.reverse.map hexDigit
/-- tools_string_to_hexa, src/libdar/tools.cpp:2076-2088 -/
def toHex (s : Bytes) : Bytes := s.flatMap byteToHex

/-- write_hash_in_hexa, src/libdar/hash_fichier.cpp:306-325 -/
def hashLine (digest name : Bytes) : Bytes := toHex digest ++ [32, 32] ++ name ++ [10]

/-- terminate, src/libdar/hash_fichier.cpp:213-304 (the writing of the hash file itself is supposed to succeed; gcry_md_read gives H of what was hashed) -/
def HashFile.terminate (H : Bytes → Bytes) (name : Bytes) (h : HashFile) : HashFile :=
  if h.terminated then h
  else { h with terminated := true, hashFile := if h.aborting then h.hashFile else some (hashLine (H h.hashed) name) }

/-- a new slice -/
def HashFile.new : HashFile := ⟨⟨[], false⟩, [], false, none, false⟩

/-- any sequence of writes, the caller going on even if one of them raised an exception; the exceptions raised -/
def HashFile.writes (h : HashFile) (env : List WrEv) : List Bytes → HashFile × List Err
  | [] => (h, [])
  | a :: l =>
    let (h, e, env) := h.write a env
    let (h, es) := h.writes env l
    (h, e.toList ++ es)

/-- reading a slice through a hash_fichier: the bytes asked for, as far as there are some; the position and the bytes hashed, src/libdar/hash_fichier.cpp:175-211 -/
def hashReads (data : Bytes) (pos : Nat) (hashed : Bytes) : List Nat → List Bytes × Bytes
  | [] => ([], hashed)
  | n :: l =>
    let r := (data.drop pos).take n
    let (rs, h) := hashReads data (pos + r.length) (if r.length > 0 then hashed ++ r else hashed) l
    (r :: rs, h)

end Dar
