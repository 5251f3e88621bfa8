import Verif.Model.Headers
/- Model of the header of a dar_manager database and of the layers put over it: src/libdar/database_header.hpp, database_header.cpp.
The layers themselves (compression, encryption) are parameters here; see C18, C20, C72, C73, C75 for what they do. -/
namespace Dar.Dh
open Dar

/-- database_version, src/libdar/database_header.cpp:68 -/
def dbVersion : UInt8 := 7
/-- archive_format_supported_version, default_iteration_count_argon2, default_crypto_size: src/libdar/archive_aux.cpp:51-56 -/
def supported : ArchVer := ⟨12, 0⟩
def minCount : Nat := 10000
def minBlock : Nat := 10240
/-- the largest U_I (size_t, 64 bits) -/
def maxUI : Nat := 2 ^ 64 - 1

/-- database_header without the password, src/libdar/database_header.hpp:77-88 -/
structure DbHead where
  version : UInt8
  algo : Compr
  level : Nat
  crypto : CryptoAlgo
  hash : HashAlgo
  count : Nat
  block : Nat
  salt : Bytes
  format : ArchVer
  deriving DecidableEq, Repr

/-- clear, src/libdar/database_header.cpp:81-93 -/
def DbHead.clear : DbHead := ⟨dbVersion, .gzip, 9, .none, .argon2, minCount, minBlock, [], supported⟩

/-- a byte read without looking at what `read` returns: at the end of the file the variable keeps an undefined value.  (For the version it would keep the value it had, but the options that
follow are undefined.) -/
def rawByte : Reader UInt8 := fun s => match s with
  | [] => .error .ub
  | b :: s => .ok (b, s)

/-- the compression, src/libdar/database_header.cpp:108-124; unstack gives what fits in a U_I and leaves the rest -/
def readCompr (version options : UInt8) : Reader (Compr × Nat) :=
  if options &&& 1 ≠ 0 then do
    let c ← rawByte
    let algo ← Reader.lift (charCompr c)
    if version > 5 then do
      let n ← getInt
      pure (algo, min n maxUI)
    else pure (algo, 9)
  else pure (.gzip, 9)

/-- database_header::read, src/libdar/database_header.cpp:95-159, into an object that has been cleared (i_database.cpp:69: the level is the 9 of clear for the versions up to 5) -/
def readHead : Reader DbHead := do
  let version ← rawByte
  if version > dbVersion then Reader.fail .range
  else do
    let options ← rawByte
    if options &&& 0x80 ≠ 0 then Reader.fail .range
    else do
      let p ← readCompr version options
      if options &&& 2 ≠ 0 then do
        let format ← supported.read
        let c ← rawByte
        let crypto ← Reader.lift (charCrypto c)
        let c ← rawByte
        let hash ← Reader.lift (charHash c)
        let count ← getInt
        let block ← getInt
        if block ≥ 2 ^ 32 then Reader.fail .range
        else do
          let n ← getInt
          let salt ← getStrSize n
          pure ⟨version, p.1, p.2, crypto, hash, count, block, salt, format⟩
      else pure ⟨version, p.1, p.2, .none, .none, 0, 0, [], supported⟩

/-- the options, src/libdar/database_header.cpp:163-173 -/
def options (h : DbHead) : UInt8 :=
  (if h.algo ≠ .gzip ∨ h.level ≠ 9 then 1 else 0) ||| (if h.crypto ≠ .none then 2 else 0)
/-- database_header::write, src/libdar/database_header.cpp:161-214 -/
def writeHead (h : DbHead) : Bytes :=
  [h.version, options h] ++
  (if options h &&& 1 ≠ 0 then [h.algo.char] ++ putInt h.level else []) ++
  (if h.crypto ≠ .none then
    supported.dump ++ [h.crypto.char] ++ [h.hash.char] ++ putInt h.count ++ putInt h.block ++ putInt h.salt.length ++ h.salt
  else [])

/-! ### what the caller may ask, src/libdar/database_header.hpp:59-64, database_header.cpp:216-277 -/

inductive Ask
  | compression (a : Compr)
  | level (n : Nat)
  | crypto (c : CryptoAlgo)
  | hash (k : HashAlgo)
  | count (n : Nat)
  | block (n : Nat)
/-- set_compression, set_compression_level, set_crypto, set_kdf_hash (the hashes the switch does not know give SRC_BUG), set_kdf_iteration, set_crypto_block_size -/
def set (h : DbHead) : Ask → Res DbHead
  | .compression a => .ok { h with algo := a }
  | .level n => .ok { h with level := n }
  | .crypto c => if c = .scrambling then .error .range else .ok { h with crypto := c }
  | .hash k => match k with
    | .none => .error .range
    | .md5 => .error .range
    | .sha1 => .error .range
    | .sha512 => .ok { h with hash := k }
    | .argon2 => .ok { h with hash := k }
    | .whirlpool => .ok { h with hash := k }
    | _ => .error .bug
  | .count n => if n < minCount then .error .range else .ok { h with count := n }
  | .block n => if n < minBlock then .error .range else .ok { h with block := n }
/-- requests one after the other; what is refused changes nothing -/
def setAll (h : DbHead) : List Ask → DbHead
  | [] => h
  | a :: l => match set h a with
    | .ok h => setAll h l
    | .error _ => setAll h l

/-! ### the file -/

/-- what the encryption layer is built with, src/libdar/database_header.cpp:308-318, 396-406; `start`: the position where it begins (get_ready_for_writing) -/
structure Key where
  format : ArchVer
  crypto : CryptoAlgo
  hash : HashAlgo
  count : Nat
  block : Nat
  salt : Bytes
  start : Nat
  deriving DecidableEq, Repr
def DbHead.key (h : DbHead) (start : Nat) : Key := ⟨h.format, h.crypto, h.hash, h.count, h.block, h.salt, start⟩

/-- the layers -/
structure Layers where
  comp : Compr → Nat → Bytes → Bytes
  decomp : Compr → Bytes → Res Bytes
  ciph : Key → Bytes → Bytes
  deciph : Key → Bytes → Res Bytes

/-- the salt put in the header, src/libdar/database_header.cpp:327, 350 -/
def salted (h : DbHead) (salt : Bytes) : DbHead := { h with salt := if h.crypto ≠ .none then salt else [] }
/-- database_header_create, then writing `body` and closing, src/libdar/database_header.cpp:282-374; `salt`: the one the encryption layer has drawn -/
def createFile (L : Layers) (h : DbHead) (salt body : Bytes) : Bytes :=
  let h := salted h salt
  let b := L.comp h.algo h.level body
  writeHead h ++ (if h.crypto ≠ .none then L.ciph (h.key (writeHead h).length) b else b)
/-- database_header_open, then reading all, src/libdar/database_header.cpp:376-450 -/
def openFile (L : Layers) (file : Bytes) : Res (DbHead × Bytes) := do
  let (h, rest) ← readHead file
  let b ← if h.crypto ≠ .none then L.deciph (h.key (file.length - rest.length)) rest else .ok rest
  .ok (h, ← L.decomp h.algo b)

end Dar.Dh
