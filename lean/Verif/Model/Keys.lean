import Verif.Model.Headers
import Verif.Model.Tronconneuse
/- Model of the key management of src/libdar/crypto_sym.cpp: derivation of the key from the passphrase (PBKDF2), choice of the salt, initial vector of each block (ESSIV), CBC mode.
The primitives of libgcrypt and libargon2 (HMAC, ciphers of a block, hash functions, the test of weak keys, random bytes) are arbitrary functions.  Lack of memory and failures of libgcrypt are left out. -/
namespace Dar

/-! ### initial vectors -/

/-- the block number written in `size` bytes, src/libdar/crypto_sym.cpp:616-643: from the last byte to the first one, sect[i] = ref_cp[0]; ref_cp >>= 8 -/
def ivSect : Nat → Nat → Bytes
  | 0, _ => []
  | i + 1, ref => ivSect i (ref / 256) ++ [UInt8.ofNat (ref % 256)]
/-- make_ivec, src/libdar/crypto_sym.cpp:616-653; `essiv`: encryption (ECB) by the auxiliary key of `size` bytes -/
def makeIvec (essiv : Bytes → Bytes) (size ref : Nat) : Bytes := essiv (ivSect size ref)

/-- tools_memxor, src/libdar/tools.cpp:2011-2018 -/
def memxor (d s : Bytes) (n : Nat) : Bytes := (d.take n).zipWith (· ^^^ ·) (s.take n) ++ d.drop n

/-- gcry_cipher_encrypt in CBC mode (src/libdar/crypto_sym.cpp:203, the handle being opened with GCRY_CIPHER_MODE_CBC, line 421): `e` encrypts a block of `size` bytes.
What does not fill a block is left as it is (libgcrypt refuses it; the size given is always a multiple, see cryptBlockFor). -/
def cbcEnc (e : Bytes → Bytes) (size : Nat) : Nat → Bytes → Bytes → Bytes
  | 0, _, x => x
  | n + 1, iv, x =>
    if size ≤ x.length then
      let c := e (memxor (x.take size) iv size)
      c ++ cbcEnc e size n c (x.drop size)
    else x
/-- gcry_cipher_decrypt in CBC mode, src/libdar/crypto_sym.cpp:231; `d` decrypts a block -/
def cbcDec (d : Bytes → Bytes) (size : Nat) : Nat → Bytes → Bytes → Bytes
  | 0, _, x => x
  | n + 1, iv, x =>
    if size ≤ x.length then
      memxor (d (x.take size)) iv size ++ cbcDec d size n (x.take size) (x.drop size)
    else x
/-- the encryption of block number `n`: make_ivec, setiv, encrypt, src/libdar/crypto_sym.cpp:196-203 -/
def symEnc (e essiv : Bytes → Bytes) (size n : Nat) (x : Bytes) : Bytes := cbcEnc e size x.length (makeIvec essiv size n) x
/-- its decryption, src/libdar/crypto_sym.cpp:227-231 -/
def symDec (d essiv : Bytes → Bytes) (size n : Nat) (x : Bytes) : Bytes := cbcDec d size x.length (makeIvec essiv size n) x

/-! ### from the passphrase to the key -/

/-- the inner loop, src/libdar/crypto_sym.cpp:723-732: `for (U_32 j = 2; j <= iteration_count; ++j)`, j being kept in 32 bits; gives Ti -/
def pkcsInner (prf : Bytes → Bytes) (dlen it : Nat) : Nat → Nat → Bytes → Bytes → Res Bytes
  | 0, _, _, _ => .error .diverge
  | fuel + 1, j, uj, ti =>
    if j ≤ it then
      let uj := prf uj
      pkcsInner prf dlen it fuel ((j + 1) % 2 ^ 32) uj (memxor ti uj dlen)
    else .ok ti
/-- the four bytes of the block index, src/libdar/crypto_sym.cpp:711-714 -/
def pkcsIndex (i : Nat) : Bytes := [UInt8.ofNat (i / 2 ^ 24 % 256), UInt8.ofNat (i / 2 ^ 16 % 256), UInt8.ofNat (i / 2 ^ 8 % 256), UInt8.ofNat (i % 256)]
/-- secu_string::append, src/libdar/secu_string.cpp:104-122, on a string of capacity `cap` -/
def secuAppend (cap : Nat) (s a : Bytes) : Res Bytes := if a = [] then .ok s else if s.length + a.length > cap then .error .range else .ok (s ++ a)
/-- the main loop, src/libdar/crypto_sym.cpp:703-738: i from 1 to `l`; `r`: size kept of the last one -/
def pkcsOuter (prf : Bytes → Bytes) (salt : Bytes) (dlen it l r cap fuel : Nat) : Nat → Nat → Bytes → Res Bytes
  | 0, _, acc => .ok acc
  | n + 1, i, acc =>
    let u := prf (salt ++ pkcsIndex i)
    match pkcsInner prf dlen it fuel 2 u u with
    | .error e => .error e
    | .ok ti => match secuAppend cap acc (if i < l then ti.take dlen else ti.take r) with
      | .error e => .error e
      | .ok acc => pkcsOuter prf salt dlen it l r cap fuel n (i + 1) acc
/-- pkcs5_pass2key, src/libdar/crypto_sym.cpp:655-779; `hmac key msg`, of `dlen` bytes -/
def pkcs5 (hmac : Bytes → Bytes → Bytes) (dlen : Nat) (password salt : Bytes) (it outLen fuel : Nat) : Res Bytes :=
  if outLen = 0 then .ok []
  else
    let l := outLen / dlen + (if outLen % dlen = 0 then 0 else 1)
    let r := if outLen % dlen = 0 then dlen else outLen % dlen
    pkcsOuter (hmac password) salt dlen it l r outLen fuel l 1 []

/-- the primitives: hash_algo → HMAC and its size; argon2; size of the keys; test of weak keys (gcry_cipher_setkey) -/
structure CryptoLib where
  hmac : HashAlgo → Bytes → Bytes → Bytes
  dlen : HashAlgo → Nat
  argon2 : Bytes → Bytes → Nat → Nat → Res Bytes
  keyLen : Nat
  saltLen : Nat
  strong : Bytes → Bool

/-- init_hashed_password, src/libdar/crypto_sym.cpp:362-395; `W`: width of U_I (size_t) -/
def hashedPassword (L : CryptoLib) (W fuel : Nat) (password : Bytes) (usePkcs5 : Bool) (salt : Bytes) (count : Nat) (h : HashAlgo) : Res Bytes :=
  if usePkcs5 then
    if 2 ^ W ≤ count then .error .range
    else match h with
      | .md5 => pkcs5 (L.hmac .md5) (L.dlen .md5) password salt count L.keyLen fuel
      | .sha1 => pkcs5 (L.hmac .sha1) (L.dlen .sha1) password salt count L.keyLen fuel
      | .sha512 => pkcs5 (L.hmac .sha512) (L.dlen .sha512) password salt count L.keyLen fuel
      | .argon2 => L.argon2 password salt count L.keyLen
      | _ => .error .bug
  else .ok password

/-- the loop over the salts, src/libdar/crypto_sym.cpp:91-111: `retry` more attempts may follow; `nonces k`: the bytes given by the k-th call to gcry_create_nonce -/
def saltLoop (L : CryptoLib) (mk : Bytes → Res Bytes) (nonces : Nat → Bytes) : Nat → Nat → Res (Bytes × Bytes)
  | retry, k => match mk (nonces k) with
    | .error e => .error e
    | .ok key =>
      if L.strong key then .ok (key, nonces k)
      else match retry with
        | 0 => .error .range
        | retry + 1 => saltLoop L mk nonces retry (k + 1)
termination_by retry _ => retry

/-- MAX_RETRY_IF_WEAK_PASSWORD, src/libdar/crypto_sym.cpp:53 -/
def maxRetry : Nat := 5

/-- constructor of crypto_sym, src/libdar/crypto_sym.cpp:55-149: the key given to the cipher and the salt (get_salt); `ver`: the reading_version is at least 10; `oldBlowfish`: blowfish in a version at
most 5.  gcry_cipher_setkey (init_main_clef, line 431) refuses a weak key. -/
def symKey (L : CryptoLib) (W fuel : Nat) (password : Bytes) (ver10 oldBlowfish : Bool) (salt : Bytes) (count : Nat) (h : HashAlgo) (usePkcs5 : Bool) (nonces : Nat → Bytes) : Res (Bytes × Bytes) :=
  if oldBlowfish then .error .range
  else if h = .none ∧ usePkcs5 = true then .error .range
  else
    let found := if salt = [] ∧ usePkcs5 = true ∧ ver10 = true
      then saltLoop L (fun s => hashedPassword L W fuel password usePkcs5 s count h) nonces maxRetry 0
      else match hashedPassword L W fuel password usePkcs5 salt count h with
        | .error e => .error e
        | .ok key => .ok (key, salt)
    match found with
    | .error e => .error e
    | .ok (key, sel) => if L.strong key then .ok (key, sel) else .error .range

/-- what the header of the archive records of a key, src/libdar/macro_tools.cpp:1506-1511 and header_version.cpp:768-781: salt, iteration count and hash; nothing when there is no salt, and what a reader
then takes, header_version.cpp:515-582 (PRE_FORMAT_10_ITERATION is 2000) -/
def kdfRecord (usePkcs5 : Bool) (sel : Bytes) (count : Nat) (h : HashAlgo) : Bytes × Nat × HashAlgo :=
  if usePkcs5 = true ∧ sel ≠ [] then (sel, count, h) else ([], 2000, .sha1)
/-- the key of a new archive, src/libdar/macro_tools.cpp:1491-1511 -/
def writerKey (L : CryptoLib) (W fuel : Nat) (password : Bytes) (count : Nat) (h : HashAlgo) (usePkcs5 : Bool) (nonces : Nat → Bytes) : Res (Bytes × (Bytes × Nat × HashAlgo)) :=
  match symKey L W fuel password true false [] count h usePkcs5 nonces with
  | .error e => .error e
  | .ok (key, sel) => .ok (key, kdfRecord usePkcs5 sel count h)
/-- the key of an archive that is read, src/libdar/macro_tools.cpp:763-774 -/
def readerKey (L : CryptoLib) (W fuel : Nat) (password : Bytes) (rec : Bytes × Nat × HashAlgo) (usePkcs5 : Bool) (nonces : Nat → Bytes) : Res Bytes :=
  match symKey L W fuel password true false rec.1 rec.2.1 rec.2.2 usePkcs5 nonces with
  | .error e => .error e
  | .ok (key, _) => .ok key

end Dar
