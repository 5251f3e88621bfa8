import Verif.Spec.BlockCipher
import Verif.Model.Elastic
/- Model of src/libdar/tronconneuse.cpp, the block-encryption layer, over an ordinary file.
Simplifications: what the object is after an exception has been thrown is not modelled (in particular the reuse of
`extra_buf`, which only a failed call can leave non-empty); thread cancellation is left to C43. -/
namespace Dar

/-- class tronconneuse, src/libdar/tronconneuse.hpp:160-190.  `B` is clear_block_size, `shift` initial_shift, `trail`
trailing_clear_data (the callback giving the offset where the encrypted data ends, given the end of the file). -/
structure Tro where
  cipher : Cipher
  B : Nat
  shift : Nat
  trail : Option (Bytes → Res Nat)
  bufOff : Nat
  buf : Bytes
  pos : Nat
  blockNum : Nat
  weof : Bool
  reof : Bool
  file : Flat

/-- encrypted_buf_size, set by tronconneuse::init_buf, src/libdar/tronconneuse.cpp:512-522 -/
def Tro.E (t : Tro) : Nat := t.cipher.encSize t.B

/-- tronconneuse::tronconneuse, src/libdar/tronconneuse.cpp:48-82, with set_initial_shift and
set_callback_trailing_clear_data, tronconneuse.hpp:117-123 -/
def troNew (c : Cipher) (B shift : Nat) (trail : Option (Bytes → Res Nat)) (file : Flat) : Res Tro :=
  if B = 0 then .error .range else .ok ⟨c, B, shift, trail, 0, [], 0, 0, false, false, file⟩

/-! Writing -/

/-- tronconneuse::flush, src/libdar/tronconneuse.cpp:469-508 -/
def Tro.flush (t : Tro) : Tro :=
  if t.weof then t
  else if t.buf.length > 0 then { t with file := t.file.write (t.cipher.enc t.blockNum t.buf), buf := [], bufOff := t.bufOff + t.B }
  else t

/-- one turn of the loop of tronconneuse::inherited_write, src/libdar/tronconneuse.cpp:262-286: `a` is what remains -/
def Tro.writeTurn (t : Tro) (a : Bytes) : Tro :=
  let t1 := { t with buf := t.buf ++ a.take (t.B - t.buf.length) }
  if t1.buf.length ≥ t1.B then { t1.flush with blockNum := t1.blockNum + 1 } else t1

/-- the loop of tronconneuse::inherited_write, src/libdar/tronconneuse.cpp:262-286 -/
def Tro.writeLoop : Nat → Tro → Bytes → Res Tro
  | 0, _, _ => .error .diverge
  | fuel + 1, t, a => if a = [] then .ok t else Tro.writeLoop fuel (t.writeTurn a) (a.drop (t.B - t.buf.length))

/-- tronconneuse::inherited_write, src/libdar/tronconneuse.cpp:251-291 -/
def Tro.write (t : Tro) (a : Bytes) : Res Tro :=
  if t.weof then .error .bug
  else match Tro.writeLoop (a.length + 1) t a with
    | .error e => .error e
    | .ok t' => .ok { t' with pos := t'.pos + a.length }

/-- tronconneuse::inherited_sync_write, src/libdar/tronconneuse.hpp:146 -/
def Tro.syncWrite (t : Tro) : Tro := t.flush

/-- tronconneuse::write_end_of_file, src/libdar/tronconneuse.hpp:112 -/
def Tro.writeEof (t : Tro) : Tro := { t.flush with weof := true }

/-! Reading -/

/-- second half of tronconneuse::remove_trailing_clear_data_from_encrypted_buf, src/libdar/tronconneuse.cpp:613-641:
`clearOff` is the answer of the callback; gives the encrypted bytes kept and reof -/
def troCut (cryptOff clearOff : Nat) (b : Bytes) : Res (Bytes × Bool) :=
  if cryptOff ≥ clearOff then .ok ([], true)
  else if clearOff - cryptOff ≥ 2 ^ 32 then .error .bug
  else if clearOff - cryptOff ≤ b.length then .ok (b.take (clearOff - cryptOff), true)
  else .error .bug

/-- tronconneuse::remove_trailing_clear_data_from_encrypted_buf, src/libdar/tronconneuse.cpp:563-644: `b` is encrypted_buf,
`extra` what is read after it (nothing when the end of file has been met); gives the bytes kept in encrypted_buf and reof. -/
def troTrail (trail : Option (Bytes → Res Nat)) (shift cryptOff : Nat) (b extra : Bytes) (reof : Bool) : Res (Bytes × Bool) :=
  match trail with
  | none => .ok (b, reof)
  | some f => match f (b ++ extra) with
    | .error _ => .ok (if reof then [] else b, reof)
    | .ok off => if off < shift then .ok (b, reof) else troCut cryptOff (off - shift) b

/-- the reading of a block in tronconneuse::fill_buf, src/libdar/tronconneuse.cpp:418-456: gives the clear data, reof and the
file; `k` is the block number -/
def troLoad (c : Cipher) (E shift : Nat) (trail : Option (Bytes → Res Nat)) (file : Flat) (k : Nat) : Res (Bytes × Bool × Flat) :=
  let (file1, b) := (file.skip (k * E + shift)).read E
  if b.length < E then
    match troTrail trail shift (k * E) b [] true with
    | .error e => .error e
    | .ok (b', reof) => match c.dec k b' with
      | .error e => .error e
      | .ok x => .ok (x, reof, file1)
  else match c.dec k b with
    | .ok x => .ok (x, false, file1)
    | .error .range => match trail with
      | none => .error .range
      | some _ =>
        let (file2, extra) := file1.read E
        match troTrail trail shift (k * E) b extra false with
        | .error _ => .error .range
        | .ok (b', reof) => match c.dec k b' with
          | .error _ => .error .range
          | .ok x => .ok (x, reof, file2)
    | .error e => .error e

/-- tronconneuse::fill_buf, src/libdar/tronconneuse.cpp:387-467: the state and the position in the buffer -/
def Tro.fillBuf (t : Tro) : Res (Tro × Nat) :=
  if t.pos < t.bufOff ∨ (t.bufOff + t.buf.length ≤ t.pos ∧ t.reof = false) then
    if t.reof = false then
      match troLoad t.cipher t.E t.shift t.trail t.file (t.pos / t.B) with
      | .error e => .error e
      | .ok (x, reof, file) =>
        .ok ({ t with bufOff := t.pos / t.B * t.B, blockNum := t.pos / t.B, buf := x, reof := reof, file := file }, t.pos % t.B)
    else .ok ({ t with bufOff := t.pos / t.B * t.B, blockNum := t.pos / t.B, buf := [] }, t.pos % t.B)
  else if t.pos - t.bufOff ≥ 2 ^ 32 then .error .bug
  else .ok (t, t.pos - t.bufOff)

/-- tronconneuse::inherited_read, src/libdar/tronconneuse.cpp:229-249 -/
def Tro.readLoop : Nat → Tro → Nat → Res (Tro × Bytes)
  | 0, _, _ => .error .diverge
  | fuel + 1, t, n =>
    if n = 0 then .ok (t, [])
    else match t.fillBuf with
      | .error e => .error e
      | .ok (t1, p) =>
        if p ≥ t1.buf.length then .ok (t1, [])
        else match Tro.readLoop fuel { t1 with pos := t1.bufOff + (p + ((t1.buf.drop p).take n).length) } (n - ((t1.buf.drop p).take n).length) with
          | .error e => .error e
          | .ok (t2, b) => .ok (t2, (t1.buf.drop p).take n ++ b)
/-- see `Tro.readLoop` -/
def Tro.read (t : Tro) (n : Nat) : Res (Tro × Bytes) := t.readLoop (n + 1) n

/-- tronconneuse::skip_to_eof, src/libdar/tronconneuse.cpp:126-152 -/
def Tro.skipEof (t : Tro) : Res Tro :=
  let f := t.file.skipEof
  if f.pos < t.shift then .error .bug
  else match Tro.fillBuf { t with file := f, blockNum := (f.pos - t.shift) / t.E, pos := (f.pos - t.shift) / t.E * t.B, reof := false } with
    | .error e => .error e
    | .ok (t1, _) => .ok { t1 with reof := true, pos := t1.bufOff + t1.buf.length, file := t1.file.skipEof }

/-- tronconneuse::skip, src/libdar/tronconneuse.cpp:99-124 -/
def Tro.skip (t : Tro) (p : Nat) : Res (Tro × Bool) :=
  if t.pos = p then .ok (t, true)
  else match Tro.fillBuf { t with pos := p, reof := if p < t.bufOff then false else t.reof } with
    | .error e => .error e
    | .ok (t1, q) =>
      if q < t1.buf.length then .ok (t1, true)
      else match t1.skipEof with
        | .error e => .error e
        | .ok t2 => .ok (t2, false)

/-- tronconneuse::skip_relative, src/libdar/tronconneuse.cpp:154-178 -/
def Tro.skipRel (t : Tro) (x : Int) : Res (Tro × Bool) :=
  if 0 ≤ x then t.skip (t.pos + x.toNat)
  else if (-x).toNat ≤ t.pos then t.skip (t.pos - (-x).toNat)
  else match t.skip 0 with
    | .error e => .error e
    | .ok (t1, _) => .ok (t1, false)

/-- tronconneuse::inherited_flush_read, src/libdar/tronconneuse.hpp:150 -/
def Tro.flushRead (t : Tro) : Tro := { t with buf := [] }

/-- An operation of the reader. -/
def Tro.step (t : Tro) : RaOp → Res (Tro × RaAns)
  | .read n => (t.read n).map fun r => (r.1, .data r.2)
  | .skip p => (t.skip p).map fun r => (r.1, .flag r.2)
  | .toEof => t.skipEof.map fun r => (r, .flag true)
  | .rel x => (t.skipRel x).map fun r => (r.1, .flag r.2)
/-- A session of the reader. -/
def Tro.run (t : Tro) : List RaOp → Res (Tro × List RaAns)
  | [] => .ok (t, [])
  | o :: l => match t.step o with
    | .error e => .error e
    | .ok (t1, a) => match t1.run l with
      | .error e => .error e
      | .ok (t2, as) => .ok (t2, a :: as)

/-- Successive writes. -/
def Tro.writes (t : Tro) : List Bytes → Res Tro
  | [] => .ok t
  | a :: l => match t.write a with
    | .error e => .error e
    | .ok t1 => t1.writes l

/-- crypto_sym as the layer uses it, src/libdar/crypto_sym.cpp:151-239: padding by an elastic buffer, then the cipher proper
(`E n` / `D n` stand for gcry_cipher_encrypt / gcry_cipher_decrypt with the main key and the initial vector of block `n`,
crypto_sym.cpp:616-653); the buffer has the size clear_block_allocated_size_for(B); `r` and `rnd` are the random numbers drawn
for the padding of each block. -/
def symCipher (E D : Nat → Bytes → Bytes) (algo B : Nat) (r : Nat → Nat) (rnd : Nat → Nat → UInt8) : Cipher where
  enc n x := match cryptEncrypt (E n) algo x (cryptBlockFor algo B) (r n) (rnd n) with
    | .ok c => c
    | .error _ => []
  dec n b := cryptDecrypt (D n) false b
  encSize k := cryptBlockFor algo k

end Dar
