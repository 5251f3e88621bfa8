import Verif.Model.Flat
/- Specification for block encryption: what a cipher has to satisfy, what the encrypted file contains, how a plain file
answers to a reading session. -/
namespace Dar

/-- A block cipher as the layer uses it (src/libdar/crypto_module.hpp:40-100): encryption and decryption of a block given
its number, size of an encrypted block. -/
structure Cipher where
  enc : Nat → Bytes → Bytes
  dec : Nat → Bytes → Res Bytes
  encSize : Nat → Nat

/-- The laws stated in crypto_module.hpp for clear blocks of at most `B` bytes: decryption inverts encryption under the same
number, the size of the encrypted data depends only on the size of the clear data and is largest for full blocks, there is
nothing to decrypt in no data (crypto_sym.cpp:225-226). -/
structure Cipher.Lawful (c : Cipher) (B : Nat) : Prop where
  inv : ∀ n x, x ≠ [] → x.length ≤ B → c.dec n (c.enc n x) = .ok x
  size : ∀ n x, x ≠ [] → x.length ≤ B → (c.enc n x).length = c.encSize x.length
  mono : ∀ k, k ≤ B → c.encSize k ≤ c.encSize B
  pos : 0 < c.encSize B
  none : ∀ n, c.dec n [] = .ok []

/-- Encryption of a whole stream: cut in blocks of `B` bytes numbered from `n`, the last one possibly shorter. -/
def encBlocks (c : Cipher) (B : Nat) (n : Nat) (d : Bytes) : Bytes :=
  if h : d = [] ∨ B = 0 then [] else c.enc n (d.take B) ++ encBlocks c B (n + 1) (d.drop B)
termination_by d.length
decreasing_by
  have h1 : d ≠ [] := fun e => h (Or.inl e)
  have h2 : B ≠ 0 := fun e => h (Or.inr e)
  have := List.length_pos_iff.mpr h1
  simp only [List.length_drop]; omega

/-- What a reader does. -/
inductive RaOp where
  | read (n : Nat) | skip (p : Nat) | toEof | rel (x : Int)
  deriving DecidableEq, Repr
/-- What it gets. -/
inductive RaAns where
  | data (b : Bytes) | flag (ok : Bool)
  deriving DecidableEq, Repr

/-- Seeking in a plain read-only file: a target at or beyond the end leads to the end and is reported as a failure (unless
one is already there). -/
def raSkip (d : Bytes) (pos p : Nat) : Nat × Bool :=
  if p = pos then (pos, true) else if p < d.length then (p, true) else (d.length, false)

/-- One operation on a plain read-only file `d` at position `pos`. -/
def raStep (d : Bytes) (pos : Nat) : RaOp → Nat × RaAns
  | .read n => (pos + ((d.drop pos).take n).length, .data ((d.drop pos).take n))
  | .skip p => ((raSkip d pos p).1, .flag (raSkip d pos p).2)
  | .toEof => (d.length, .flag true)
  | .rel x => if 0 ≤ x then ((raSkip d pos (pos + x.toNat)).1, .flag (raSkip d pos (pos + x.toNat)).2)
      else if (-x).toNat ≤ pos then ((raSkip d pos (pos - (-x).toNat)).1, .flag (raSkip d pos (pos - (-x).toNat)).2)
      else ((raSkip d pos 0).1, .flag false)

/-- A session on a plain file: final position and answers. -/
def raRun (d : Bytes) (pos : Nat) : List RaOp → Nat × List RaAns
  | [] => (pos, [])
  | o :: l => ((raRun d (raStep d pos o).1 l).1, (raStep d pos o).2 :: (raRun d (raStep d pos o).1 l).2)

/-- The operation stays inside the file. -/
def raInside (d : Bytes) (pos : Nat) : RaOp → Prop
  | .read _ => True
  | .skip p => p < d.length ∨ p = pos
  | .toEof => False
  | .rel x => 0 ≤ (pos : Int) + x ∧ ((pos : Int) + x < d.length ∨ x = 0)
/-- Every operation of the session does. -/
def raAllInside (d : Bytes) (pos : Nat) : List RaOp → Prop
  | [] => True
  | o :: l => raInside d pos o ∧ raAllInside d (raStep d pos o).1 l

end Dar
