import Verif.Model.Basic
/- Specification vocabulary for slicing (independent of the model). -/
namespace Dar

/-- A stream cut in pieces of `c` bytes, the last one holding what remains (never empty unless the stream is). -/
def cutRest (c : Nat) (fuel : Nat) (d : Bytes) : List Bytes :=
  match fuel with
  | 0 => [d]
  | fuel + 1 => if d.length ≤ c then [d] else d.take c :: cutRest c fuel (d.drop c)

/-- A stream cut in a first piece of `c1` bytes and following pieces of `c` bytes. -/
def cutStream (c1 c : Nat) (d : Bytes) : List Bytes :=
  if d.length ≤ c1 then [d] else d.take c1 :: cutRest c d.length (d.drop c1)

/-- What a user may ask of a file opened for reading. -/
inductive FileOp where
  | read (n : Nat)
  | skip (pos : Nat)
  | skipRel (x : Int)
  | skipEof
  deriving Repr

/-- The answers a plain file of content `data` gives, from position `p`; `none` as soon as an absolute or relative
seek targets a position outside the data (then nothing is claimed). -/
def plainFile (data : Bytes) (p : Nat) : List FileOp → Option (List Bytes)
  | [] => some []
  | .read n :: ops =>
    let got := (data.drop p).take n
    (plainFile data (p + got.length) ops).map (got :: ·)
  | .skip q :: ops => if q < data.length then plainFile data q ops else none
  | .skipRel x :: ops =>
    if 0 ≤ (p : Int) + x ∧ (p : Int) + x < data.length then plainFile data ((p : Int) + x).toNat ops else none
  | .skipEof :: ops => plainFile data data.length ops

end Dar
