import Verif.Model.Flat
/- Specification of a window over a file: a file which cannot grow over a given size. -/
namespace Dar

/-- The part of a file made of at most `size` bytes starting at `start`. -/
def segment (d : Bytes) (start size : Nat) : Bytes := (d.drop start).take size

/-- Operations of the user of a window. -/
inductive WinOp where
  | read (n : Nat) | write (b : Bytes) | skip (p : Nat) | toEof
  deriving Repr

/-- What the operation answers: data read, or success / refusal -/
inductive WinAns where
  | data (b : Bytes) | flag (ok : Bool)
  deriving DecidableEq, Repr

/-- An operation on a file of at most `size` bytes: seeking farther goes to the end and fails; writing farther writes what
fits, does not move and fails. -/
def winStep (size : Nat) (f : Flat) : WinOp → Flat × WinAns
  | .read n => ((f.read (min n (size - f.pos))).1, .data (f.read (min n (size - f.pos))).2)
  | .write b => if f.pos + b.length ≤ size then (f.write b, .flag true)
      else (⟨patch f.data f.pos (b.take (size - f.pos)), f.pos⟩, .flag false)
  | .skip p => if p > size then (⟨f.data, size⟩, .flag false) else (⟨f.data, p⟩, .flag true)
  | .toEof => (⟨f.data, size⟩, .flag true)

/-- A session -/
def winRun (size : Nat) (f : Flat) : List WinOp → Flat × List WinAns
  | [] => (f, [])
  | o :: l => ((winRun size (winStep size f o).1 l).1, (winStep size f o).2 :: (winRun size (winStep size f o).1 l).2)

end Dar
