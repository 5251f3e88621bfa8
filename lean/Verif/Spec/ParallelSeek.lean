import Verif.Model.ParallelSeek
/- Specification for property C75: reading an encrypted archive is reading the clear data. -/
namespace Dar
namespace Pt
variable {α : Type}

/-- clear block number `i` of the data -/
def blk (D : List α) (cb i : Nat) : List α := (D.drop (i * cb)).take cb

/-- what the encrypted side holds is the data `D`, block by block -/
structure Good (e : PtEnv α) (D : List α) : Prop where
  cbpos : 0 < e.cb
  npos : 0 < e.n
  clear : ∀ i, i < e.nb → e.clear i = some (blk D e.cb i)
  enough : D.length ≤ e.nb * e.cb
  tight : ∀ i, i < e.nb → i * e.cb < D.length
  skips : ∀ i, i < e.nb → e.canSkip i = true

/-- the calls a user of the object makes: `read`, `skip`, `skip_relative` (backward or not), `flush_read` (or `skippable`) -/
inductive Op where
  | read (n : Nat)
  | skip (p : Nat)
  | move (back : Bool) (x : Nat)
  | flush
deriving DecidableEq, Repr

/-- what each call gives on a plain file holding `D`, from position `p`: the data read, the value returned and the new position; none:
a position after the end was asked for -/
def specOp (D : List α) (p : Nat) : Op → Option ((List α × Bool) × Nat)
  | .read n => some (((D.drop p).take n, true), min (p + n) D.length)
  | .skip q => if q ≤ D.length then some (([], true), q) else none
  | .move true x => if x ≤ p then some (([], true), p - x) else some (([], false), 0)
  | .move false x => if p + x ≤ D.length then some (([], true), p + x) else none
  | .flush => some (([], true), p)

/-- a sequence of calls on a plain file -/
def spec (D : List α) : Nat → List Op → Option (List (List α × Bool) × Nat)
  | p, [] => some ([], p)
  | p, o :: os =>
    match specOp D p o with
    | none => none
    | some (r, p') =>
      match spec D p' os with
      | none => none
      | some (rs, p'') => some (r :: rs, p'')

/-- a call on the object -/
def call (e : PtEnv α) (s : PtSt α) : Op → Except Err ((List α × Bool) × PtSt α)
  | .read n => match s.read e n with | .ok (d, s') => .ok ((d, true), s') | .error x => .error x
  | .skip p => match s.skip e p with | .ok s' => .ok (([], true), s') | .error x => .error x
  | .move b x => match s.skipRel e b x with | .ok (r, s') => .ok (([], r), s') | .error x => .error x
  | .flush => match s.flush e with | .ok s' => .ok (([], true), s') | .error x => .error x

/-- a sequence of calls on the object -/
def calls (e : PtEnv α) : PtSt α → List Op → Except Err (List (List α × Bool) × PtSt α)
  | s, [] => .ok ([], s)
  | s, o :: os =>
    match call e s o with
    | .error x => .error x
    | .ok (r, s') =>
      match calls e s' os with
      | .error x => .error x
      | .ok (rs, s'') => .ok (r :: rs, s'')

end Pt
end Dar
