import Verif.Model.MountPoints
import Verif.Spec.Backup
/- Specification of the option -M, from its manual page. -/
namespace Dar.Mp

/-- an option -M of the command line: without argument, "-M I:path", "-M X:path" -/
inductive MOpt where
  | legacy
  | incl (p : Bytes)
  | excl (p : Bytes)
  deriving DecidableEq, Repr

def MOpt.hasArg : MOpt → Bool
  | .legacy => false
  | _ => true
def MOpt.path? : MOpt → Option Bytes
  | .legacy => none
  | .incl p => some p
  | .excl p => some p

/-- what is written after -M -/
def MOpt.text : MOpt → Option Bytes
  | .legacy => none
  | .incl p => some (73 :: 58 :: p)
  | .excl p => some (88 :: 58 :: p)

/-- "The use of -M option with argument erases any previous configuration done with -M option without argument, and vice versa": the options that are still
there at the end of the command line. -/
def remain (l : List MOpt) : List MOpt :=
  l.foldl (fun kept o => kept.filter (fun k => k.hasArg == o.hasArg) ++ [o]) []

/-- What the manual tells for the filesystem `d`, `root` being the one of the path given to -R, and `fs` telling on which filesystem a path leads. -/
structure Considered (fs : Bytes → Option Nat) (root : Nat) (l : List MOpt) (d : Nat) : Prop where
  /-- without argument: only files located on the filesystem of the path given to -R -/
  legacy : MOpt.legacy ∈ remain l → d = root
  /-- if some I: are given, one of them or the one of -R, which cannot be excluded -/
  incl : (∃ p, MOpt.incl p ∈ remain l) → d = root ∨ ∃ p, MOpt.incl p ∈ remain l ∧ fs p = some d
  /-- none of those given with X:, but the one of -R cannot be excluded -/
  excl : ∀ p, MOpt.excl p ∈ remain l → fs p = some d → d = root

/-- A path that can be given to -M: absolute, without ':', existing, and that leads to the same file when written in normal form (which is always so when what is
before a ".." is not a symbolic link). -/
structure GoodArg (st : Bytes → Option Nat) (p : Bytes) : Prop where
  absolute : p.head? = some 47
  noColon : (58 : UInt8) ∉ p
  exists' : st p ≠ none
  straight : ∀ t, pathOf p false = .ok t → st t.display = st p

end Dar.Mp
