import Verif.Model.Hook
/- What is documented about the commands run around the saving of files (dar(1), --backup-hook-execute). -/
namespace Dar

/-- the saving of a file, with the commands around if it is `hooked` -/
def savedOnce (hooked : Bool) (h : HookFor) : List HkEv := if hooked then [.start h, .save h.path, .stop h] else [.save h.path]
/-- n + 1 times -/
def savedFile (hooked : Bool) (h : HookFor) : Nat → List HkEv
  | 0 => savedOnce hooked h
  | n + 1 => savedOnce hooked h ++ savedFile hooked h n
mutual
/-- what has to happen: the command is run before and after the saving of each covered file; for a covered directory, before all that it contains and after it, no command being run for what
is inside (`inside`) -/
def hooksDue (cov : List Bytes → Bool) (p : List Bytes) (inside : Bool) : HkTree → List HkEv
  | .file n u g c (.data k) => savedFile (!inside && cov (p ++ [n])) ⟨p ++ [n], n, u, g, c⟩ k
  | .file n u g c .noData => if !inside && cov (p ++ [n]) then [.start ⟨p ++ [n], n, u, g, c⟩, .stop ⟨p ++ [n], n, u, g, c⟩] else []
  | .file _ _ _ _ _ => []
  | .dir n u g .saved ch =>
    if !inside && cov (p ++ [n]) then [.start ⟨p ++ [n], n, u, g, 100⟩] ++ hooksDueAll cov (p ++ [n]) true ch ++ [.stop ⟨p ++ [n], n, u, g, 100⟩]
    else hooksDueAll cov (p ++ [n]) inside ch
  | .dir n _ _ .unchanged ch => hooksDueAll cov (p ++ [n]) inside ch
  | .dir _ _ _ _ _ => []
def hooksDueAll (cov : List Bytes → Bool) (p : List Bytes) (inside : Bool) : List HkTree → List HkEv
  | [] => []
  | e :: l => hooksDue cov p inside e ++ hooksDueAll cov p inside l
end
/-- no directory that is left out, or that fails, is inside a covered directory, and no covered directory fails -/
def HkClean (cov : List Bytes → Bool) (p : List Bytes) (inside : Bool) : HkTree → Prop
  | .file _ _ _ _ _ => True
  | .dir n _ _ .saved ch => ∀ e ∈ ch, HkClean cov (p ++ [n]) (inside || cov (p ++ [n])) e
  | .dir n _ _ .unchanged ch => ∀ e ∈ ch, HkClean cov (p ++ [n]) inside e
  | .dir _ _ _ .excluded _ => inside = false
  | .dir n _ _ .failedAfter _ => inside = false ∧ cov (p ++ [n]) = false
  | .dir _ _ _ .failedBefore _ => True
/-- commands come in pairs: an "end" follows the "start" of the same file, and there is no other command in between; at the end `pending` may remain -/
inductive HooksPaired : Option HookFor → List HkEv → Option HookFor → Prop
  | nil {o} : HooksPaired o [] o
  | save {o p l o'} (h : HooksPaired o l o') : HooksPaired o (.save p :: l) o'
  | start {f l o'} (h : HooksPaired (some f) l o') : HooksPaired none (.start f :: l) o'
  | stop {f l o'} (h : HooksPaired none l o') : HooksPaired (some f) (.stop f :: l) o'
/-- moreover each covered file is saved while a command is pending, and the command pending is the one of this file or of a directory above it -/
inductive HooksAround (cov : List Bytes → Bool) : Option HookFor → List HkEv → Option HookFor → Prop
  | nil {o} : HooksAround cov o [] o
  | save {o p l o'} (hp : ∀ f, o = some f → f.path <+: p) (hc : cov p = true → o ≠ none) (h : HooksAround cov o l o') : HooksAround cov o (.save p :: l) o'
  | start {f l o'} (hc : cov f.path = true) (h : HooksAround cov (some f) l o') : HooksAround cov none (.start f :: l) o'
  | stop {f l o'} (h : HooksAround cov none l o') : HooksAround cov (some f) (.stop f :: l) o'

end Dar
