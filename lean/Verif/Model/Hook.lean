import Verif.Model.Basic
/- Model of the user command run around the saving of files: src/libdar/semaphore.cpp, and where filtre_sauvegarde and save_inode (src/libdar/filtre.cpp) call it.

The text of the command (build_string) is the one of tools_substitute, modelled in Model/ToolsText.lean; here a command is told by its context and by what its macros stand for.
A command that fails and is not ignored stops the whole backup (Escript, Euser_abort): not modelled. -/
namespace Dar

/-- chem, filename, uid, gid, sig, src/libdar/semaphore.hpp:119-123 -/
structure HookFor where
  path : List Bytes
  name : Bytes
  uid : Nat
  gid : Nat
  sig : UInt8
  deriving DecidableEq, Repr
/-- what happens: a command is run ("start" or "end"), the data of a file is saved -/
inductive HkEv where
  | start (h : HookFor)
  | stop (h : HookFor)
  | save (path : List Bytes)
  deriving DecidableEq, Repr
/-- the object given to raise: the end of a directory, a directory, another named entry -/
inductive HkKind where
  | eod
  | dir
  | other
  deriving DecidableEq
/-- the fields of class semaphore (count and what is to be called in the "end" context) -/
structure SemSt where
  count : Nat
  hook : HookFor
  deriving DecidableEq
/-- src/libdar/semaphore.cpp:35-48 -/
def semInit : SemSt := ⟨0, ⟨[], [], 0, 0, 0⟩⟩
/-- semaphore::raise, src/libdar/semaphore.cpp:51-97; `cov`: match->is_covered -/
def semRaise (cov : List Bytes → Bool) (s : SemSt) (k : HkKind) (h : HookFor) (toSave : Bool) : Res (SemSt × List HkEv) :=
  if s.count = 1 then .error .bug
  else if s.count > 1 then
    match k with
    | .eod => if toSave then .ok ({ s with count := s.count - 1 }, []) else .error .bug
    | .dir => .ok ({ s with count := s.count + 1 }, [])
    | .other => .ok (s, [])
  else match k with
    | .eod => .ok (s, [])
    | .dir => if toSave && cov h.path then .ok (⟨2, h⟩, [.start h]) else .ok (s, [])
    | .other => if toSave && cov h.path then .ok (⟨1, h⟩, [.start h]) else .ok (s, [])
/-- semaphore::lower, src/libdar/semaphore.cpp:99-106 -/
def semLower (s : SemSt) : SemSt × List HkEv := if s.count = 1 then ({ s with count := 0 }, [.stop s.hook]) else (s, [])
/-- raise, something in between, lower -/
def semAround (cov : List Bytes → Bool) (s : SemSt) (k : HkKind) (h : HookFor) (mid : List HkEv) : Res (SemSt × List HkEv) := do
  let r ← semRaise cov s k h true
  let l := semLower r.1
  .ok (l.1, r.2 ++ mid ++ l.2)

/-- what filtre_sauvegarde does of an entry that is not a directory -/
inductive FileAct where
  | excluded       -- not covered by the masks
  | known          -- a hard link to an inode saved already
  | unchanged      -- its data is not to be saved
  | data (passes : Nat)  -- a plain file whose data is saved (`passes` + 1 times: it may be saved again without compression), with or without an error
  | noData         -- saved, and not a plain file
  | failed         -- an error before the semaphore is called
  deriving DecidableEq
/-- and of a directory -/
inductive DirAct where
  | excluded       -- not covered by the masks
  | unchanged      -- in the archive of reference with the same attributes
  | saved
  | failedBefore   -- an error before the semaphore is called
  | failedAfter    -- an error after (reading its extended attributes, …)
  deriving DecidableEq
/-- the files to save and what is done of them -/
inductive HkTree where
  | file (name : Bytes) (uid gid : Nat) (sig : UInt8) (act : FileAct)
  | dir (name : Bytes) (uid gid : Nat) (act : DirAct) (children : List HkTree)
/-- the passes of the outer loop of save_inode, src/libdar/filtre.cpp:3164-3897 -/
def filePasses (cov : List Bytes → Bool) (h : HookFor) : Nat → SemSt → Res (SemSt × List HkEv)
  | 0, s => semAround cov s .other h [.save h.path]
  | n + 1, s => do
    let r ← semAround cov s .other h [.save h.path]
    let r' ← filePasses cov h n r.1
    .ok (r'.1, r.2 ++ r'.2)
/-- an entry that is not a directory, src/libdar/filtre.cpp:681-684, 1023, 3217-3220, 3252-3253, 3881-3895 -/
def hookFile (cov : List Bytes → Bool) (h : HookFor) (s : SemSt) : FileAct → Res (SemSt × List HkEv)
  | .excluded => semRaise cov s .other h false
  | .known => .ok (s, [])
  | .unchanged => semRaise cov s .other h false
  | .data n => filePasses cov h n s
  | .noData => semAround cov s .other h []
  | .failed => .ok (s, [])
/-- the beginning of a directory, and whether its content is read, src/libdar/filtre.cpp:1023, 1084, 1128-1131, 3217-3220, 3890-3895 -/
def hookDir (cov : List Bytes → Bool) (h : HookFor) (s : SemSt) : DirAct → Res (SemSt × List HkEv × Bool)
  | .excluded => do
    let r ← semRaise cov s .dir h false
    .ok (r.1, r.2, false)
  | .unchanged => do
    let r ← semRaise cov s .dir h false
    .ok (r.1, r.2, true)
  | .saved => do
    let r ← semAround cov s .dir h []
    .ok (r.1, r.2, true)
  | .failedBefore => .ok (s, [], false)
  | .failedAfter => do
    let r ← semAround cov s .dir h []
    .ok (r.1, r.2, false)
/-- the end of a directory, src/libdar/filtre.cpp:1148-1151 -/
def hookEod (cov : List Bytes → Bool) (h : HookFor) (s : SemSt) : Res (SemSt × List HkEv) := semAround cov s .eod h []

mutual
/-- the loop of filtre_sauvegarde over an entry and what is below, src/libdar/filtre.cpp:640-1180 -/
def hookWalk (cov : List Bytes → Bool) (p : List Bytes) (s : SemSt) : HkTree → Res (SemSt × List HkEv)
  | .file n u g c act => hookFile cov ⟨p ++ [n], n, u, g, c⟩ s act
  | .dir n u g act ch => do
    let r ← hookDir cov ⟨p ++ [n], n, u, g, 100⟩ s act
    if r.2.2 then do
      let r1 ← hookWalks cov (p ++ [n]) r.1 ch
      let r2 ← hookEod cov ⟨p ++ [n], n, u, g, 122⟩ r1.1
      .ok (r2.1, r.2.1 ++ r1.2 ++ r2.2)
    else .ok (r.1, r.2.1)
/-- and over the entries of a directory -/
def hookWalks (cov : List Bytes → Bool) (p : List Bytes) (s : SemSt) : List HkTree → Res (SemSt × List HkEv)
  | [] => .ok (s, [])
  | e :: l => do
    let r ← hookWalk cov p s e
    let r' ← hookWalks cov p r.1 l
    .ok (r'.1, r.2 ++ r'.2)
end

end Dar
