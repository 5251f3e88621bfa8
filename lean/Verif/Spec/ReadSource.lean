import Verif.Model.ReadSource
import Verif.Spec.Paths
/- A filesystem that does not change, and what is to be read of it. -/
namespace Dar

/-- a file or a directory: its name, its nodump flag, what is answered about it; the first bytes of a file; whether a directory can be opened, and what it has -/
inductive FsTree where
  | item (name : Bytes) (nodump : Bool) (ans : LookAns) (head : Option Bytes)
  | dir (name : Bytes) (nodump : Bool) (st : FsStat) (opened : Bool) (children : List FsTree)
def FsTree.name : FsTree → Bytes
  | .item n _ _ _ => n
  | .dir n _ _ _ _ => n
def FsTree.nodump : FsTree → Bool
  | .item _ d _ _ => d
  | .dir _ d _ _ _ => d
def FsTree.ans : FsTree → LookAns
  | .item _ _ a _ => a
  | .dir _ _ st _ _ => .ok st
def FsTree.head : FsTree → Option Bytes
  | .item _ _ _ h => h
  | .dir _ _ _ _ _ => none
def FsTree.listing : FsTree → Option (List Bytes)
  | .item _ _ _ _ => none
  | .dir _ _ _ opened ch => if opened then some ([[46], [46, 46]] ++ ch.map FsTree.name) else none
/-- what is at a path -/
def fsAt (l : List FsTree) : List Bytes → Option FsTree
  | [] => none
  | [n] => l.find? (fun e => e.name = n)
  | n :: m :: p => match l.find? (fun e => e.name = n) with
    | some (.dir _ _ _ _ ch) => fsAt ch (m :: p)
    | _ => none
/-- the answers of a filesystem whose root directory (`st`) has `l` -/
def fsView (st : FsStat) (l : List FsTree) : FsView where
  nodump p := match fsAt l p with
    | some e => e.nodump
    | none => false
  look p := if p = [] then .ok st else match fsAt l p with
    | some e => e.ans
    | none => .gone
  listing p := if p = [] then some ([[46], [46, 46]] ++ l.map FsTree.name) else match fsAt l p with
    | some e => e.listing
    | none => none
  head p := match fsAt l p with
    | some e => e.head
    | none => none
/-- names of files, different ones in a directory; what a directory is and what it is not -/
def FsTree.Good : FsTree → Prop
  | .item n _ a _ => isName n ∧ ∀ st, a = .ok st → st.obj.ino.kind ≠ .dir
  | .dir n _ st _ ch => isName n ∧ st.obj.ino.kind = .dir ∧ (ch.map FsTree.name).Nodup ∧ ∀ e ∈ ch, e.Good
/-- a tree -/
def GoodTree (l : List FsTree) : Prop := (l.map FsTree.name).Nodup ∧ ∀ e ∈ l, e.Good
/-- the directory is marked as a cache -/
def IsCache (ch : List FsTree) : Prop := ∃ e ∈ ch, e.name = cacheTagName ∧ ∃ h, e.head = some h ∧ cacheTagText <+: h

/-- what is met by going through a tree: a file, a directory, its end; something with the nodump flag that is left out; something that could not be looked at -/
inductive WalkEv where
  | file (p : List Bytes) (st : FsStat)
  | dir (p : List Bytes) (st : FsStat)
  | eod (p : List Bytes)
  | flagged (p : List Bytes)
  | unread (p : List Bytes) (a : LookAns)
  deriving DecidableEq
/-- what is met for a file -/
def lookEv (p : List Bytes) : LookAns → WalkEv
  | .ok st => .file p st
  | a => .unread p a
open Classical in
/-- a tree read in depth: the files with the nodump flag are left out if asked for; the directories to skip, the caches (if asked for) and what cannot be opened are not entered -/
noncomputable def walk (o : RdOpts) (skip : List Bytes → Bool) (p : List Bytes) : FsTree → List WalkEv
  | .item n d a _ => if o.nodump = true ∧ d = true then [.flagged (p ++ [n])] else [lookEv (p ++ [n]) a]
  | .dir n d st opened ch => if o.nodump = true ∧ d = true then [.flagged (p ++ [n])] else
      .dir (p ++ [n]) st :: (if skip (p ++ [n]) = true then [] else
        (if opened = true ∧ ¬ (o.cacheTag = true ∧ IsCache ch) then ch.flatMap (walk o skip (p ++ [n])) else []) ++ [.eod (p ++ [n])])
/-- it is an error -/
def WalkEv.isFailed : WalkEv → Bool
  | .unread _ .failed => true
  | _ => false
def WalkEv.isFlagged : WalkEv → Bool
  | .flagged _ => true
  | _ => false

/-! ### what is said of it -/

/-- the entries that have to be given: those met, with the same names and attributes; `stars` are the inodes of hard links -/
def Given (stars : List Obj) : WalkEv → List Bytes × RdEntry → Prop
  | .file p st, (q, e) => q = p ∧ if st.nlink > 1 then ∃ k, e = .mirage (p.getLastD []) k ∧ stars[k]? = some { st.obj with name := [] }
      else e = .node { st.obj with name := p.getLastD [] }
  | .dir p st, (q, e) => q = p ∧ e = .dir { st.obj with name := p.getLastD [] }
  | .eod p, (q, e) => q = p ∧ e = .eod
  | _, _ => False
/-- something is to be given for it -/
def WalkEv.isEntry : WalkEv → Bool
  | .flagged _ => false
  | .unread _ _ => false
  | _ => true
/-- the inode met -/
def WalkEv.stat : WalkEv → Option FsStat
  | .file _ st => some st
  | _ => none
/-- inodes that do not change: the same number on the same device is the same inode, which has at most `nlink` names in what is read -/
def SteadyInodes (ws : List WalkEv) : Prop :=
  (∀ w ∈ ws, ∀ w' ∈ ws, ∀ st st', w.stat = some st → w'.stat = some st' → st.ino = st'.ino → st.dev = st'.dev →
    st.nlink = st'.nlink ∧ { st.obj with name := [] } = { st'.obj with name := [] }) ∧
  ∀ w ∈ ws, ∀ st, w.stat = some st → (ws.filter (fun w' => match w'.stat with
    | some st' => st'.ino = st.ino ∧ st'.dev = st.dev
    | none => false)).length ≤ max 1 st.nlink
/-- the system answered so, at some moment -/
def Answered (o : RdOpts) (hist : Nat → FsView) : WalkEv → Prop
  | .file p st => ∃ t, (hist t).look p = .ok st
  | .dir p st => ∃ t, (hist t).look p = .ok st
  | .eod _ => True
  | .flagged p => o.nodump = true ∧ ∃ t, (hist t).nodump p = true
  | .unread p a => (∃ t, (hist t).look p = a) ∧ ∀ st, a ≠ .ok st
/-- all the directories can be opened -/
def FsTree.Opened : FsTree → Prop
  | .item _ _ _ _ => True
  | .dir _ _ _ op ch => op = true ∧ ∀ e ∈ ch, e.Opened

end Dar
