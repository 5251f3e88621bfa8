import Verif.Model.Backup
/- Model of the reading of the files to save: src/libdar/filesystem_backup.cpp, filesystem_hard_link_read.cpp (make_read_entree), etage.cpp.

The filesystem answers anything at each moment: it may change during the reading.  Dates of directories (put back after their reading), messages and the reading of
extended attributes are not modelled (`Obj` is what is found). -/
namespace Dar

/-- what lstat(2) tells (st_ino, st_dev, st_nlink) and the object made of it -/
structure FsStat where
  ino : Nat
  dev : Nat
  nlink : Nat
  obj : Obj
  deriving DecidableEq
/-- the answers to make_read_entree, src/libdar/filesystem_hard_link_read.cpp:131-156 and 259: EACCES, ENOENT, another error, an unknown type -/
inductive LookAns where
  | ok (st : FsStat)
  | denied
  | gone
  | failed
  | strange
  deriving DecidableEq
/-- the filesystem at a moment; paths are relative to the root of the operation.  `listing`: what readdir(3) gives before it answers a null pointer, or the directory cannot be opened;
`head`: the first bytes of a file, if it can be read -/
structure FsView where
  nodump : List Bytes → Bool
  look : List Bytes → LookAns
  listing : List Bytes → Option (List Bytes)
  head : List Bytes → Option Bytes
/-- the options --nodump and --cache-directory-tagging -/
structure RdOpts where
  nodump : Bool
  cacheTag : Bool
/-- what is read: a node, a name of a hard linked inode, a directory, the end of a directory -/
inductive RdEntry where
  | node (o : Obj)
  | mirage (name : Bytes) (label : Nat)
  | dir (o : Obj)
  | eod
  deriving DecidableEq
/-- corres_read (the inode and its device; the label of its cat_etoile and the names still expected), etiquette_counter, and the inodes of the cat_etoile made so far, in order -/
structure LinkSt where
  corres : List ((Nat × Nat) × (Nat × Nat))
  counter : Nat
  stars : List Obj
  deriving DecidableEq

/-! ### a directory -/

/-- "CACHEDIR.TAG" -/
def cacheTagName : Bytes := [67, 65, 67, 72, 69, 68, 73, 82, 46, 84, 65, 71]
/-- "Signature: 8a477f597d28d172789f06886806bc55" -/
def cacheTagText : Bytes := "Signature: 8a477f597d28d172789f06886806bc55".toUTF8.toList
/-- cache_directory_tagging_check, src/libdar/etage.cpp:206-259 (strncmp is taken for an equality of the bytes: there is no null one in the text) -/
def cacheTagCheck (name : Bytes) (head : Option Bytes) : Bool :=
  if name ≠ cacheTagName then false
  else match head with
    | none => false
    | some h => if h.length < cacheTagText.length then false else h.take cacheTagText.length == cacheTagText
/-- the loop of the constructor of etage, src/libdar/etage.cpp:138-163; the names, and is_cache_dir -/
def etageLoop (o : RdOpts) (v : FsView) (dir : List Bytes) : List Bytes → List Bytes → List Bytes × Bool
  | [], acc => (acc, false)
  | n :: l, acc =>
    if n = [46] ∨ n = [46, 46] then etageLoop o v dir l acc
    else if o.cacheTag && cacheTagCheck n (v.head (dir ++ [n])) then (acc ++ [n], true)
    else etageLoop o v dir l (acc ++ [n])
/-- etage::etage, src/libdar/etage.cpp:94-184: the names to read, or Erange -/
def etageOpen (o : RdOpts) (v : FsView) (dir : List Bytes) : Option (List Bytes) :=
  match v.listing dir with
  | none => none
  | some raw =>
    let r := etageLoop o v dir raw []
    some (if r.2 then [] else r.1)

/-! ### an entry -/

/-- the hard link detection of make_read_entree, src/libdar/filesystem_hard_link_read.cpp:365-424, and the object given -/
def linkStep (k : LinkSt) (name : Bytes) (st : FsStat) : RdEntry × LinkSt :=
  if st.obj.ino.kind = .dir then (.dir { st.obj with name := name }, k)
  else if st.nlink > 1 then
    match k.corres.lookup (st.ino, st.dev) with
    | none => (.mirage name k.counter, ⟨((st.ino, st.dev), (k.counter, st.nlink - 1)) :: k.corres, k.counter + 1, k.stars ++ [{ st.obj with name := [] }]⟩)
    | some (label, count) =>
      (.mirage name label,
        { k with corres := if count - 1 = 0 then k.corres.filter (·.1 ≠ (st.ino, st.dev))
          else ((st.ino, st.dev), (label, count - 1)) :: k.corres.filter (·.1 ≠ (st.ino, st.dev)) })
  else (.node { st.obj with name := name }, k)
/-- make_read_entree, src/libdar/filesystem_hard_link_read.cpp:117-432 -/
def makeRead (k : LinkSt) (v : FsView) (dir : List Bytes) (name : Bytes) : Res (Option (RdEntry × LinkSt)) :=
  match v.look (dir ++ [name]) with
  | .denied => .ok none
  | .gone => .ok none
  | .failed => .error .range
  | .strange => .error .data
  | .ok st => .ok (some (linkStep k name st))

/-! ### the reading -/

/-- the fields of filesystem_backup: pile (the top first), current_dir (without the root); `clock`: the moment -/
structure RdSt where
  pile : List (List Bytes)
  cur : List Bytes
  clock : Nat
  links : LinkSt
/-- filesystem_backup::read: the entry (none: the end), the state, `errors` and `skipped_dump` -/
structure RdOut where
  entry : Option RdEntry
  st : RdSt
  errors : Nat
  dumps : Nat
/-- path::pop on current_dir -/
def popDir (cur : List Bytes) : Res (List Bytes) := if cur = [] then .error .bug else .ok cur.dropLast
/-- what a directory gives once opened: its names, or nothing when it cannot be opened, src/libdar/filesystem_backup.cpp:250-276 -/
def openedNames (o : RdOpts) (v : FsView) (dir : List Bytes) : List Bytes := (etageOpen o v dir).getD []
/-- the loop of filesystem_backup::read, src/libdar/filesystem_backup.cpp:206-326: `rest` is below the top of the pile -/
def rdLoop (o : RdOpts) (hist : Nat → FsView) (cur : List Bytes) (rest : List (List Bytes)) : List Bytes → Nat → LinkSt → Nat → Nat → Res RdOut
  | [], t, k, er, du => match rest with
    | [] => .ok ⟨none, ⟨[], cur, t, k⟩, er, du⟩
    | _ :: _ => (popDir cur).map fun c => ⟨some .eod, ⟨rest, c, t, k⟩, er, du⟩
  | n :: l, t, k, er, du =>
    if o.nodump && (hist t).nodump (cur ++ [n]) then rdLoop o hist cur rest l (t + 1) k er (du + 1)
    else match makeRead k (hist t) cur n with
      | .error .data => rdLoop o hist cur rest l (t + 1) k er du
      | .error .range => rdLoop o hist cur rest l (t + 1) k (er + 1) du
      | .error e => .error e
      | .ok none => rdLoop o hist cur rest l (t + 1) k er du
      | .ok (some (.dir x, k')) => .ok ⟨some (.dir x), ⟨openedNames o (hist (t + 1)) (cur ++ [n]) :: l :: rest, cur ++ [n], t + 2, k'⟩, er, du⟩
      | .ok (some (e, k')) => .ok ⟨some e, ⟨l :: rest, cur, t + 1, k'⟩, er, du⟩
/-- filesystem_backup::read, src/libdar/filesystem_backup.cpp:194-332 -/
def rdRead (o : RdOpts) (hist : Nat → FsView) (s : RdSt) : Res RdOut :=
  match s.pile with
  | [] => .ok ⟨none, s, 0, 0⟩
  | top :: rest => rdLoop o hist s.cur rest top s.clock s.links 0 0
/-- filesystem_backup::skip_read_to_parent_dir, src/libdar/filesystem_backup.cpp:334-349 -/
def rdSkip (s : RdSt) : Res RdSt :=
  match s.pile with
  | [] => .error .bug
  | _ :: rest => (popDir s.cur).map fun c => { s with pile := rest, cur := c }
/-- filesystem_backup::reset_read, src/libdar/filesystem_backup.cpp:153-191: the root must be a directory that can be opened -/
def rdStart (o : RdOpts) (v : FsView) : Res RdSt :=
  match v.look [] with
  | .ok st =>
    if st.obj.ino.kind = .dir then match etageOpen o v [] with
      | none => .error .range
      | some names => .ok ⟨[names], [], 1, ⟨[], 0, []⟩⟩
    else .error .range
  | .strange => .error .data
  | _ => .error .range

/-! ### the caller -/

/-- what the loop of filtre_sauvegarde sees: the entries and where they are, the errors and the nodump files added to the statistics, what the last call told (which is not added), and the hard
linked inodes -/
structure RdRun where
  events : List (List Bytes × RdEntry)
  errored : Nat
  ignored : Nat
  lastErrors : Nat
  lastDumps : Nat
  links : LinkSt
/-- an entry and what follows -/
def RdRun.cons (ev : List Bytes × RdEntry) (er du : Nat) (r : RdRun) : RdRun := { r with events := ev :: r.events, errored := er + r.errored, ignored := du + r.ignored }
/-- the name of an entry -/
def RdEntry.name : RdEntry → Bytes
  | .node o => o.name
  | .mirage n _ => n
  | .dir o => o.name
  | .eod => []
/-- the path of what was read, `cur` being current_dir after and `before` before the reading -/
def rdPath (before after : List Bytes) : RdEntry → List Bytes
  | .dir _ => after
  | .eod => before
  | e => after ++ [e.name]
/-- a directory is entered or not, src/libdar/filtre.cpp:1084 and 1128-1131 -/
def enterDir (skip : List Bytes → Bool) (p : List Bytes) (e : RdEntry) (s : RdSt) : Res RdSt := match e with
  | .dir _ => if skip p then rdSkip s else .ok s
  | _ => .ok s
/-- the loop of filtre_sauvegarde, src/libdar/filtre.cpp:640-1195, as for the reading: `skip` tells the directories that are not entered (not covered by the masks, or their saving fails).
At most `n` entries are read. -/
def rdLoopAll (o : RdOpts) (hist : Nat → FsView) (skip : List Bytes → Bool) : Nat → RdSt → Res RdRun
  | 0, _ => .error .diverge
  | n + 1, s => do
    let r ← rdRead o hist s
    match r.entry with
    | none => .ok ⟨[], 0, 0, r.errors, r.dumps, r.st.links⟩
    | some e => do
      let p := rdPath s.cur r.st.cur e
      let s' ← enterDir skip p e r.st
      let rest ← rdLoopAll o hist skip n s'
      .ok (rest.cons (p, e) r.errors r.dumps)
/-- a whole reading -/
def rdAll (o : RdOpts) (hist : Nat → FsView) (skip : List Bytes → Bool) (n : Nat) : Res RdRun := do
  let s ← rdStart o (hist 0)
  rdLoopAll o hist skip n s

end Dar
