import Verif.Model.Backup
/- Model of the end of a differential backup: catalogue::update_destroyed_with, src/libdar/catalogue.cpp:628-721, which records the files removed
since the archive of reference, and catalogue::update_absent_with, src/libdar/catalogue.cpp:723-919, which replaces it when the backup was
interrupted. -/
namespace Dar

/-- The pointer `current`: the contents of the directory it points to and, for each directory above, what is before in its parent, its inode, and what
is after. -/
structure Cursor where
  frames : List (List BEntry × Obj × List BEntry)
  cur : List BEntry

/-- What is before and after the child called `n` -/
def beforeChild (l : List BEntry) (n : Bytes) : List BEntry := l.takeWhile (fun e => e.name ≠ n)
def afterChild (l : List BEntry) (n : Bytes) : List BEntry := (l.dropWhile (fun e => e.name ≠ n)).tail

/-- current = ici_dir -/
def Cursor.enter (c : Cursor) (x : Obj) (ch : List BEntry) : Cursor := ⟨(beforeChild c.cur x.name, x, afterChild c.cur x.name) :: c.frames, ch⟩
/-- current = current->get_parent() -/
def Cursor.up (c : Cursor) : Res Cursor :=
  match c.frames with
  | [] => .error .bug
  | (b, x, a) :: fr => .ok ⟨fr, b ++ .dir x c.cur :: a⟩
/-- current->add_children, for a name that is not present -/
def Cursor.add (c : Cursor) (e : BEntry) : Cursor := ⟨c.frames, c.cur ++ [e]⟩
/-- current->get_last_modif(); `root` is the date of the root directory -/
def Cursor.date (c : Cursor) (root : DateT) : DateT :=
  match c.frames with
  | [] => root
  | (_, x, _) :: _ => x.ino.mtime

/-- The signature given to the new cat_detruit, src/libdar/catalogue.cpp:668-673.  (A catalogue read from an archive holds no ignored entry.) -/
def BEntry.sigKind (stars : Nat → Obj) : BEntry → InoKind
  | .node o => o.ino.kind
  | .dir o _ => o.ino.kind
  | .mirage _ k => (stars k).ino.kind
  | .detruit _ k _ => k
  | .ignored _ => .file
  | .ignoredDir o => o.ino.kind

/-- what the loop of update_destroyed_with updates; `skip` as in `BkSt` -/
structure DestSt where
  at_ : Cursor
  count : Nat
  skip : Nat

/-- one turn of the loop, src/libdar/catalogue.cpp:646-717 -/
def destStep (rstars : Nat → Obj) (root : DateT) (s : DestSt) (ev : BEv) : Res DestSt :=
  if s.skip > 0 then
    match ev with
    | .entry e => .ok (if e.isDir then { s with skip := s.skip + 1 } else s)
    | .eod => .ok { s with skip := s.skip - 1 }
  else match ev with
    | .eod => do
      let c ← s.at_.up
      .ok { s with at_ := c }
    | .entry e =>
      if e.isDet then .ok s
      else match findChild s.at_.cur e.name with
        | none => .ok ⟨s.at_.add (.detruit e.name (e.sigKind rstars) (s.at_.date root)), s.count + 1, if e.isDir then 1 else 0⟩
        | some ici =>
          if e.isDir then
            match ici with
            | .dir x ch => .ok { s with at_ := s.at_.enter x ch }
            | _ => .ok { s with skip := 1 }
          else .ok s
/-- the loop -/
def destLoop (rstars : Nat → Obj) (root : DateT) (s : DestSt) : List BEv → Res DestSt
  | [] => .ok s
  | ev :: l => do
    let s ← destStep rstars root s ev
    destLoop rstars root s l

/-- catalogue::update_destroyed_with, src/libdar/catalogue.cpp:628-721: the new catalogue and the number of deletions recorded -/
def updateDestroyed (root : DateT) (cat ref : BCat) : Res (BCat × Nat) := do
  let s ← destLoop ref.stars root ⟨⟨[], cat.root⟩, 0, 0⟩ (BEntry.eventsList ref.root)
  .ok (⟨s.at_.cur, cat.stars⟩, s.count)

/-- the end of op_create when the backup went to its end, src/libdar/i_archive.cpp:2809-2817 -/
def backupAll (o : BkOpts) (root : DateT) (src ref : BCat) : Res (BCat × Stats) := do
  let (cat, st) ← backup o src ref
  let (cat, n) ← updateDestroyed root cat ref
  .ok (cat, { st with deleted := st.deleted + n })

/-- "converting cat_inode to unsaved entry", src/libdar/catalogue.cpp:786-797 -/
def Obj.unsaved (x : Obj) : Obj :=
  { x with ino := { x.ino with
      status := .notSaved
      eaStatus := match x.ino.eaStatus with
        | .none => .none
        | .removed => .none
        | _ => .part } }

/-- what the loop of update_absent_with updates: corres_clone (last association first), aborting_next_etoile, the hard linked inodes -/
structure AbsSt where
  at_ : Cursor
  corres : List (Nat × Nat)
  next : Nat
  stars : Nat → Obj
  skip : Nat

/-- corres_clone.find -/
def AbsSt.lookup (s : AbsSt) (k : Nat) : Option Nat := (s.corres.find? (fun p => p.1 = k)).map (·.2)

/-- "if(!current->search_children...)", src/libdar/catalogue.cpp:765-885 -/
def absAdd (rstars : Nat → Obj) (s : AbsSt) (e : BEntry) : Res AbsSt :=
  match e with
  | .node x => .ok { s with at_ := s.at_.add (.node x.unsaved) }
  | .ignoredDir x => .ok { s with at_ := s.at_.add (.ignoredDir x.unsaved) }
  | .dir x _ => .ok { s with at_ := ⟨(s.at_.cur, x.unsaved, []) :: s.at_.frames, []⟩ }
  | .mirage n k => match s.lookup k with
    | some j => .ok { s with at_ := s.at_.add (.mirage n j) }
    | none => .ok { s with
        at_ := s.at_.add (.mirage n s.next)
        corres := (k, s.next) :: s.corres
        next := s.next + 1
        stars := fun j => if j = s.next then (rstars k).unsaved else s.stars j }
  | _ => .error .bug
/-- "entry found in the current catalogue", src/libdar/catalogue.cpp:886-915 -/
def absFound (s : AbsSt) (e ici : BEntry) : Res AbsSt :=
  match e with
  | .dir _ _ => (match ici with
    | .dir x ch => .ok { s with at_ := s.at_.enter x ch }
    | _ => .ok { s with skip := 1 })
  | .mirage _ k => (match ici with
    | .mirage _ j => .ok (if s.lookup k = none then { s with corres := (k, j) :: s.corres } else s)
    | _ => .ok s)
  | .ignored _ => .error .bug
  | _ => .ok s
/-- one turn of the loop, src/libdar/catalogue.cpp:741-918 -/
def absStep (rstars : Nat → Obj) (s : AbsSt) (ev : BEv) : Res AbsSt :=
  if s.skip > 0 then
    match ev with
    | .entry e => .ok (if e.isDir then { s with skip := s.skip + 1 } else s)
    | .eod => .ok { s with skip := s.skip - 1 }
  else match ev with
    | .eod => do
      let c ← s.at_.up
      .ok { s with at_ := c }
    | .entry e =>
      if e.isDet then .ok s
      else match findChild s.at_.cur e.name with
        | none => absAdd rstars s e
        | some ici => absFound s e ici
/-- the loop -/
def absLoop (rstars : Nat → Obj) (s : AbsSt) : List BEv → Res AbsSt
  | [] => .ok s
  | ev :: l => do
    let s ← absStep rstars s ev
    absLoop rstars s l

/-- catalogue::update_absent_with, src/libdar/catalogue.cpp:723-919: `next` is the first free label -/
def updateAbsent (next : Nat) (cat ref : BCat) : Res BCat := do
  let s ← absLoop ref.stars ⟨⟨[], cat.root⟩, [], next, cat.stars, 0⟩ (BEntry.eventsList ref.root)
  .ok ⟨s.at_.cur, s.stars⟩

end Dar
