import Verif.Model.DbAdd
import Verif.Model.Path
/- Model of the restoration from a dar_manager database: class restore_tree (src/libdar/restore_tree.{hpp,cpp}), class mask_database
(src/libdar/mask_database.{hpp,cpp}) and the two methods restore of src/libdar/i_database.cpp.  Not modelled: the messages; the extraction of each archive
itself; the exact arguments given to dar beside the archive and the -g options. -/
namespace Dar

/-- insertion in a std::set<archive_num>, seen as an increasing list -/
def setInsert (n : Nat) : List Nat → List Nat
  | [] => [n]
  | k :: l => if n < k then n :: k :: l else if n = k then k :: l else k :: setInsert n l
/-- a std::set holding these elements -/
def toSet (l : List Nat) : List Nat := l.foldl (fun s n => setInsert n s) []
/-- the insertion loop of restore_tree::get_locations, src/libdar/restore_tree.cpp:100-101 -/
def setUnion (s sub : List Nat) : List Nat := sub.foldl (fun s n => setInsert n s) s

/-- class restore_tree, src/libdar/restore_tree.hpp:44-80; the name is the key in the map `children` of the parent. -/
inductive RTree where
  | node (name : Bytes) (locs : List Nat) (children : List RTree)
def RTree.name : RTree → Bytes
  | .node n _ _ => n
def RTree.locs : RTree → List Nat
  | .node _ l _ => l
def RTree.children : RTree → List RTree
  | .node _ _ c => c

/-- the locations set by the constructor, src/libdar/restore_tree.cpp:48-58 -/
def ownLocations (date : DateT) (mods : SMap StatP) (chgs : SMap Stat) : Res (List Nat) := do
  let (set, rd) ← getData mods date false
  let (ea, re) ← getEA chgs date false
  .ok (if rd = .foundPresent then (if re = .foundPresent ∨ re = .foundRemoved then setInsert ea (toSet set) else toSet set) else [])

mutual
/-- constructor of restore_tree, src/libdar/restore_tree.cpp:36-84.  The names of the children of a directory are supposed distinct (the children are
then in the order of the database, not in the order of the map: nothing depends on it). -/
def restoreTree (date : DateT) (t : DTree) : Res RTree :=
  match t with
  | .node name dir mods chgs sub => do
    let locs ← ownLocations date mods chgs
    let ch ← restoreTreeList date sub
    .ok (.node name locs (if dir then ch else []))
def restoreTreeList (date : DateT) (l : List DTree) : Res (List RTree) :=
  match l with
  | [] => .ok []
  | t :: l => do
    let t' ← restoreTree date t
    let l' ← restoreTreeList date l
    .ok (t' :: l')
end

/-- current_path after `current_path.pop(tmp)`: unchanged when there is nothing to remove -/
def PathT.popped (p : PathT) : PathT :=
  match p.pop with
  | some (_, q) => q
  | none => p

mutual
/-- restore_tree::get_locations, src/libdar/restore_tree.cpp:86-127: the tree updated (the set returned is its new set of locations) and current_path -/
def RTree.getLocations (mask : PathT → Bool) (t : RTree) (cur : PathT) : RTree × PathT :=
  match t with
  | .node name locs ch =>
    let (ch', ret, cur') := RTree.getLocationsList mask ch locs cur
    (.node name ret ch', cur')
/-- its loop on the children -/
def RTree.getLocationsList (mask : PathT → Bool) (l : List RTree) (ret : List Nat) (cur : PathT) : List RTree × List Nat × PathT :=
  match l with
  | [] => ([], ret, cur)
  | t :: l =>
    let cur1 := cur.addName t.name
    let (t', ret', cur2) := if mask cur1 then
        let (t', c) := t.getLocations mask cur1
        (t', setUnion ret t'.locs, c)
      else (t, ret, cur1)
    let (l', ret'', cur3) := RTree.getLocationsList mask l ret' cur2.popped
    (t' :: l', ret'', cur3)
end

/-- restore_tree::lookup, src/libdar/restore_tree.cpp:146-163 -/
def RTree.lookup (t : RTree) : List Bytes → Res RTree
  | [] => .ok t
  | x :: p => match t.children.find? (fun c => c.name = x) with
    | none => .error .bug
    | some c => c.lookup p

/-- restore_tree::restore_from, src/libdar/restore_tree.cpp:129-144, result_for, src/libdar/restore_tree.hpp:72 -/
def RTree.restoreFrom (t : RTree) (chem : PathT) (num : Nat) : Res Bool :=
  if chem.relative = false then .error .bug
  else do
    let f ← t.lookup chem.dirs
    .ok (decide (num ∈ f.locs))

/-- path::degre, src/libdar/path.hpp:166 -/
def PathT.degre (p : PathT) : Nat := p.dirs.length + (if p.relative then 0 else 1)

/-- the loop of mask_database::is_covered on the components of the root, src/libdar/mask_database.cpp:107-114 -/
def stripRoot : List Bytes → PathT → Res PathT
  | [], p => .ok p
  | d :: l, p => match p.popFront with
    | none => .error .bug
    | some (x, q) => if d = x then stripRoot l q else .error .bug

/-- mask_database::is_covered, src/libdar/mask_database.cpp:62-123 -/
def maskDbCovers (fsRoot : PathT) (comp : PathT → Bool) (tree : RTree) (zoom : Nat) (e : PathT) : Res Bool :=
  if comp e = false then .ok false
  else if e.degre < fsRoot.degre then .error .bug
  else if e.relative ≠ fsRoot.relative then .error .bug
  else
    let go (p : PathT) : Res Bool := do
      let rel ← stripRoot fsRoot.dirs p
      if zoom = 0 then .error .bug else tree.restoreFrom rel zoom
    if e.relative then go e
    else match e.popFront with
      | none => .ok true
      | some (_, p) => go p

/-- what the restoration is: the archives read in turn, and the filter applied to the paths of each one -/
structure DbRestore where
  archives : List (Nat × ArchData)
  covers : Nat → PathT → Res Bool

/-- `coordinate[n]` for each archive, src/libdar/i_database.cpp:902-912 -/
def openAll (coord : List ArchData) : List Nat → Res (List (Nat × ArchData))
  | [] => .ok []
  | n :: l => match coord[n]? with
    | none => .error .bug
    | some a => do
      let r ← openAll coord l
      .ok ((n, a) :: r)

/-- i_database::restore (API), src/libdar/i_database.cpp:864-962 -/
def Database.restoreApi (db : Database) (fsRoot : PathT) (mask : PathT → Bool) (date : DateT) : Res DbRestore := do
  let tree ← restoreTree date db.files
  let tree' := (tree.getLocations mask fsRoot).1
  let arch ← openAll db.coord tree'.locs
  .ok ⟨arch, maskDbCovers fsRoot mask tree'⟩

/-! ### Restoration by calls to dar -/

/-- data_dir::data_tree_find, src/libdar/data_dir.cpp:503-534, on the children of the data_dir; the path is given by its components -/
def treeFind (l : List DTree) : List Bytes → Option DTree
  | [] => none
  | [x] => readChild l x
  | x :: y :: p => match readChild l x with
    | none => none
    | some t => if t.isDir then treeFind t.sub (y :: p) else none

/-- command_line[n].push_back("-g"), push_back(file) -/
def cmdPush (m : SMap (List (List Bytes))) (file : List Bytes) (n : Nat) : SMap (List (List Bytes)) := m.put n ((m.get n).getD [] ++ [file])

/-- what is done for one file found, src/libdar/i_database.cpp:671-752: the EA number is 0 in every case -/
def cmdFile (date : DateT) (ewr : Bool) (file : List Bytes) (t : DTree) (m : SMap (List (List Bytes))) : Res (SMap (List (List Bytes))) := do
  let (set, rd) ← getData t.mods date ewr
  let _ ← getEA t.chgs date ewr
  let numData := if rd = .foundPresent then toSet set else []
  .ok (numData.foldl (fun m n => cmdPush m file n) m)

/-- the loop of i_database::restore, src/libdar/i_database.cpp:659-770; the paths are given by their components, the conversions to text and back
(C25) are left out.  `anneau` is the queue of the paths left. -/
def cmdLoop (l : List DTree) (date : DateT) (ewr : Bool) : Nat → List (List Bytes) → SMap (List (List Bytes)) → Res (SMap (List (List Bytes)))
  | _, [], m => .ok m
  | 0, _ :: _, _ => .error .diverge
  | fuel + 1, f :: anneau, m => match treeFind l f with
    | none => cmdLoop l date ewr fuel anneau m
    | some t => do
      let m' ← cmdFile date ewr f t m
      cmdLoop l date ewr fuel (anneau ++ (if t.isDir then t.sub.map (fun c => f ++ [c.name]) else [])) m'

mutual
/-- number of nodes of the tree -/
def DTree.count (t : DTree) : Nat :=
  match t with
  | .node _ _ _ _ s => DTree.countList s + 1
def DTree.countList (l : List DTree) : Nat :=
  match l with
  | [] => 0
  | t :: l => t.count + DTree.countList l
end

/-- i_database::restore by calls to dar, src/libdar/i_database.cpp:638-862: for each archive, by increasing number, the paths given with -g.  Each
requested path brings at most the nodes of the tree. -/
def Database.restoreCmd (db : Database) (files : List (List Bytes)) (date : DateT) (ewr : Bool) : Res (SMap (List (List Bytes))) :=
  cmdLoop db.files.sub date ewr (files.length * (DTree.countList db.files.sub + 1)) files []

end Dar
