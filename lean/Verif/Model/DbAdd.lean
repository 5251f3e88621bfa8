import Verif.Model.Database
import Verif.Model.Catalogue
/- Model of the addition of an archive to a dar_manager database: data_dir::data_tree_update_with, find_or_addition, add, finalize
(src/libdar/data_dir.cpp) and i_database::add_archive, set_permutation (src/libdar/i_database.cpp).
The archive is its catalogue (Model/Catalogue.lean): the contents of the root directory and the table of hard linked inodes, as read from the end of
the archive (not in sequential mode).  When an exception is thrown the code leaves the database half updated; the model only returns the error. -/
namespace Dar

/-- dynamic_cast<const cat_file *>: cat_door is a cat_file -/
def Special.asFile : Special → Option FileB
  | .file f => some f
  | .door f => some f
  | _ => none

/-- cat_file::get_patch_result_crc, src/libdar/cat_file.cpp:1191-1209 -/
def FileB.patchResult (st : SavedStatus) (f : FileB) : Res (Option Crc) :=
  match f.sig with
  | some d => match d.result with
    | some c => .ok (some c)
    | none => .error .bug
  | none => .ok (if st = .saved then f.check else none)
/-- `if(!get_crc(res)) if(!get_patch_result_crc(res)) res = nullptr`, src/libdar/data_dir.cpp:214-216 and 225-227; get_crc gives `check` outside the
sequential mode, src/libdar/cat_file.cpp:1014-1032 -/
def FileB.anyCrc (st : SavedStatus) (f : FileB) : Res (Option Crc) :=
  match f.check with
  | some c => .ok (some c)
  | none => f.patchResult st

/-- first switch of data_dir::add(const cat_inode *), src/libdar/data_dir.cpp:189-236: what is recorded for the data of the inode -/
def dataRecord (date : DateT) (st : SavedStatus) (f : Option FileB) : Res StatP :=
  match st with
  | .saved => .ok ⟨date, .saved, none, f.bind (·.check)⟩
  | .fake => .ok ⟨date, .saved, none, f.bind (·.check)⟩
  | .delta => match f with
    | none => .error .bug
    | some f => do
      let r ← f.patchResult st
      .ok ⟨date, .patch, f.base, r⟩
  | .inodeOnly => match f with
    | none => .ok ⟨date, .inode, none, none⟩
    | some f => do
      let r ← f.anyCrc st
      .ok ⟨date, .inode, f.base, r⟩
  | .notSaved => match f with
    | none => .ok ⟨date, .present, none, none⟩
    | some f => do
      let r ← f.anyCrc st
      .ok ⟨date, .present, f.base, r⟩

/-- `get_last_modif() > get_last_change() ? get_last_modif() : get_last_change()`, src/libdar/data_dir.cpp:185 -/
def InodeB.dbDate (i : InodeB) : Res DateT := do
  let g ← i.mtime.gt i.ctime
  .ok (if g then i.mtime else i.ctime)

/-- `result == db_lookup::found_present || result == db_lookup::not_restorable` -/
def Lookup.mayBeThere : Lookup → Bool
  | .foundPresent => true
  | .notRestorable => true
  | _ => false

/-- `result = tree->get_EA(last_archive, datetime(0), false); if(...) tree->set_EA(archive, date, et_removed)`, src/libdar/data_dir.cpp:243-246 and 276-278 -/
def removeEaRecord (arch : Nat) (date : DateT) (chgs : SMap Stat) : Res (SMap Stat) := do
  let (_, r) ← getEA chgs ⟨0, .s⟩ false
  .ok (if r.mayBeThere then setEA chgs arch ⟨date, .removed⟩ else chgs)
/-- second switch of data_dir::add(const cat_inode *), src/libdar/data_dir.cpp:238-259 -/
def addEa (arch : Nat) (ctime : DateT) (ea : EaStatus) (chgs : SMap Stat) : Res (SMap Stat) :=
  match ea with
  | .none => .ok chgs
  | .removed => removeEaRecord arch ctime chgs
  | .part => .ok (setEA chgs arch ⟨ctime, .present⟩)
  | .fake => .ok (setEA chgs arch ⟨ctime, .saved⟩)
  | .full => .ok (setEA chgs arch ⟨ctime, .saved⟩)

/-- data_dir::add(const cat_inode *, archive) on the data_tree found or added, src/libdar/data_dir.cpp:178-260: the two maps -/
def addInodeMaps (arch : Nat) (i : InodeB) (st : SavedStatus) (f : Option FileB) (mods : SMap StatP) (chgs : SMap Stat) :
    Res (SMap StatP × SMap Stat) := do
  let d ← i.dbDate
  let r ← dataRecord d st f
  let mods' ← setData mods arch r
  let chgs' ← addEa arch i.ctime i.ea chgs
  .ok (mods', chgs')
/-- data_dir::add(const cat_detruit *, archive), src/libdar/data_dir.cpp:262-279 -/
def addGoneMaps (arch : Nat) (date : DateT) (mods : SMap StatP) (chgs : SMap Stat) : Res (SMap StatP × SMap Stat) := do
  let (_, r) ← getData mods ⟨0, .s⟩ false
  let mods' ← (if r.mayBeThere then setData mods arch ⟨date, .removed, none, none⟩ else .ok mods)
  let chgs' ← removeEaRecord arch date chgs
  .ok (mods', chgs')

/-- data_tree::get_name -/
def DTree.name : DTree → Bytes
  | .node n _ _ _ _ => n
/-- is it a data_dir -/
def DTree.isDir : DTree → Bool
  | .node _ d _ _ _ => d
def DTree.mods : DTree → SMap StatP
  | .node _ _ m _ _ => m
def DTree.chgs : DTree → SMap Stat
  | .node _ _ _ c _ => c
def DTree.sub : DTree → List DTree
  | .node _ _ _ _ l => l

/-- replace the first child having this name (read_child, src/libdar/data_dir.cpp:281-296, gives a pointer to it) -/
def replChild (l : List DTree) (name : Bytes) (t : DTree) : List DTree :=
  match l with
  | [] => []
  | c :: l => if c.name = name then t :: l else c :: replChild l name t
/-- remove_child, src/libdar/data_dir.cpp:588-601 -/
def dropChild (l : List DTree) (name : Bytes) : List DTree :=
  match l with
  | [] => []
  | c :: l => if c.name = name then l else c :: dropChild l name
/-- what find_or_addition gives for the child found, or not (src/libdar/data_dir.cpp:133-176): a data_tree that becomes a data_dir keeps its records -/
def foundOrNew (name : Bytes) (dir : Bool) (c : Option DTree) : DTree :=
  match c with
  | none => .node name dir [] [] []
  | some (.node n d m e s) => if d = false ∧ dir = true then .node n true m e [] else .node n d m e s
/-- the children after find_or_addition, the child returned having been changed to `t`: a new or upgraded one is the last, another one keeps its place -/
def storeChild (l : List DTree) (name : Bytes) (dir : Bool) (c : Option DTree) (t : DTree) : List DTree :=
  match c with
  | none => l ++ [t]
  | some c => if c.isDir = false ∧ dir = true then dropChild l name ++ [t] else replChild l name t
/-- read_child, src/libdar/data_dir.cpp:281-296 -/
def readChild (l : List DTree) (name : Bytes) : Option DTree := l.find? (fun c => c.name = name)

/-- the records of the data_tree after `add`; the recursion of data_tree_update_with for a directory is done on `sub` -/
def addNode (arch : Nat) (i : InodeB) (st : SavedStatus) (f : Option FileB) (recur : List DTree → Res (List DTree)) (t : DTree) : Res DTree :=
  match t with
  | .node n d m e s => do
    let (m', e') ← addInodeMaps arch i st f m e
    let s' ← recur s
    .ok (.node n d m' e' s')
def addGone (arch : Nat) (date : DateT) (t : DTree) : Res DTree :=
  match t with
  | .node n d m e s => do
    let (m', e') ← addGoneMaps arch date m e
    .ok (.node n d m' e' s)

mutual
/-- one turn of the loop of data_dir::data_tree_update_with, src/libdar/data_dir.cpp:535-580, on the children of a data_dir.  cat_mirage::get_inode
gives the inode the name of the hard link (src/libdar/cat_mirage.cpp:269-282). -/
def dbUpdate (arch : Nat) (stars : Nat → Star) (e : Entry) (l : List DTree) : Res (List DTree) :=
  match e with
  | .node n => do
    let t ← addNode arch n.inode n.status n.special.asFile .ok (foundOrNew n.name false (readChild l n.name))
    .ok (storeChild l n.name false (readChild l n.name) t)
  | .mirage name k => do
    let n := (stars k).node
    let t ← addNode arch n.inode n.status n.special.asFile .ok (foundOrNew name false (readChild l name))
    .ok (storeChild l name false (readChild l name) t)
  | .dir name st i ch => do
    let t ← addNode arch i st none (dbUpdateList arch stars ch) (foundOrNew name true (readChild l name))
    .ok (storeChild l name true (readChild l name) t)
  | .detruit name _ date =>
    if date.isNull then .ok l
    else do
      let t ← addGone arch date (foundOrNew name false (readChild l name))
      .ok (storeChild l name false (readChild l name) t)
  | .ignored _ => .ok l
def dbUpdateList (arch : Nat) (stars : Nat → Star) (es : List Entry) (l : List DTree) : Res (List DTree) :=
  match es with
  | [] => .ok l
  | e :: es => do
    let l' ← dbUpdate arch stars e l
    dbUpdateList arch stars es l'
end

/-- data_tree::fix_corruption, src/libdar/data_tree.cpp:845-866 -/
def fixMaps (mods : SMap StatP) (chgs : SMap Stat) : Bool := mods.all (fun p => !p.2.present.there) && chgs.all (fun p => !p.2.present.there)
mutual
/-- data_tree::fix_corruption, data_dir::fix_corruption (src/libdar/data_dir.cpp:496-509).  The children that could be removed are lost even when the
answer is false: an exception follows, the object is then of no use. -/
def DTree.fix (t : DTree) : Bool :=
  match t with
  | .node _ _ m c s => DTree.fixList s && fixMaps m c
def DTree.fixList (l : List DTree) : Bool :=
  match l with
  | [] => true
  | t :: l => t.fix && DTree.fixList l
end

/-- `*(tmp_archive_set.rbegin())`: the archives are found in increasing order; read_data, src/libdar/data_tree.cpp: the date of its record -/
def lastDate (set : List Nat) (mods : SMap StatP) : Res DateT :=
  match set.getLast? with
  | none => .error .bug
  | some n => match mods.get n with
    | none => .error .bug
    | some s => .ok s.date

/-- one pass of the loop of finalize_except_self, src/libdar/data_dir.cpp:342-363: the children treated, or the children left when one had to be removed
(Edata): the loop then starts again from the first child -/
def finPass (fin : DTree → Res DTree) (done : List DTree) : List DTree → Res (List DTree × Bool)
  | [] => .ok (done, true)
  | t :: l => match fin t with
    | .ok t' => finPass fin (done ++ [t']) l
    | .error .data => .ok (done ++ l, false)
    | .error e => .error e
/-- the loop of finalize_except_self; each new pass has one child less -/
def finChildren (fin : DTree → Res DTree) : Nat → List DTree → Res (List DTree)
  | 0, _ => .error .diverge
  | k + 1, l => do
    let (l', b) ← finPass fin [] l
    if b then .ok l' else finChildren fin k l'

/-- data_tree::finalize and data_dir::finalize, src/libdar/data_dir.cpp:313-340; `fuel` bounds the depth of the tree -/
def DTree.finalize (arch ign : Nat) : Nat → DateT → DTree → Res DTree
  | 0, _, _ => .error .diverge
  | fuel + 1, del, .node n d mods chgs sub => do
    let (mods', lm) ← finalizeMods arch del ign mods
    let chgs' ← finalizeChgs arch del ign lm chgs
    if d then do
      let (set, r) ← getData mods' ⟨0, .s⟩ false
      if r = .notFound then (if (DTree.node n d mods' chgs' sub).fix then .error .data else .error .range)
      else do
        let nd ← lastDate set mods'
        let sub' ← finChildren (DTree.finalize arch ign fuel nd) (sub.length + 1) sub
        .ok (.node n d mods' chgs' sub')
    else .ok (.node n d mods' chgs' sub)

mutual
/-- depth of the tree -/
def DTree.depth (t : DTree) : Nat :=
  match t with
  | .node _ _ _ _ s => DTree.depthList s + 1
def DTree.depthList (l : List DTree) : Nat :=
  match l with
  | [] => 0
  | t :: l => max t.depth (DTree.depthList l)
end

/-- data_dir::finalize_except_self on the root, src/libdar/data_dir.cpp:342-363 -/
def finalizeRoot (arch : Nat) (del : DateT) (ign : Nat) (t : DTree) : Res DTree :=
  match t with
  | .node n d m c sub => do
    let sub' ← finChildren (DTree.finalize arch ign (DTree.depthList sub) del) (sub.length + 1) sub
    .ok (.node n d m c sub')

/-- what add_archive takes from the archive: its catalogue, the modification date of its root directory, how it is encrypted -/
structure ArchIn where
  root : List Entry
  stars : Nat → Star
  rootMod : DateT
  crypto : CryptoAlgo
  pass : Bytes
  cryptoSize : Nat

/-- data_tree_update_with on the root -/
def updateRoot (arch : Nat) (a : ArchIn) (t : DTree) : Res DTree :=
  match t with
  | .node n d m c sub => do
    let sub' ← dbUpdateList arch a.stars a.root sub
    .ok (.node n d m c sub')

/-- i_database::add_archive, src/libdar/i_database.cpp:288-330 -/
def Database.addArchive (db : Database) (a : ArchIn) (chemin basename : Bytes) : Res Database :=
  if basename = [] then .error .range
  else do
    let num := db.coord.length
    let t ← updateRoot num a db.files
    let t ← (if num > 1 then finalizeRoot num a.rootMod 0 t else .ok t)
    .ok { db with coord := db.coord ++ [⟨chemin, basename, a.rootMod, a.crypto, a.pass, a.cryptoSize⟩], files := t }

/-- `for re in re_finalize: files->finalize_except_self(re, get_root_last_mod(re), re + 1)` -/
def refinalize (coord : List ArchData) : List Nat → DTree → Res DTree
  | [], t => .ok t
  | k :: l, t => match coord[k]? with
    | none => .error .bug
    | some a => do
      let t ← finalizeRoot k a.rootMod (k + 1) t
      refinalize coord l t
/-- the set `re_finalize` in increasing order, src/libdar/i_database.cpp:474-497 (no element twice) -/
def refinalizeSet (size src dst : Nat) : List Nat :=
  if src < dst then [src, dst] ++ (if dst + 1 < size then [dst + 1] else [])
  else if src = dst then dst :: (if dst + 1 < size then [dst + 1] else [])
  else dst :: ((if dst + 1 < size then [dst + 1] else []) ++ (if src + 1 < size then [src + 1] else []))
/-- i_database::set_permutation, src/libdar/i_database.cpp:453-511 -/
def Database.setPermutation (db : Database) (src dst : Nat) : Res Database :=
  if src ≥ db.coord.length ∨ src = 0 then .error .range
  else if dst ≥ db.coord.length ∨ dst = 0 then .error .range
  else match db.coord[src]? with
    | none => .error .bug
    | some moved => do
      let coord := (db.coord.eraseIdx src).insertIdx dst moved
      let t ← db.files.permute src dst
      let t ← refinalize coord (refinalizeSet coord.length src dst) t
      .ok { db with coord := coord, files := t }

/-- the second loop of check_map_order, src/libdar/data_tree.cpp:911-946 (the vector `dates` holds the dates of the map at the place of the archive
number: they are met in the order of the map): are the dates in order -/
def datesSorted {α : Type} (date : α → DateT) : SMap α → DateT → Res Bool
  | [], _ => .ok true
  | (_, s) :: m, last => do
    let g ← (date s).ge last
    if g then datesSorted date m (date s) else .ok false
/-- check_map_order, src/libdar/data_tree.cpp:881-949: the value returned and `initial_warn`; `ignore` is the answer of the user to "Do you want to ignore
the same type of error for other files?" -/
def checkMapOrder {α : Type} (date : α → DateT) (ignore : Bool) (m : SMap α) (warn : Bool) : Res (Bool × Bool) := do
  let b ← datesSorted date m ⟨0, .s⟩
  .ok (if b then (true, warn) else if warn then (if ignore then (false, warn) else (true, false)) else (true, warn))
mutual
/-- data_tree::check_order, src/libdar/data_tree.hpp:100; data_dir::check_order, src/libdar/data_dir.cpp:294-311 -/
def DTree.checkOrder (ignore : Bool) (t : DTree) (warn : Bool) : Res (Bool × Bool) :=
  match t with
  | .node _ _ m c s => do
    let (r, w) ← checkMapOrder StatP.date ignore m warn
    let (r, w) ← (if r then checkMapOrder Stat.date ignore c w else .ok (r, w))
    if r then DTree.checkOrderList ignore s w else .ok (r, w)
def DTree.checkOrderList (ignore : Bool) (l : List DTree) (warn : Bool) : Res (Bool × Bool) :=
  match l with
  | [] => .ok (true, warn)
  | t :: l => do
    let (r, w) ← t.checkOrder ignore warn
    if r then DTree.checkOrderList ignore l w else .ok (r, w)
end
/-- i_database::check_order, src/libdar/i_database.hpp:210-220, when the check is asked for -/
def Database.checkOrder (db : Database) (ignore : Bool) : Res Bool := do
  let (r, w) ← db.files.checkOrder ignore true
  .ok (r && w)

end Dar
