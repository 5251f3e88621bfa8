import Verif.Model.Crc
import Verif.Model.Datetime
import Verif.Model.Text
/- Model of the dar_manager database: src/libdar/data_tree.{hpp,cpp}, candidates.cpp, data_dir.cpp, i_database.cpp.
Archive numbers are natural numbers; the limit of 65533 archives (archive_num.hpp) appears in the reading and writing
of numbers only. -/
namespace Dar

/-- src/libdar/database_aux.hpp:54-63 -/
inductive Etat where | saved | patch | patchUnusable | inode | present | removed | absent
  deriving DecidableEq, Repr
/-- src/libdar/database_aux.hpp db_lookup -/
inductive Lookup where | foundPresent | foundRemoved | notFound | notRestorable
  deriving DecidableEq, Repr

/-- data_tree::status, src/libdar/data_tree.hpp:182-200 -/
structure Stat where
  date : DateT
  present : Etat
  deriving DecidableEq, Repr
/-- data_tree::status_plus, src/libdar/data_tree.hpp:203-230 -/
structure StatP where
  date : DateT
  present : Etat
  base : Option Crc
  result : Option Crc
  deriving DecidableEq, Repr

/-- std::map<archive_num, α>: its elements in the order of iteration (increasing keys). -/
abbrev SMap (α : Type) := List (Nat × α)

/-- map::find -/
def SMap.get {α : Type} (m : SMap α) (k : Nat) : Option α :=
  match m with
  | [] => none
  | (k', v) :: m => if k' = k then some v else SMap.get m k
/-- `m[k] = v` -/
def SMap.put {α : Type} (m : SMap α) (k : Nat) (v : α) : SMap α :=
  match m with
  | [] => [(k, v)]
  | (k', v') :: m => if k < k' then (k, v) :: (k', v') :: m else if k = k' then (k, v) :: m else (k', v') :: SMap.put m k v
/-- map::erase of a key -/
def SMap.del {α : Type} (m : SMap α) (k : Nat) : SMap α := m.filter (fun p => decide (p.1 ≠ k))

/-! ### Lookup -/

/-- first switch of candidates::add, src/libdar/candidates.cpp:39-60: `none` when the entry is ignored -/
def candFirst (ewr : Bool) (st : List (Nat × Etat)) (e : Etat) : Option (List (Nat × Etat)) :=
  match e with
  | .saved => some []
  | .removed => if ewr then none else some []
  | .absent => if ewr then none else some []
  | .patch => some st
  | .present => some st
  | .inode => some st
  | .patchUnusable => some []

/-- second part of candidates::add, src/libdar/candidates.cpp:62-95, on a non-empty stack: the stack the entry is pushed
onto, or nothing when it is ignored -/
def candSecond (st : List (Nat × Etat)) (e : Etat) : Res (Option (List (Nat × Etat))) :=
  if e = .present then .ok none
  else match st.getLast? with
    | none => .ok (some st)
    | some (_, b) => match b with
      | .saved => .ok (some st)
      | .patch => .ok (some st)
      | .present => if st.length > 1 then .error .bug else .ok (some [])
      | .inode => .ok (some st.dropLast)
      | .removed => .ok (some [])
      | .absent => .ok (some [])
      | .patchUnusable => .ok none

/-- candidates::add, src/libdar/candidates.cpp:35-101; the two deques `num` and `status` always have the same length,
they are one list of pairs -/
def candAdd (ewr : Bool) (st : List (Nat × Etat)) (n : Nat) (e : Etat) : Res (List (Nat × Etat)) :=
  match candFirst ewr st e with
  | none => .ok st
  | some st1 =>
    if st1.isEmpty then .ok [(n, e)]
    else match candSecond st1 e with
      | .error er => .error er
      | .ok none => .ok st1
      | .ok (some st2) => .ok (st2 ++ [(n, e)])

/-- candidates::get_status, src/libdar/candidates.cpp:103-128 -/
def candStatus (st : List (Nat × Etat)) : Lookup :=
  match st.head? with
  | none => .notFound
  | some (_, e) => match e with
    | .saved => .foundPresent
    | .patch => .notRestorable
    | .inode => .notRestorable
    | .present => .notRestorable
    | .patchUnusable => .notRestorable
    | .removed => .foundRemoved
    | .absent => .foundRemoved

/-- datetime::is_null -/
def DateT.isNull (d : DateT) : Bool := d.val = 0

/-- the test `it->second.date >= max_seen_date && (date.is_null() || it->second.date <= date)`,
src/libdar/data_tree.cpp:374-377 -/
def dateVisible (date max d : DateT) : Res Bool := do
  let g ← d.ge max
  if g then (if date.isNull then .ok true else d.le date) else .ok false

/-- loop of data_tree::get_data, src/libdar/data_tree.cpp:371-384 -/
def getDataLoop (date : DateT) (ewr : Bool) : SMap StatP → DateT → List (Nat × Etat) → Res (List (Nat × Etat))
  | [], _, st => .ok st
  | (n, s) :: m, max, st => do
    let v ← dateVisible date max s.date
    if v then do
      let st ← candAdd ewr st n s.present
      getDataLoop date ewr m s.date st
    else getDataLoop date ewr m max st

/-- data_tree::get_data, src/libdar/data_tree.cpp:360-388 with candidates::set_the_set: the archives and the result -/
def getData (m : SMap StatP) (date : DateT) (ewr : Bool) : Res (List Nat × Lookup) := do
  let st ← getDataLoop date ewr m ⟨0, .s⟩ []
  .ok (st.map Prod.fst, candStatus st)

/-- local variables of data_tree::get_EA -/
structure EaSt where
  maxSeen : DateT := ⟨0, .s⟩
  maxReal : DateT := ⟨0, .s⟩
  presenceSeen : Bool := false
  presenceReal : Bool := false
  lastSeen : Nat := 0
  lastEwr : Nat := 0
  archive : Nat := 0
  deriving DecidableEq, Repr

/-- first block of the loop of get_EA, src/libdar/data_tree.cpp:404-425 -/
def eaSeen (date : DateT) (n : Nat) (s : Stat) (st : EaSt) : Res EaSt := do
  let v ← dateVisible date st.maxSeen s.date
  if v then
    match s.present with
    | .saved => .ok { st with maxSeen := s.date, lastSeen := n, presenceSeen := true }
    | .present => .ok { st with maxSeen := s.date, lastSeen := n, presenceSeen := true }
    | .removed => .ok { st with maxSeen := s.date, lastSeen := n, presenceSeen := false }
    | .absent => .ok { st with maxSeen := s.date, lastSeen := n, presenceSeen := false }
    | _ => .error .bug
  else .ok st

/-- second block, src/libdar/data_tree.cpp:427-451 -/
def eaReal (date : DateT) (n : Nat) (s : Stat) (st : EaSt) : Res EaSt := do
  let v ← dateVisible date st.maxReal s.date
  if v && decide (s.present ≠ .present) then
    match s.present with
    | .saved => .ok { st with maxReal := s.date, archive := n, presenceReal := true, lastEwr := n }
    | .removed => .ok { st with maxReal := s.date, archive := n, presenceReal := false }
    | .absent => .ok { st with maxReal := s.date, archive := n, presenceReal := false }
    | _ => .error .bug
  else .ok st

/-- loop of get_EA -/
def getEaLoop (date : DateT) : SMap Stat → EaSt → Res EaSt
  | [], st => .ok st
  | (n, s) :: m, st => do
    let st ← eaSeen date n s st
    let st ← eaReal date n s st
    getEaLoop date m st

/-- end of get_EA, src/libdar/data_tree.cpp:456-486 -/
def getEaEnd (ewr : Bool) (st : EaSt) : Res (Nat × Lookup) :=
  let st := if ewr ∧ st.lastEwr > 0 then { st with archive := st.lastEwr, presenceSeen := true, presenceReal := true } else st
  if st.archive = 0 then
    if st.lastSeen ≠ 0 then .ok (0, .notRestorable) else .ok (0, .notFound)
  else if st.lastSeen ≠ 0 then
    if st.presenceSeen ∧ ¬ st.presenceReal then .ok (st.archive, .notRestorable)
    else if st.presenceSeen ≠ st.presenceReal then .error .bug
    else if st.presenceReal then .ok (st.archive, .foundPresent)
    else .ok (st.archive, .foundRemoved)
  else .error .bug

/-- data_tree::get_EA, src/libdar/data_tree.cpp:390-490 -/
def getEA (m : SMap Stat) (date : DateT) (ewr : Bool) : Res (Nat × Lookup) := do
  let st ← getEaLoop date m {}
  getEaEnd ewr st

/-! ### Changes -/

/-- body of check_delta_validity for one entry, src/libdar/data_tree.cpp:1003-1036: the entry updated, the new value of
`prev` and whether the entry is sound -/
def deltaStep (prev : Option Crc) (s : StatP) : Res (StatP × Option Crc × Bool) :=
  if s.present = .saved then .ok (s, s.result, true)
  else if s.present = .patch ∨ s.present = .patchUnusable then
    match s.base with
    | none => .error .bug
    | some b =>
      match prev with
      | none => .ok ({ s with present := .patchUnusable }, s.result, false)
      | some p => do
        let e ← p.eqv b
        if e then .ok ({ s with present := .patch }, s.result, true)
        else .ok ({ s with present := .patchUnusable }, s.result, false)
  else if s.present = .present ∨ s.present = .inode then .ok (s, prev, true)
  else .ok (s, none, true)

/-- data_tree::check_delta_validity, src/libdar/data_tree.cpp:995-1042 (the result it returns is ignored by all callers) -/
def checkDelta (prev : Option Crc) : SMap StatP → Res (SMap StatP)
  | [] => .ok []
  | (n, s) :: m => do
    let (s', prev', _) ← deltaStep prev s
    let m' ← checkDelta prev' m
    .ok ((n, s') :: m')

/-- data_tree: filename, last_mod, last_change; data_dir adds the children (rejetons), `dir` telling the class. -/
inductive DTree where
  | node (name : Bytes) (dir : Bool) (mods : SMap StatP) (chgs : SMap Stat) (sub : List DTree)

/-- data_tree::set_data, src/libdar/data_tree.hpp:91-95 -/
def setData (m : SMap StatP) (n : Nat) (s : StatP) : Res (SMap StatP) := checkDelta none (m.put n s)
/-- data_tree::set_EA, src/libdar/data_tree.hpp:97 -/
def setEA (m : SMap Stat) (n : Nat) (s : Stat) : SMap Stat := m.put n s

/-- data_tree::data_tree_permutation, src/libdar/data_tree.cpp:1117-1140 -/
def dtPerm (src dst x : Nat) : Nat :=
  if src < dst then
    if x < src ∨ x > dst then x else if x = src then dst else x - 1
  else if src = dst then x
  else if x > src ∨ x < dst then x else if x = src then dst else x + 1

/-- rebuilding a map with other keys: loops of apply_permutation and skip_out -/
def reKey {α : Type} (f : Nat → Nat) (m acc : SMap α) : SMap α :=
  match m with
  | [] => acc
  | (k, v) :: m => reKey f m (SMap.put acc (f k) v)

/-- data_tree::apply_permutation, src/libdar/data_tree.cpp:749-774 -/
def permMods (src dst : Nat) (m : SMap StatP) : Res (SMap StatP) := checkDelta none (reKey (dtPerm src dst) m [])

/-- numbers after the removal of archive `num`, src/libdar/data_tree.cpp:784-787 -/
def skipNum (num k : Nat) : Nat := if k > num then k - 1 else k

/-- first part of remove_all_from, src/libdar/data_tree.cpp:661-673: the "removed" record goes to the next archive -/
def propagateMods (arch last : Nat) (m : SMap StatP) : Res (SMap StatP) :=
  if arch < last ∧ m.length > 1 then
    match m.get arch with
    | none => .ok m
    | some s => if s.present = .removed then
        match m.get (arch + 1) with
        | some _ => .ok m
        | none => setData m (arch + 1) ⟨s.date, .removed, none, none⟩
      else .ok m
  else .ok m
/-- src/libdar/data_tree.cpp:674-680 -/
def propagateChgs (arch last : Nat) (m : SMap Stat) : SMap Stat :=
  if arch < last ∧ m.length > 1 then
    match m.get arch with
    | none => m
    | some s => if s.present = .removed then
        match m.get (arch + 1) with
        | some _ => m
        | none => setEA m (arch + 1) ⟨s.date, .removed⟩
      else m
  else m

/-- data_tree::remove_all_from, src/libdar/data_tree.cpp:650-707, on the maps -/
def removeMods (arch last : Nat) (m : SMap StatP) : Res (SMap StatP) := do
  let m ← propagateMods arch last m
  checkDelta none (m.del arch)
def removeChgs (arch last : Nat) (m : SMap Stat) : SMap Stat := (propagateChgs arch last m).del arch

mutual
/-- data_tree::remove_all_from, data_dir::remove_all_from (src/libdar/data_dir.cpp:316-340): the updated object and
whether it holds nothing any more.  After having removed a child, the code starts again from the first child; treating
a child a second time changes nothing (C30_remove_twice), each child is treated once here. -/
def DTree.remove (arch last : Nat) (t : DTree) : Res (DTree × Bool) :=
  match t with
  | .node name dir mods chgs sub => do
    let sub' ← DTree.removeList arch last sub
    let mods' ← removeMods arch last mods
    let chgs' := removeChgs arch last chgs
    .ok (.node name dir mods' chgs' sub', mods'.isEmpty && chgs'.isEmpty && sub'.isEmpty)
def DTree.removeList (arch last : Nat) (l : List DTree) : Res (List DTree) :=
  match l with
  | [] => .ok []
  | t :: l => do
    let (t', empty) ← DTree.remove arch last t
    let l' ← DTree.removeList arch last l
    .ok (if empty then l' else t' :: l')
end

mutual
/-- skip_out, src/libdar/data_tree.cpp:776-808, src/libdar/data_dir.cpp:400-410 -/
def DTree.skipOut (num : Nat) (t : DTree) : DTree :=
  match t with
  | .node name dir mods chgs sub => .node name dir (reKey (skipNum num) mods []) (reKey (skipNum num) chgs []) (DTree.skipOutList num sub)
def DTree.skipOutList (num : Nat) (l : List DTree) : List DTree :=
  match l with
  | [] => []
  | t :: l => t.skipOut num :: DTree.skipOutList num l
end

mutual
/-- apply_permutation, src/libdar/data_tree.cpp:749-774, src/libdar/data_dir.cpp:386-397 -/
def DTree.permute (src dst : Nat) (t : DTree) : Res DTree :=
  match t with
  | .node name dir mods chgs sub => do
    let mods' ← permMods src dst mods
    let sub' ← DTree.permuteList src dst sub
    .ok (.node name dir mods' (reKey (dtPerm src dst) chgs []) sub')
def DTree.permuteList (src dst : Nat) (l : List DTree) : Res (List DTree) :=
  match l with
  | [] => .ok []
  | t :: l => do
    let t' ← t.permute src dst
    let l' ← DTree.permuteList src dst l
    .ok (t' :: l')
end

/-! ### Storage -/

/-- archive_num::write_to_file, src/libdar/archive_num.cpp:58-65 -/
def putNum (n : Nat) : Bytes := [UInt8.ofNat (n / 256), UInt8.ofNat n]
/-- archive_num::read_from_file, src/libdar/archive_num.cpp:49-56 (the number of bytes read is not checked by the code,
missing bytes are an error here).  The value is not checked either. -/
def getNum : Reader Nat := do
  let l ← readExact 2
  pure ((l.getD 0 0).toNat * 256 + (l.getD 1 0).toNat)

/-- src/libdar/data_tree.hpp:168-174 -/
def Etat.char : Etat → UInt8
  | .saved => 83 | .patch => 79 | .patchUnusable => 85 | .inode => 73 | .present => 80 | .removed => 82 | .absent => 65
/-- src/libdar/data_tree.cpp:96-122 -/
def charEtat (c : UInt8) : Res Etat :=
  if c = 83 then .ok .saved else if c = 80 then .ok .present else if c = 82 then .ok .removed else if c = 73 then .ok .inode
  else if c = 65 then .ok .absent else if c = 79 then .ok .patch else if c = 85 then .ok .patchUnusable else .error .range

/-- a result used in a reader -/
def Reader.lift {α : Type} (r : Res α) : Reader α := fun s => match r with | .error e => .error e | .ok a => .ok (a, s)

/-- data_tree::status::dump, src/libdar/data_tree.cpp:57-87 -/
def Stat.dump (s : Stat) : Res Bytes := do
  let d ← s.date.dump
  .ok (d ++ [s.present.char])
/-- db2archive_version, src/libdar/datetime.cpp:468-475 -/
def db2arch (v : Nat) : ArchVer := if v > 3 then ⟨9, 0⟩ else ⟨8, 0⟩
/-- data_tree::status::read, src/libdar/data_tree.cpp:89-123; `fits`: see dateRead -/
def statRead (fits : Nat → Bool) (v : Nat) : Reader Stat := do
  let d ← dateRead fits (db2arch v)
  let c ← readByte
  let e ← Reader.lift (charEtat c)
  pure ⟨d, e⟩

/-- data_tree::status_plus::dump, src/libdar/data_tree.cpp:155-169 -/
def StatP.dump (s : StatP) : Res Bytes := do
  let d ← Stat.dump ⟨s.date, s.present⟩
  .ok (d ++ [(if s.base.isSome then 1 else 0) ||| (if s.result.isSome then 2 else 0)] ++
    (match s.base with | none => [] | some c => c.dump) ++ (match s.result with | none => [] | some c => c.dump))
/-- an optional checksum -/
def optCrc (b : Bool) : Reader (Option Crc) := if b then do let c ← crcRead false; pure (some c) else pure none
/-- data_tree::status_plus::read, src/libdar/data_tree.cpp:171-201 -/
def statPRead (fits : Nat → Bool) (v : Nat) : Reader StatP := do
  let s ← statRead fits v
  if v = 0 ∨ v > 7 then Reader.fail .bug
  else if v < 5 then pure ⟨s.date, s.present, none, none⟩
  else do
    let flag ← readByte
    let b ← optCrc (flag &&& 1 ≠ 0)
    let r ← optCrc (flag &&& 2 ≠ 0)
    pure ⟨s.date, s.present, b, r⟩

/-- concatenation of the dumps of a list -/
def dumpAll {α : Type} (f : α → Res Bytes) : List α → Res Bytes
  | [] => .ok []
  | a :: l => do
    let x ← f a
    let y ← dumpAll f l
    .ok (x ++ y)

/-- a map, src/libdar/data_tree.cpp:334-357 -/
def dumpMap {α : Type} (f : α → Res Bytes) (m : SMap α) : Res Bytes := do
  let b ← dumpAll (fun p => do let x ← f p.2; .ok (putNum p.1 ++ x)) m
  .ok (putInt m.length ++ b)
/-- reading a map: `last_mod[k] = sta` for each element, src/libdar/data_tree.cpp:269-318 -/
def readMap {α : Type} (r : Reader α) : Reader (SMap α) := do
  let n ← getInt
  let l ← readList (do let k ← getNum; let v ← r; pure (k, v)) n
  pure (l.foldl (fun m p => SMap.put m p.1 p.2) [])

mutual
/-- data_tree::dump, src/libdar/data_tree.cpp:323-358; data_dir::dump, src/libdar/data_dir.cpp:112-127 -/
def DTree.dump (t : DTree) : Res Bytes :=
  match t with
  | .node name dir mods chgs sub => do
    let a ← dumpMap StatP.dump mods
    let b ← dumpMap Stat.dump chgs
    let c ← DTree.dumpList sub
    .ok ([if dir then 100 else 116] ++ putStr name ++ a ++ b ++ (if dir then putInt sub.length ++ c else []))
def DTree.dumpList (l : List DTree) : Res Bytes :=
  match l with
  | [] => .ok []
  | t :: l => do
    let x ← t.dump
    let y ← DTree.dumpList l
    .ok (x ++ y)
end

/-- read_next_in_list_from_file, src/libdar/data_dir.cpp:609-629, with the constructors of data_tree
(data_tree.cpp:256-321) and data_dir (data_dir.cpp:62-92); database versions 2 to 7.  `fuel` bounds the depth of
directories. -/
def dtreeRead (fits : Nat → Bool) (v : Nat) : Nat → Reader DTree
  | 0 => Reader.fail .diverge
  | fuel + 1 => do
    let sig ← readByte
    if sig = 116 then do
      let name ← getStr
      let mods ← readMap (statPRead fits v)
      let chgs ← readMap (statRead fits v)
      pure (.node name false mods chgs [])
    else if sig = 100 then do
      let name ← getStr
      let mods ← readMap (statPRead fits v)
      let chgs ← readMap (statRead fits v)
      let n ← getInt
      let sub ← readList (dtreeRead fits v fuel) n
      pure (.node name true mods chgs sub)
    else Reader.fail .range

/-- crypto_algo, src/libdar/crypto.hpp -/
inductive CryptoAlgo where | none | scrambling | blowfish | aes256 | twofish256 | serpent256 | camellia256
  deriving DecidableEq, Repr
/-- src/libdar/crypto.cpp:84-105 -/
def CryptoAlgo.char : CryptoAlgo → UInt8
  | .none => 110 | .scrambling => 115 | .blowfish => 98 | .aes256 => 97 | .twofish256 => 116 | .serpent256 => 112 | .camellia256 => 99
/-- src/libdar/crypto.cpp:107-128 -/
def charCrypto (c : UInt8) : Res CryptoAlgo :=
  if c = 110 then .ok .none else if c = 115 then .ok .scrambling else if c = 98 then .ok .blowfish else if c = 97 then .ok .aes256
  else if c = 116 then .ok .twofish256 else if c = 112 then .ok .serpent256 else if c = 99 then .ok .camellia256 else .error .range

/-- archive_data, src/libdar/i_database.hpp:230-240 -/
structure ArchData where
  chemin : Bytes
  basename : Bytes
  rootMod : DateT
  crypto : CryptoAlgo
  pass : Bytes
  cryptoSize : Nat
  deriving DecidableEq, Repr

/-- i_database: coordinate, options_to_dar, dar_path, files; `version` and `crypto` of its header. -/
structure Database where
  version : Nat
  crypto : CryptoAlgo
  coord : List ArchData
  options : List Bytes
  darPath : Bytes
  files : DTree

/-- one archive record of i_database::dump, src/libdar/i_database.cpp:226-258 -/
def ArchData.dump (dbCrypto : CryptoAlgo) (a : ArchData) : Res Bytes := do
  let d ← a.rootMod.dump
  if a.crypto ≠ .none ∧ dbCrypto = .none then .error .range
  else .ok (putStr a.chemin ++ putStr a.basename ++ d ++ [a.crypto.char] ++
    (if a.crypto ≠ .none then putInt a.pass.length ++ a.pass ++ putInt a.cryptoSize else []))
/-- i_database::dump, src/libdar/i_database.cpp:202-285: what goes through the layers made by database_header_create
(compression, encryption), after the header which carries `version` -/
def Database.dump (db : Database) : Res Bytes := do
  let a ← dumpAll (ArchData.dump db.crypto) db.coord
  let t ← db.files.dump
  .ok (putInt db.coord.length ++ a ++ putVec db.options ++ putStr db.darPath ++ t)

/-- one archive record of i_database::build, src/libdar/i_database.cpp:115-166; `maxU` is the largest U_32 -/
def archDataRead (fits : Nat → Bool) (v : Nat) : Reader ArchData := do
  let chemin ← getStr
  let basename ← getStr
  let d ← (if v ≥ 3 then dateRead fits (db2arch v) else pure ⟨0, .s⟩)
  let cr ← (if v ≥ 7 then do let c ← readByte; Reader.lift (charCrypto c) else pure CryptoAlgo.none)
  if cr = .none then pure ⟨chemin, basename, d, .none, [], 0⟩
  else do
    let k ← getInt
    if k ≥ 2 ^ 32 then Reader.fail .range
    else do
      let pass ← readExact k
      let cs ← getInt
      if cs ≥ 2 ^ 32 then Reader.fail .range
      else pure ⟨chemin, basename, d, cr, pass, cs⟩
/-- PSEUDO_ROOT, src/libdar/path.cpp: "<ROOT>" -/
def pseudoRoot : Bytes := [60, 82, 79, 79, 84, 62]
/-- i_database::build, src/libdar/i_database.cpp:97-200, partial = false -/
def dbRead (fits : Nat → Bool) (v : Nat) (crypto : CryptoAlgo) (fuel : Nat) : Reader Database := do
  let n ← getInt
  let coord ← readList (archDataRead fits v) n
  if coord.isEmpty then Reader.fail .range
  else do
    let options ← getVec
    let darPath ← getStr
    let files ← dtreeRead fits v fuel
    match files with
    | .node _ true mods chgs sub => pure ⟨v, crypto, coord, options, darPath, .node pseudoRoot true mods chgs sub⟩
    | _ => Reader.fail .memory

/-- first loop of data_tree::finalize, src/libdar/data_tree.cpp:533-564: `found_in_archive`, `presence_max`, `num_max`,
`last_mtime` -/
structure FinSt where
  found : Bool := false
  presenceMax : Bool := false
  numMax : Nat := 0
  lastMtime : DateT := ⟨0, .s⟩
  deriving DecidableEq, Repr
/-- is the file there in that state (switch of src/libdar/data_tree.cpp:543-562) -/
def Etat.there : Etat → Bool
  | .removed => false | .absent => false | _ => true
def finLoop (arch ign : Nat) : SMap StatP → FinSt → FinSt
  | [], st => st
  | (n, s) :: m, st =>
    if st.found then st
    else if n = arch ∧ s.present ≠ .absent then finLoop arch ign m { st with found := true }
    else if n > st.numMax ∧ (n < ign ∨ ign = 0) then
      finLoop arch ign m { st with numMax := n, presenceMax := s.present.there, lastMtime := s.date }
    else finLoop arch ign m st
/-- data_tree::finalize, data part, src/libdar/data_tree.cpp:566-612; also returns last_mtime -/
def finalizeMods (arch : Nat) (del : DateT) (ign : Nat) (m : SMap StatP) : Res (SMap StatP × DateT) := do
  let st := finLoop arch ign m {}
  if st.found then .ok (m, st.lastMtime)
  else if st.presenceMax then do
    let g ← del.gt st.lastMtime
    let m' ← setData m arch ⟨if g then del else st.lastMtime, .absent, none, none⟩
    .ok (m', st.lastMtime)
  else match m.get arch with
    | none => .ok (m, st.lastMtime)
    | some s =>
      if s.present = .absent then .ok (m.del arch, st.lastMtime)
      else if s.present = .removed then .ok (m, st.lastMtime)
      else .error .bug
/-- second loop, src/libdar/data_tree.cpp:625-654 -/
def finLoopEa (arch ign : Nat) : SMap Stat → FinSt → Res FinSt
  | [], st => .ok st
  | (n, s) :: m, st =>
    if st.found then .ok st
    else if n = arch ∧ s.present ≠ .absent then finLoopEa arch ign m { st with found := true }
    else if n > st.numMax ∧ (n < ign ∨ ign = 0) then
      if s.present = .patch ∨ s.present = .patchUnusable ∨ s.present = .inode then .error .bug
      else finLoopEa arch ign m { st with numMax := n, presenceMax := s.present.there }
    else finLoopEa arch ign m st
/-- data_tree::finalize, EA part, src/libdar/data_tree.cpp:656-664 -/
def finalizeChgs (arch : Nat) (del : DateT) (ign : Nat) (lastMtime : DateT) (m : SMap Stat) : Res (SMap Stat) := do
  let st ← finLoopEa arch ign m {}
  if st.found then .ok m
  else if st.numMax ≠ 0 ∧ st.presenceMax then do
    let l ← lastMtime.lt del
    .ok (setEA m arch ⟨if l then del else lastMtime, .absent⟩)
  else .ok m

/-- i_database::remove_archive for one archive, src/libdar/i_database.cpp:346-353 -/
def Database.removeOne (db : Database) (i : Nat) : Res Database := do
  let (t, _) ← db.files.remove i (db.coord.length - 1)
  .ok { db with files := t.skipOut i, coord := db.coord.eraseIdx i }
/-- `for(i = max; i >= min; --i)` with `max = min + k - 1` -/
def Database.removeRange (db : Database) (min : Nat) : Nat → Res Database
  | 0 => .ok db
  | k + 1 => do
    let db ← db.removeOne (min + k)
    Database.removeRange db min k
/-- i_database::remove_archive, src/libdar/i_database.cpp:333-361 -/
def Database.removeArchive (db : Database) (min max : Nat) : Res Database :=
  if min > max then .error .range
  else if min = 0 ∨ max ≥ db.coord.length then .error .range
  else db.removeRange min (max + 1 - min)

end Dar
