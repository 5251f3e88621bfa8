import Verif.Model.Datetime
/- Model of src/libdar/criterium.{hpp,cpp} and src/libdar/crit_action.{hpp,cpp}: overwriting policies. -/
namespace Dar

/-- Types of inodes: the leaf classes below cat_inode (cat_door derives from cat_file). -/
inductive InoKind where | file | door | symlink | dir | chardev | blockdev | pipe | socket
  deriving DecidableEq, Repr

/-- src/libdar/cat_status.hpp:43-51 saved_status -/
inductive SavedStatus where | saved | inodeOnly | fake | notSaved | delta
  deriving DecidableEq, Repr
/-- src/libdar/cat_status.hpp:54-62 ea_saved_status -/
inductive EaStatus where | none | part | fake | full | removed
  deriving DecidableEq, Repr

/-- What a cat_inode answers to the questions asked by the criteria. -/
structure Ino where
  kind : InoKind
  uid : Nat
  gid : Nat
  perm : Nat
  mtime : DateT
  ctime : DateT
  status : SavedStatus
  size : Nat          -- plain files
  dirty : Bool
  sparse : Bool
  deltaSig : Bool
  major : Nat         -- devices
  minor : Nat
  target : Bytes      -- symbolic links
  eaStatus : EaStatus
  eaCount : Nat       -- number of EA, when eaStatus is full
  eaSize : Nat        -- space used by EA, when eaStatus is full
  deriving DecidableEq, Repr

/-- A cat_nomme: an inode, a hard link to an inode (cat_mirage, `first` telling it is the first met), or the record of
a deletion (cat_detruit). -/
inductive CEntry where
  | inode (i : Ino)
  | mirage (i : Ino) (first : Bool)
  | detruit
  deriving DecidableEq, Repr

/-- src/libdar/criterium.cpp:596-607 get_inode -/
def CEntry.getInode : CEntry → Option Ino
  | .inode i => some i
  | .mirage i _ => some i
  | .detruit => none

/-- dynamic_cast<const cat_file *> -/
def Ino.isFile (i : Ino) : Bool := i.kind = .file ∨ i.kind = .door
/-- dynamic_cast<const cat_device *> -/
def Ino.isDevice (i : Ino) : Bool := i.kind = .chardev ∨ i.kind = .blockdev

/-- dynamic_cast<const cat_inode *> or cat_mirage, src/libdar/criterium.cpp:38-45 -/
def CEntry.isInodeB : CEntry → Bool
  | .inode _ => true
  | .mirage _ _ => true
  | .detruit => false
/-- dynamic_cast<const cat_directory *>: criterium.hpp crit_in_place_is_dir -/
def CEntry.isDirB : CEntry → Bool
  | .inode i => decide (i.kind = .dir)
  | _ => false
/-- crit_in_place_is_file -/
def CEntry.isFileB (x : CEntry) : Bool :=
  match x.getInode with | some i => i.isFile && !decide (i.kind = .door) | none => false
/-- dynamic_cast<const cat_mirage *>: crit_in_place_is_hardlinked_inode -/
def CEntry.isMirageB : CEntry → Bool
  | .mirage _ _ => true
  | _ => false
/-- crit_in_place_is_new_hardlinked_inode -/
def CEntry.isFirstMirageB : CEntry → Bool
  | .mirage _ f => f
  | _ => false
/-- crit_in_place_EA_present: the cast is done on the entry itself, not on get_inode -/
def CEntry.eaPresentB : CEntry → Bool
  | .inode i => decide (i.eaStatus ≠ .none) && decide (i.eaStatus ≠ .removed)
  | _ => false

/-- The criterium classes. -/
inductive Crit where
  | isInode | isDir | isFile | isHardlinked | isNewHardlinked
  | dataMoreRecent (hourshift : Nat)
  | dataMoreRecentThan (date hourshift : Nat)
  | dataBigger | dataSaved | dataDirty | dataSparse | hasDeltaSig | isBinaryPatch | sameInodeData
  | eaPresent
  | eaMoreRecent (hourshift : Nat)
  | eaMoreRecentThan (date hourshift : Nat)
  | moreEa | eaBigger | eaSaved | sameType
  | not (c : Crit)
  | and (l : List Crit)
  | or (l : List Crit)
  | invert (c : Crit)

/-- `a >= b || tools_is_equal_with_hourshift(hs, a, b)` -/
def dateGeShift (capa : TimeUnit) (hs : Nat) (a b : DateT) : Res Bool := do
  let g ← a.ge b
  if g then .ok true else equalHourshift capa hs a b

/-- src/libdar/criterium.cpp:402-438 crit_same_type::evaluate -/
def sameTypeEval (x y : CEntry) : Bool :=
  let is := fun (e : CEntry) (f : Ino → Bool) => match e.getInode with | some i => f i | none => false
  (is x Ino.isFile && is y Ino.isFile) ||
  (is x (·.kind = .symlink) && is y (·.kind = .symlink)) ||
  (is x (·.kind = .dir) && is y (·.kind = .dir)) ||
  (is x (·.kind = .chardev) && is y (·.kind = .chardev)) ||
  (is x (·.kind = .blockdev) && is y (·.kind = .blockdev)) ||
  (is x (·.kind = .pipe) && is y (·.kind = .pipe)) ||
  (is x (·.kind = .socket) && is y (·.kind = .socket)) ||
  (decide (x = .detruit) && decide (y = .detruit))

/-- src/libdar/criterium.cpp:172-246 crit_same_inode_data::evaluate -/
def sameInodeEval (x y : CEntry) : Res Bool :=
  if sameTypeEval x y = false then .ok false
  else if x = .detruit then .ok false
  else match x.getInode, y.getInode with
  | some i, some j =>
    if i.uid ≠ j.uid then .ok false
    else if i.gid ≠ j.gid then .ok false
    else if i.perm ≠ j.perm then .ok false
    else if i.mtime.eq j.mtime = false then .ok false
    else if i.isFile ∧ ¬ j.isFile then .error .bug
    else if i.isFile ∧ i.size ≠ j.size then .ok false
    else if i.isDevice ∧ i.status = .saved then
      if ¬ j.isDevice then .error .bug
      else if j.status ≠ .saved then .ok true
      else if i.major ≠ j.major then .ok false
      else if i.minor ≠ j.minor then .ok false
      else .ok true
    else if i.kind = .symlink ∧ i.status = .saved then
      if j.kind ≠ .symlink then .error .bug
      else if j.status ≠ .saved then .ok true
      else if i.target ≠ j.target then .ok false
      else .ok true
    else .ok true
  | _, _ => .error .bug

/-- src/libdar/criterium.cpp:263-273, 309-323: the date used for the EA of an entry -/
def eaDate (x : CEntry) : DateT :=
  match x.getInode with
  | some i => if i.eaStatus = .none ∨ i.eaStatus = .removed then ⟨0, .s⟩ else i.ctime
  | none => ⟨0, .s⟩

/-- src/libdar/criterium.cpp:335-348, 372-385 -/
def eaMeasure (f : Ino → Nat) (x : CEntry) : Nat :=
  match x.getInode with
  | some i => if i.eaStatus = .full then f i else 0
  | none => 0

/-- on the plain file behind an entry -/
def onFile (x : CEntry) (f : Ino → Bool) : Bool :=
  match x.getInode with
  | some i => i.isFile && f i
  | none => false

mutual
/-- evaluate of each criterium class: src/libdar/criterium.cpp:44-400; crit_not, crit_invert: criterium.hpp:507, 572;
crit_and, crit_or: criterium.cpp:488-516, 562-590. -/
def Crit.eval (capa : TimeUnit) (c : Crit) (x y : CEntry) : Res Bool :=
  match c with
  | .isInode => .ok x.isInodeB
  | .isDir => .ok x.isDirB
  | .isFile => .ok x.isFileB
  | .isHardlinked => .ok x.isMirageB
  | .isNewHardlinked => .ok x.isFirstMirageB
  | .dataMoreRecent hs =>
    match x.getInode with
    | none => .ok true
    | some i => dateGeShift capa hs i.mtime (match y.getInode with | some j => j.mtime | none => ⟨0, .s⟩)
  | .dataMoreRecentThan d hs =>
    match x.getInode with
    | none => .ok true
    | some i => dateGeShift capa hs i.mtime ⟨d, .s⟩
  | .dataBigger =>
    .ok (match x.getInode, y.getInode with
      | some i, some j => if i.isFile ∧ j.isFile then decide (i.size ≥ j.size) else true
      | _, _ => true)
  | .dataSaved => .ok (match x.getInode with | some i => decide (i.status = .saved) | none => true)
  | .dataDirty => .ok (onFile x (·.dirty))
  | .dataSparse => .ok (onFile x (·.sparse))
  | .hasDeltaSig => .ok (onFile x (·.deltaSig))
  | .isBinaryPatch => .ok (onFile x (fun i => decide (i.status = .delta)))
  | .sameInodeData => sameInodeEval x y
  | .eaPresent => .ok x.eaPresentB
  | .eaMoreRecent hs =>
    match y.getInode with
    | none => .ok true
    | some j => if j.eaStatus = .none ∨ j.eaStatus = .removed then .ok true else dateGeShift capa hs (eaDate x) j.ctime
  | .eaMoreRecentThan d hs => dateGeShift capa hs (eaDate x) ⟨d, .s⟩
  | .moreEa => .ok (decide (eaMeasure Ino.eaCount x ≥ eaMeasure Ino.eaCount y))
  | .eaBigger => .ok (decide (eaMeasure Ino.eaSize x ≥ eaMeasure Ino.eaSize y))
  | .eaSaved => .ok (match x.getInode with | some i => decide (i.eaStatus = .full) | none => false)
  | .sameType => .ok (sameTypeEval x y)
  | .not c => (c.eval capa x y).map (!·)
  | .and l => if l.isEmpty then .error .range else Crit.evalAll capa l x y
  | .or l => if l.isEmpty then .error .range else Crit.evalAny capa l x y
  | .invert c => c.eval capa y x
def Crit.evalAll (capa : TimeUnit) (l : List Crit) (x y : CEntry) : Res Bool :=
  match l with
  | [] => .ok true
  | c :: l => match c.eval capa x y with
    | .error e => .error e
    | .ok b => if b then Crit.evalAll capa l x y else .ok false
def Crit.evalAny (capa : TimeUnit) (l : List Crit) (x y : CEntry) : Res Bool :=
  match l with
  | [] => .ok false
  | c :: l => match c.eval capa x y with
    | .error e => .error e
    | .ok b => if b then .ok true else Crit.evalAny capa l x y
end

/-- src/libdar/crit_action.hpp:44-73 -/
inductive OverData where | preserve | overwrite | preserveMark | overwriteMark | remove | undefined | ask
  deriving DecidableEq, Repr
inductive OverEa where | preserve | overwrite | clear | preserveMark | overwriteMark | mergePreserve | mergeOverwrite | undefined | ask
  deriving DecidableEq, Repr

/-- crit_constant_action, testing, crit_chain -/
inductive Action where
  | const (d : OverData) (e : OverEa)
  | test (c : Crit) (t f : Action)
  | chain (l : List Action)

mutual
/-- get_action: src/libdar/crit_action.hpp:128, 168-174; crit_action.cpp:127-163 -/
def Action.get (capa : TimeUnit) (a : Action) (x y : CEntry) : Res (OverData × OverEa) :=
  match a with
  | .const d e => .ok (d, e)
  | .test c t f => match c.eval capa x y with
    | .error e => .error e
    | .ok b => if b then t.get capa x y else f.get capa x y
  | .chain l => if l.isEmpty then .error .range else Action.chainGet capa l x y .undefined .undefined
/-- the loop of crit_chain::get_action, `d` and `e` being the values of `data` and `ea` so far -/
def Action.chainGet (capa : TimeUnit) (l : List Action) (x y : CEntry) (d : OverData) (e : OverEa) : Res (OverData × OverEa) :=
  match l with
  | [] => .ok (d, e)
  | a :: l =>
    if d = .undefined ∨ e = .undefined then
      match a.get capa x y with
      | .error er => .error er
      | .ok (td, te) =>
        Action.chainGet capa l x y (if d = .undefined ∨ td ≠ .undefined then td else d) (if e = .undefined ∨ te ≠ .undefined then te else e)
    else .ok (d, e)
end

end Dar
