import Verif.Model.Attributes
import Verif.Model.Criterium
/- Model of the restoration of filesystem specific attributes (FSA) under Linux, where the family HFS+ has no effect: the flags of chattr, src/libdar/filesystem_specific_attribute.cpp, and what
filesystem_restore::write, action_over_data and action_over_fsa (src/libdar/filesystem_restore.cpp) do with the flags of one plain file or directory that is not hard linked and whose
archived entry has FSA.  Model/Restore.lean has the whole restoration, with the FSA as one value. -/
namespace Dar.Ff
open Dar

/-- the flags of an inode -/
abbrev Flags := FsaNat → Bool

/-- the flags that exist -/
def allFlags : List FsaNat := [.appendOnly, .compressed, .noDump, .immutable, .dataJournaling, .secureDeletion, .noTailMerging, .undeletable, .noatimeUpdate, .synchronousDirectory,
  .synchronousUpdate, .topOfDirHierarchy]

/-- what the program and the system allow: which EXT2_*_FL existed at compile time; whether the file can be opened and its flags read; whether the system accepts to change ordinary
flags, those that need the capability LINUX_IMMUTABLE and those that need SYS_RESOURCE (the capability is there and ioctl does it); the flags that a new inode gets; whether the family
is in the FSA scope (get_fsa_scope); whether the dates are restored (what_to_check) -/
structure Cfg where
  sup : FsaNat → Bool
  openOk : Bool
  plainOk : Bool
  immOk : Bool
  resOk : Bool
  born : Flags
  scope : Bool
  dates : Bool

/-- mask_IMMUT, filesystem_specific_attribute.cpp:965-972 -/
def imm (n : FsaNat) : Bool := decide (n = .appendOnly ∨ n = .immutable)
/-- mask_SYS_RES, filesystem_specific_attribute.cpp:973-979 (EXT3_JOURNAL_DATA_FL is defined) -/
def res (n : FsaNat) : Bool := decide (n = .dataJournaling)

/-- two values of the flags are not the same -/
def differ (f g : Flags) : Bool := allFlags.any (fun n => f n != g n)

/-- the loop on the attributes, filesystem_specific_attribute.cpp:741-957; an attribute of the wrong type is SRC_BUG for append_only, undefined behaviour for the others -/
def compute (c : Cfg) (setImm : Bool) : List Fsa → Flags → Res Flags
  | [], f => .ok f
  | x :: l, f =>
    if x.fam ≠ .extX ∨ x.nat = .creationDate then compute c setImm l f
    else if decide (x.nat = .immutable) ≠ setImm then compute c setImm l f
    else match x.val with
      | .bool b => compute c setImm l (if c.sup x.nat then (fun n => if n = x.nat then b else f n) else f)
      | .time _ => if x.nat = .appendOnly then .error .bug else .error .ub

/-- the second ioctl, filesystem_specific_attribute.cpp:1001-1027 -/
def stepImm (c : Cfg) (t f : Flags) : Flags × Bool :=
  let g := fun n => if imm n then t n else f n
  if differ g f then if c.immOk then (g, true) else (f, false) else (f, false)
/-- the third one, filesystem_specific_attribute.cpp:1029-1055 -/
def stepRes (c : Cfg) (t f : Flags) : Flags × Bool :=
  let g := fun n => if res n then t n else f n
  if differ g f then if c.resOk then (g, true) else (f, false) else (f, false)
/-- what is neither in mask_IMMUT nor in mask_SYS_RES, filesystem_specific_attribute.cpp:987-990 -/
def ordinary (t f : Flags) : Flags := fun n => if imm n ∨ res n then f n else t n

/-- the three steps, filesystem_specific_attribute.cpp:981-1055: the flags, and whether some have been set or cleared -/
def apply (c : Cfg) (t f : Flags) : Flags × Res Bool :=
  let g := ordinary t f
  if differ g f && !c.plainOk then (f, .error .range)
  else
    let s := stepImm c t g
    let r := stepRes c t s.1
    (r.1, .ok (differ g f || s.2 || r.2))

/-- set_extX_FSA_to, filesystem_specific_attribute.cpp:699-1071 -/
def setExtX (c : Cfg) (setImm : Bool) (l : List Fsa) (f : Flags) : Flags × Res Bool :=
  if l.any (fun x => decide (x.fam = .extX)) then
    if !c.openOk then (f, .error .range)
    else match compute c setImm l f with
      | .error e => (f, .error e)
      | .ok t => apply c t f
  else (f, .ok false)

/-- set_fsa_to_filesystem_for, filesystem_specific_attribute.cpp:347-361 (set_hfs_FSA_to only says whether there is a creation date of the family HFS+, and does nothing else) -/
def setFsa (c : Cfg) (scope : Bool) (setImm : Bool) (l : List Fsa) (f : Flags) : Flags × Res Bool :=
  let r := if scope then setExtX c setImm l f else (f, .ok false)
  match r.2 with
  | .error _ => r
  | .ok b => (r.1, .ok (b || (!setImm && scope && l.any (fun x => decide (x.fam = .hfs ∧ x.nat = .creationDate)))))

/-- S_ISREG and S_ISDIR -/
def isReg (mode : Nat) : Bool := mode / 4096 % 16 == 8
def isDir (mode : Nat) : Bool := mode / 4096 % 16 == 4
/-- fill_extX_FSA_with, filesystem_specific_attribute.cpp:520-652 (the birth date, which is not restored, is left out), in the order of the type of the attributes -/
def fill (c : Cfg) (mode : Nat) (f : Flags) : List Fsa :=
  if (isReg mode || isDir mode) && c.openOk then (allFlags.filter c.sup).map (fun n => ⟨.extX, n, .bool (f n)⟩) else []

/-! ### one entry -/

/-- the entry of the archive: its attributes, whether it is a directory, whether its data (or its inode) is saved, and whether it is only its inode; and whether the object in place is of
the same kind (cat_inode::same_as) -/
structure Item where
  fsa : List Fsa
  dir : Bool
  saved : Bool
  inodeOnly : Bool
  same : Bool

/-- the system refuses to change the dates of an inode that is immutable or append-only, and to remove it -/
def frozen (f : Flags) : Bool := f .immutable || f .appendOnly
/-- tools_make_date, src/libdar/tools.cpp:819-950, called by filesystem_tools_make_date (src/libdar/filesystem_tools.cpp:294-324) when what_to_check asks for it -/
def makeDate (c : Cfg) (f : Flags) : Res Unit := if c.dates && frozen f then .error .range else .ok ()
/-- filesystem_tools_supprime on something that is not a directory, src/libdar/filesystem_tools.cpp:150-183 -/
def unlink (f : Flags) : Res Unit := if frozen f then .error .range else .ok ()

/-- an Erange is only displayed -/
def shown (r : Flags × Res Bool) : Flags × Res Bool := match r.2 with
  | .error .range => (r.1, .ok false)
  | _ => r

/-- "no conflict", steps 3, 4 and 7 of src/libdar/filesystem_restore.cpp:335-423 for an entry that is restored; `fsa_restored` is the result -/
def writeNew (c : Cfg) (it : Item) : Flags × Res Bool :=
  let a := shown (setFsa c c.scope false it.fsa c.born)
  match a.2 with
  | .error e => (a.1, .error e)
  | .ok _ =>
    match (if it.dir then .ok () else makeDate c a.1) with
    | .error e => (a.1, .error e)
    | .ok () => shown (setFsa c c.scope true it.fsa a.1)

/-- filesystem_tools_has_immutable, src/libdar/filesystem_tools.cpp:116-138 -/
def hasImmutable (l : List Fsa) : Res Bool := fsaImmutable l

/-- the inode is replaced, src/libdar/filesystem_restore.cpp:752-862: the fourth argument of get_fsa_from_filesystem_for, the type of the inode, is given `in_place_symlink != nullptr`, that is 0 or 1 (`false`:
the object in place is not a symbolic link).  `ip`: the attributes read at first from the object in place -/
def replace (c : Cfg) (it : Item) (ip : List Fsa) (f : Flags) : Flags × Res Unit :=
  let old := fill c (if false then 1 else 0) f
  match hasImmutable ip, hasImmutable it.fsa with
  | .error e, _ => (f, .error e)
  | .ok _, .error e => (f, .error e)
  | .ok a, .ok b =>
    let r := if a && b && it.same then setFsa c true true [⟨.extX, .immutable, .bool false⟩] f else (f, .ok false)
    match r.2 with
    | .error e => (r.1, .error e)
    | .ok _ =>
      match unlink r.1 with
      | .error e => (r.1, .error e)
      | .ok () => ((shown (setFsa c true false old c.born)).1, .ok ())

/-- action_over_data, src/libdar/filesystem_restore.cpp:686-884, nothing being asked: the flags, and whether data_done is done_data_restored.  (What is thrown by the EA is not in this model.) -/
def overData (c : Cfg) (it : Item) (ip : List Fsa) (f : Flags) : OverData → Flags × Res Bool
  | .preserve => (f, if it.dir && !it.same then .error .range else .ok false)
  | .preserveMark => (f, if it.dir && !it.same then .error .range else .ok false)
  | .overwrite => over
  | .overwriteMark => over
  | .remove => (f, .error .bug) -- the object is removed: what follows is not about flags
  | .undefined => (f, .error .range)
  | .ask => (f, .error .bug)
where
  over : Flags × Res Bool :=
    if (it.dir || it.inodeOnly) && it.same then (f, .ok true)
    else if it.inodeOnly then (f, .error .range)
    else
      let r := replace c it ip f
      match r.2 with
      | .error e => (r.1, .error e)
      | .ok () => (r.1, .ok true)

/-- the action really done, src/libdar/filesystem_restore.cpp:1070-1074 -/
def effective (ip : List Fsa) (a : OverEa) : OverEa := if ip = [] ∧ (a = .mergePreserve ∨ a = .mergeOverwrite) then .overwrite else a
/-- action_over_fsa, the switch, src/libdar/filesystem_restore.cpp:1076-1164, nothing being asked -/
def overAct (c : Cfg) (it : Item) (ip : List Fsa) (f : Flags) : OverEa → Flags × Res Bool
  | .preserve => (f, .ok false)
  | .preserveMark => (f, .ok false)
  | .overwrite => setFsa c c.scope false it.fsa f
  | .overwriteMark => setFsa c c.scope false it.fsa f
  | .clear => (f, .ok false)
  | .mergePreserve => match fsaPlus it.fsa ip with
    | .error e => (f, .error e)
    | .ok l => setFsa c c.scope false l f
  | .mergeOverwrite => match fsaPlus ip it.fsa with
    | .error e => (f, .error e)
    | .ok l => setFsa c c.scope false l f
  | .undefined => (f, .error .range)
  | .ask => (f, .error .bug)
/-- action_over_fsa -/
def overFsa (c : Cfg) (it : Item) (ip : List Fsa) (f : Flags) (a : OverEa) : Flags × Res Bool := overAct c it ip f (effective ip a)

/-- what is read of the object in place, src/libdar/filesystem_hard_link_read.cpp:336-360: nothing when the family is not in the scope -/
def inPlace (c : Cfg) (mode : Nat) (f : Flags) : List Fsa := if c.scope then fill c mode f else []

/-- steps 3, 4 and 7 over an existing file, src/libdar/filesystem_restore.cpp:518-613; `done`: data_restored == done_data_restored, `f`: the flags then -/
def writeOverFsa (c : Cfg) (it : Item) (ip : List Fsa) (a : OverEa) (done : Bool) (exDir : Bool) (f : Flags) : Flags × Res Bool :=
  let r := shown (overFsa c it ip f a)
  match r.2 with
  | .error e => (r.1, .error e)
  | .ok restored =>
    match (if done && exDir then .ok () else makeDate c r.1) with
    | .error e => (r.1, .error e)
    | .ok () => if restored then
        let s := setFsa c c.scope true it.fsa r.1
        (s.1, match s.2 with
          | .error e => .error e
          | .ok _ => .ok true)
      else (r.1, .ok false)

/-- "conflict", src/libdar/filesystem_restore.cpp:434-622, over an object of type `mode` which is not removed -/
def writeOver (c : Cfg) (it : Item) (mode : Nat) (d : OverData) (a : OverEa) (f : Flags) : Flags × Res Bool :=
  let ip := inPlace c mode f
  let r := if it.saved then overData c it ip f d else (f, .ok false)
  match r.2 with
  | .error e => (r.1, .error e)
  | .ok done => writeOverFsa c it ip a done (isDir mode) r.1

end Dar.Ff
