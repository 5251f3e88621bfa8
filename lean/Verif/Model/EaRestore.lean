import Verif.Model.Attributes
import Verif.Model.Criterium
/- Model of the restoration of extended attributes: src/libdar/ea_filesystem.cpp (the system calls, file by file), raw_set_ea, raw_clear_ea_set and make_file of
src/libdar/filesystem_hard_link_write.cpp, and what filesystem_restore::write and action_over_ea (src/libdar/filesystem_restore.cpp) do with the attributes of one entry.
Model/Restore.lean has the whole restoration, with the set of attributes as one value; here it is one entry, attribute by attribute. -/
namespace Dar.Eas
open Dar

/-- the mask (options -u, -U); which attributes the system accepts to set and to remove, whatever the file is (a simplification); whether the ownership is restored
(what_to_check); the attributes the system gives to a new inode -/
structure Cfg where
  cov : Bytes → Bool
  setOk : Bytes → Bool
  delOk : Bytes → Bool
  own : Bool
  born : EaMap

/-- "security.capability": the attribute the system removes from a file when its owner changes (see the comments of src/libdar/filesystem_restore.cpp:372-376 and 581-586) -/
def capKey : Bytes := [115, 101, 99, 117, 114, 105, 116, 121, 46, 99, 97, 112, 97, 98, 105, 108, 105, 116, 121]

/-! ### one inode -/

/-- write_ea, src/libdar/ea_filesystem.cpp:148-187: the attributes left, in the order of the keys, and those of the inode; it stops at the first one that is refused.  The
attributes of an inode are also kept in the order of the keys (the one the system uses is not observable: read_ea puts them in a map) -/
def writeEa (c : Cfg) (cov : Bytes → Bool) : EaMap → EaMap → EaMap × Option Err
  | [], m => (m, none)
  | (k, v) :: l, m =>
    if cov k then
      if c.setOk k then writeEa c cov l (eaAdd m k v) else (m, some .range)
    else writeEa c cov l m

/-- remove_ea, src/libdar/ea_filesystem.cpp:190-222, with the mask that covers all, as it is always called -/
def removeEa (c : Cfg) : EaMap → EaMap → EaMap × Option Err
  | [], m => (m, none)
  | (k, _) :: l, m => if c.delOk k then removeEa c l (m.filter (fun p => p.1 ≠ k)) else (m, some .range)

/-- read_ea, src/libdar/ea_filesystem.cpp:224-303 (nullptr: nothing is covered) -/
def readEa (cov : Bytes → Bool) (m : EaMap) : EaMap := m.filter (fun p => cov p.1)

/-- ea_filesystem_clear_ea, src/libdar/ea_filesystem.cpp:95-116, with bool_mask(true), as raw_clear_ea_set calls it (src/libdar/filesystem_hard_link_write.cpp:203) -/
def clearEa (c : Cfg) (m : EaMap) : EaMap × Option Err := removeEa c (readEa (fun _ => true) m) m

/-! ### files -/

/-- the inode of each path, the attributes of each inode, the number of the next inode, and corres_write: for each label a path and whether the attributes have been
restored -/
structure W where
  ent : Bytes → Option Nat
  ea : Nat → EaMap
  next : Nat
  seen : Nat → Option (Bytes × Bool)

/-- what is known of the entry of the archive: its label when it is a hard link, its path, the status and the attributes it has, whether it has its data, and whether it
is a directory -/
structure Item where
  label : Option Nat
  path : Bytes
  st : EaStatus
  ea : EaMap
  saved : Bool
  dir : Bool

/-- has_ea_saved, src/libdar/filesystem_restore.cpp:222 -/
def Item.eaSaved (it : Item) : Bool := decide (it.st = .full) || decide (it.st = .removed)
/-- cat_inode::get_ea, src/libdar/cat_inode.cpp:708-822 -/
def Item.getEa (it : Item) : EaMap := if it.st = .full then it.ea else []

/-- corres_write[k] = (p, b) -/
def W.record (w : W) (k : Nat) (p : Bytes) (b : Bool) : W := { w with seen := fun j => if j = k then some (p, b) else w.seen j }
/-- other attributes for the inode `i` -/
def W.put (w : W) (i : Nat) (m : EaMap) : W := { w with ea := fun j => if j = i then m else w.ea j }
/-- the attributes found at a path -/
def W.at_ (w : W) (p : Bytes) : EaMap := match w.ent p with
  | none => []
  | some i => w.ea i

/-- ea_filesystem_write_ea on a path -/
def W.writeAt (c : Cfg) (cov : Bytes → Bool) (w : W) (p : Bytes) (l : EaMap) : W × Option Err := match w.ent p with
  | none => (w, if l.any (fun q => cov q.1) then some .range else none)
  | some i => (w.put i (writeEa c cov l (w.ea i)).1, (writeEa c cov l (w.ea i)).2)
/-- ea_filesystem_clear_ea on a path -/
def W.clearAt (c : Cfg) (w : W) (p : Bytes) : W × Option Err := match w.ent p with
  | none => (w, some .range)
  | some i => (w.put i (clearEa c (w.ea i)).1, (clearEa c (w.ea i)).2)

/-- true is returned when nothing is thrown -/
def done (r : W × Option Err) : W × Res Bool := (r.1, match r.2 with
  | none => .ok true
  | some e => .error e)

/-- raw_set_ea, src/libdar/filesystem_hard_link_write.cpp:118-166 -/
def W.rawSet (c : Cfg) (w : W) (it : Item) (l : EaMap) : W × Res Bool := match it.label with
  | none => done (w.writeAt c c.cov it.path l)
  | some k => match w.seen k with
    | none => done ((w.record k it.path true).writeAt c c.cov it.path l)
    | some (q, b) => if b then (w, .ok false) else done ((w.record k q true).writeAt c c.cov it.path l)
/-- raw_clear_ea_set, src/libdar/filesystem_hard_link_write.cpp:168-212 -/
def W.rawClear (c : Cfg) (w : W) (it : Item) : W × Res Bool := match it.label with
  | none => done (w.clearAt c it.path)
  | some k => match w.seen k with
    | none => done ((w.record k it.path false).clearAt c it.path)
    | some (_, b) => if b then (w, .ok false) else done (w.clearAt c it.path)

/-- a new inode -/
def W.create (c : Cfg) (w : W) (p : Bytes) : W :=
  { w with ent := fun q => if q = p then some w.next else w.ent q, ea := fun j => if j = w.next then c.born else w.ea j, next := w.next + 1 }
/-- make_file, src/libdar/filesystem_hard_link_write.cpp:230-470, as RsSt.makeFile (Model/Restore.lean); the recorded path is not the one of a directory -/
def W.makeFile (c : Cfg) (w : W) (it : Item) : W := match it.label with
  | none => w.create c it.path
  | some k => match w.seen k with
    | none => (w.create c it.path).record k it.path false
    | some (q, _) => match w.ent q with
      | some i => { w with ent := fun p => if p = it.path then some i else w.ent p }
      | none => if it.saved then (w.create c it.path).record k it.path false else w
/-- filesystem_tools_make_owner_perm, src/libdar/filesystem_tools.cpp:228-292: what it does to attributes; not called for a directory at that time, and the system would remove nothing -/
def W.chown (c : Cfg) (w : W) (it : Item) : W :=
  if c.own && !it.dir then match w.ent it.path with
    | none => w
    | some i => w.put i ((w.ea i).filter (fun p => p.1 ≠ capKey))
  else w

/-- "no conflict", steps 1, 2, 5 and 6 of src/libdar/filesystem_restore.cpp:292-411, for an entry that is restored; an Erange of raw_set_ea is only displayed -/
def W.writeNew (c : Cfg) (w : W) (it : Item) : W :=
  let w := w.makeFile c it
  let w := if it.eaSaved then (w.rawSet c it it.getEa).1 else w
  let w := w.chown c it
  if it.eaSaved then (w.rawSet c it it.getEa).1 else w

/-- the action really done, src/libdar/filesystem_restore.cpp:906-924 -/
def effective (ip : EaMap) (st : EaStatus) (a : OverEa) : OverEa :=
  let a := if ip = [] ∧ (a = .mergePreserve ∨ a = .mergeOverwrite) then .overwrite else a
  if st = .removed ∧ (a = .mergePreserve ∨ a = .mergeOverwrite) then .clear else a

/-- action_over_ea, the switch: src/libdar/filesystem_restore.cpp:926-1043; nothing is asked to the user -/
def W.overAct (c : Cfg) (w : W) (it : Item) (ip : EaMap) (a : OverEa) : W × Res Bool := match a with
  | .preserve => (w, .ok false)
  | .preserveMark => (w, .ok false)
  | .overwrite => match w.rawClear c it with
    | (w, .ok true) => w.rawSet c it it.getEa
    | r => r
  | .overwriteMark => match w.rawClear c it with
    | (w, .ok true) => w.rawSet c it it.getEa
    | r => r
  | .clear => w.rawClear c it
  | .mergePreserve => if it.st = .full then w.rawSet c it (eaPlus it.getEa ip) else (w, .ok false)
  | .mergeOverwrite => if it.st = .full then w.rawSet c it (eaPlus ip it.getEa) else (w, .ok false)
  | .undefined => (w, .error .range)
  | .ask => (w, .error .bug)
/-- action_over_ea, src/libdar/filesystem_restore.cpp:886-1043; `ip`: the attributes of the object in place, covered by the mask, as they were read at first -/
def W.overEa (c : Cfg) (w : W) (it : Item) (ip : EaMap) (a : OverEa) : W × Res Bool := w.overAct c it ip (effective ip it.st a)

/-- what has been done of the data: nothing; restored in the existing inode (directory, inode only, patch); or another inode took its place -/
inductive Data | kept | restored | replaced
  deriving DecidableEq, Repr

/-- the replacement of an existing inode, src/libdar/filesystem_restore.cpp:752-833: the attributes it had are given to the new one -/
def W.replace (c : Cfg) (w : W) (it : Item) : W :=
  let old := readEa (fun _ => true) (w.at_ it.path)
  let w : W := { w with ent := fun q => if q = it.path then none else w.ent q }
  let w := w.makeFile c it
  if old = [] then w else (w.writeAt c (fun _ => true) it.path old).1
/-- step 1 -/
def W.data (c : Cfg) (w : W) (it : Item) (d : Data) : W := match d with
  | .kept => w
  | .restored => w
  | .replaced => w.replace c it
/-- step 5 -/
def W.owner (c : Cfg) (w : W) (it : Item) (d : Data) : W := match d with
  | .kept => w
  | .restored => w.chown c it
  | .replaced => w.chown c it

/-- steps 5 and 6, from what step 2 did: an Erange is displayed at step 2, ignored at step 6 -/
def W.after (c : Cfg) (it : Item) (ip : EaMap) (d : Data) (a : OverEa) (r : W × Res Bool) : W × Option Err := match r.2 with
  | .ok true => (((r.1.owner c it d).overEa c it ip a).1, none)
  | .ok false => (r.1.owner c it d, none)
  | .error e => if e = .range then (r.1.owner c it d, none) else (r.1, some e)
/-- an existing inode, steps 1, 2, 5 and 6 of src/libdar/filesystem_restore.cpp:455-596; the policy said `a` for the attributes -/
def W.writeOver (c : Cfg) (w : W) (it : Item) (d : Data) (a : OverEa) : W × Option Err :=
  let ip := readEa c.cov (w.at_ it.path)
  let w := w.data c it d
  W.after c it ip d a (if it.eaSaved then w.overEa c it ip a else (w, .ok false))

end Dar.Eas
