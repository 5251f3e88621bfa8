import Verif.Model.Destroyed
/- Model of the merging of two archives: src/libdar/filtre.cpp:1709-2700 filtre_merge_step0 and filtre_merge_step1, which build the catalogue of the
resulting archive, do_EFSA_transfert (4145-4505), make_clone (4522-4602), clean_hard_link_base_from (4604-4619), normalize_link_base (4621-4660),
merge_applying_patch_possible (4822-4842) and the parts of catalogue.cpp and cat_directory.cpp they rely on.
The cursors `current_read` and `current_add` of the resulting catalogue always point to the same directory in these functions: one cursor.
Not modelled: the messages, the counters, filtre_merge_step2 (which writes the entries of the catalogue to the archive), Ethread_cancel, the failures of
memory allocation.  A policy whose evaluation throws stops the model with the error (the code counts the entry as errored and goes on, unless it is Ebug). -/
namespace Dar

/-- An ea_attributs: its contents, its number of attributes, its size. -/
structure EaSet where
  bytes : Bytes
  count : Nat
  size : Nat
  deriving DecidableEq, Repr

/-- The parameters of filtre_merge.  `subtree` is given the path, `filter` the name.  `askData`, `askEa`: the answers of the user to
op_tools_crit_ask_user_for_data_action and op_tools_crit_ask_user_for_EA_action; `acceptData`, `acceptEa`: to the requests of confirmation.
`mergeEa` is merge_ea (modelled in Model/Attributes), `plusFsa` the operator + of filesystem_specific_attribute_list, `baseCrc` tells whether the
CRC of the base of a binary patch (second argument) is the one of the data in place, `patch` applies it. -/
structure MgOpts where
  capa : TimeUnit
  subtree : List Bytes → Bool
  filter : Bytes → Bool
  emptyDir : Bool
  decremental : Bool
  policy : Action
  warn : Bool
  askData : List Bytes → OverData
  askEa : List Bytes → OverEa
  acceptData : List Bytes → Bool
  acceptEa : List Bytes → Bool
  mergeEa : EaSet → EaSet → EaSet
  plusFsa : Bytes → Bytes → Bytes
  baseCrc : Obj → Obj → Bool
  patch : Bytes → Bytes → Bytes

/-! ### step 0 -/

/-- The policy of the decremental mode, "{E&R&~R&(A|!H)}[S*] P* ; {(e&~e&r&~r)|(!e&!~e)}[*s] *p": src/libdar/filtre.cpp:1829-1879 -/
def decrPolicy : Action :=
  .chain [
    .test (.and [.sameInodeData, .dataMoreRecent 0, .invert (.dataMoreRecent 0), .or [.isNewHardlinked, .not .isHardlinked]])
      (.const .preserveMark .undefined) (.const .preserve .undefined),
    .test (.or [.and [.eaPresent, .invert .eaPresent, .eaMoreRecent 0, .invert (.eaMoreRecent 0)], .and [.not .eaPresent, .not (.invert .eaPresent)]])
      (.const .undefined .preserveMark) (.const .undefined .preserve)]

/-! ### attributes -/

/-- the extended attributes of an inode -/
def Obj.eaSet (x : Obj) : EaSet := ⟨x.eas, x.ino.eaCount, x.ino.eaSize⟩
/-- ea_set_saved_status -/
def Obj.setEaSt (x : Obj) (s : EaStatus) : Obj := { x with ino := { x.ino with eaStatus := s } }
/-- ea_set_saved_status(full) or ea_detach, then ea_attach -/
def Obj.attachEa (x : Obj) (s : EaSet) : Obj := { x with ino := { x.ino with eaStatus := .full, eaCount := s.count, eaSize := s.size }, eas := s.bytes }
/-- fsa_set_saved_status -/
def Obj.setFsaSt (x : Obj) (s : FsaSt) : Obj := { x with fsa := s }
/-- fsa_set_saved_status(full) or fsa_detach, then fsa_attach -/
def Obj.attachFsa (x : Obj) (b : Bytes) : Obj := { x with fsa := .full, fsas := b }
/-- set_last_change -/
def Obj.setCtime (x : Obj) (d : DateT) : Obj := { x with ino := { x.ino with ctime := d } }

/-- "case EA_overwrite" for the EA, src/libdar/filtre.cpp:4192-4228 -/
def eaOver (p a : Obj) : Obj :=
  match a.ino.eaStatus with
  | .none => p.setEaSt .none
  | .removed => p.setEaSt .none
  | .part => p.setEaSt .part
  | .fake => p.setEaSt .part
  | .full => p.attachEa a.eaSet
/-- "case EA_overwrite" for the FSA, src/libdar/filtre.cpp:4232-4266; the families are not modelled -/
def fsaOver (p a : Obj) : Obj :=
  match a.fsa with
  | .none => p.setFsaSt .none
  | .part => p.setFsaSt .part
  | .full => p.attachFsa a.fsas
/-- "case EA_overwrite_mark_already_saved" for the EA, src/libdar/filtre.cpp:4278-4280 -/
def eaOverMark (p a : Obj) : Obj :=
  p.setEaSt (match a.ino.eaStatus with
    | .full => .part
    | .fake => .part
    | s => s)
/-- "case EA_overwrite_mark_already_saved" for the FSA, src/libdar/filtre.cpp:4284-4286 -/
def fsaOverMark (p a : Obj) : Obj :=
  p.setFsaSt (match a.fsa with
    | .full => .part
    | s => s)
/-- the EA when merging, `both` being given the attributes in place and those to add: src/libdar/filtre.cpp:4296-4339, 4391-4434 -/
def eaMerge (both : EaSet → EaSet → EaSet) (p a : Obj) : Obj :=
  if p.ino.eaStatus = .full ∧ a.ino.eaStatus = .full then p.attachEa (both p.eaSet a.eaSet)
  else if a.ino.eaStatus = .full then p.attachEa a.eaSet
  else p
/-- the FSA when merging: src/libdar/filtre.cpp:4344-4384, 4439-4479 -/
def fsaMerge (both : Bytes → Bytes → Bytes) (p a : Obj) : Obj :=
  if p.fsa = .full ∧ a.fsa = .full then p.attachFsa (both p.fsas a.fsas)
  else if a.fsa = .full then p.attachFsa a.fsas
  else p

/-- do_EFSA_transfert between two inodes, src/libdar/filtre.cpp:4145-4505: `p` is place_ino, `a` is add_ino -/
def efsa (o : MgOpts) (act : OverEa) (p a : Obj) : Res Obj :=
  match act with
  | .overwrite => .ok (fsaOver (eaOver (p.setCtime a.ino.ctime) a) a)
  | .overwriteMark => .ok (fsaOverMark (eaOverMark (p.setCtime a.ino.ctime) a) a)
  | .mergePreserve => .ok (fsaMerge (fun x y => o.plusFsa y x) (eaMerge o.mergeEa p a) a)
  | .mergeOverwrite => .ok (fsaMerge o.plusFsa (eaMerge (fun x y => o.mergeEa y x) (p.setCtime a.ino.ctime) a) a)
  | _ => .error .bug
/-- do_EFSA_transfert, with its tests on null pointers, src/libdar/filtre.cpp:4165-4169; the result is what place_ino becomes -/
def efsaOpt (o : MgOpts) (act : OverEa) (p a : Option Obj) : Res (Option Obj) :=
  match p, a with
  | some p, some a => (efsa o act p a).map some
  | p, _ => .ok p

/-! ### what becomes of two entries in conflict -/

/-- "dropping data" -/
def Obj.dropData (x : Obj) : Obj :=
  if x.ino.status = .saved ∨ x.ino.status = .inodeOnly then { x with ino := { x.ino with status := .notSaved } } else x
/-- "data_preserve_mark_already_saved", src/libdar/filtre.cpp:2134-2142 -/
def keepMark (d : OverData) (x : Option Obj) : Option Obj := if d = .preserveMark then x.map Obj.dropData else x

/-- the tests before asking the user what to do with the EA, src/libdar/filtre.cpp:2148-2153 -/
def someAttr (x y : Option Obj) : Bool :=
  match x, y with
  | some x, some y => decide (y.ino.eaStatus ≠ .none) || decide (x.ino.eaStatus ≠ .none) || decide (y.fsa ≠ .none) || decide (x.fsa ≠ .none)
  | _, _ => false
/-- EA_ask, src/libdar/filtre.cpp:2146-2157 and 2290-2300 -/
def resolveEa (o : MgOpts) (p : List Bytes) (dflt a : OverEa) (x y : Option Obj) : OverEa :=
  if a = .ask then (if someAttr x y then o.askEa p else dflt) else a

/-- EA_preserve_mark_already_saved, src/libdar/filtre.cpp:2175-2189 -/
def keepAttrMark (x : Obj) : Obj :=
  let x := if x.ino.eaStatus = .full then x.setEaSt .part else x
  if x.fsa = .full then x.setFsaSt .part else x
/-- EA_clear, src/libdar/filtre.cpp:2191-2210 -/
def keepAttrClear (x : Obj) : Obj := (x.setEaSt .none).setFsaSt .none

/-- the first category for the EA, src/libdar/filtre.cpp:2159-2215: what al_ino becomes, `y` being dolly_ino -/
def keepAttr (o : MgOpts) (a : OverEa) (x y : Option Obj) : Res (Option Obj) :=
  match a with
  | .preserve => .ok x
  | .undefined => .ok x
  | .overwrite => efsaOpt o .overwrite x y
  | .overwriteMark => efsaOpt o .overwriteMark x y
  | .mergePreserve => efsaOpt o .mergePreserve x y
  | .mergeOverwrite => efsaOpt o .mergeOverwrite x y
  | .preserveMark => .ok (x.map keepAttrMark)
  | .clear => .ok (x.map keepAttrClear)
  | .ask => .error .bug

/-- cat_file::set_data_from_binary_patch, src/libdar/cat_file.cpp:947-985, called by merge_applying_patch_possible -/
def patched (o : MgOpts) (x y : Obj) : Obj :=
  if x.ino.isFile ∧ y.ino.isFile ∧ y.ino.status = .delta ∧ x.ino.status = .saved ∧ o.baseCrc x y then
    { y with ino := { y.ino with status := .saved }, data := o.patch x.data y.data }
  else y
/-- merge_applying_patch_possible, src/libdar/filtre.cpp:4822-4842: what to_be_added becomes -/
def patchedOpt (o : MgOpts) (x y : Option Obj) : Option Obj :=
  match x, y with
  | some x, some y => some (patched o x y)
  | _, y => y
/-- the data of the second category, src/libdar/filtre.cpp:2262-2286 -/
def takeData (o : MgOpts) (d : OverData) (x y : Option Obj) : Option Obj :=
  let y := patchedOpt o x y
  if d = .overwriteMark then y.map Obj.dropData else y
/-- EA_overwrite_mark_already_saved in the second category, src/libdar/filtre.cpp:2311-2316 -/
def takeMark (y : Obj) : Obj := if y.ino.eaStatus = .full then y.setEaSt .part else y
/-- EA_clear in the second category, src/libdar/filtre.cpp:2336-2343: both pointers are used without being tested -/
def takeClear (x y : Option Obj) : Res (Option Obj) :=
  match x, y with
  | none, _ => .error .ub
  | some x, none => if x.ino.eaStatus ≠ .none then .error .ub else .ok none
  | some x, some y => .ok (some (if x.ino.eaStatus ≠ .none then y.setEaSt .none else y))
/-- the second category for the EA, src/libdar/filtre.cpp:2302-2347: what dolly_ino becomes -/
def takeAttr (o : MgOpts) (a : OverEa) (x y : Option Obj) : Res (Option Obj) :=
  match a with
  | .preserve => efsaOpt o .overwrite y x
  | .undefined => efsaOpt o .overwrite y x
  | .overwrite => .ok y
  | .overwriteMark => .ok (y.map takeMark)
  | .mergePreserve => efsaOpt o .mergeOverwrite y x
  | .mergeOverwrite => efsaOpt o .mergePreserve y x
  | .preserveMark => efsaOpt o .overwriteMark y x
  | .clear => takeClear x y
  | .ask => .error .bug

/-- warn_overwrite, src/libdar/filtre.cpp:2034-2120.  The refusal about the EA changes the action on the data, as in the code. -/
def warned (o : MgOpts) (p : List Bytes) (d : OverData) (a : OverEa) : OverData :=
  if o.warn then
    let d := (match d with
      | .overwrite => if o.acceptData p then d else .preserve
      | .overwriteMark => if o.acceptData p then d else .preserve
      | .remove => if o.acceptData p then d else .preserve
      | .preserveMark => if o.acceptData p then d else .preserve
      | d => d)
    match a with
    | .overwrite => if o.acceptEa p then d else .preserve
    | .clear => if o.acceptEa p then d else .preserve
    | .preserveMark => if o.acceptEa p then d else .preserve
    | .overwriteMark => if o.acceptEa p then d else .preserve
    | .mergeOverwrite => if o.acceptEa p then d else .preserve
    | _ => d
  else d

/-- What the criteria see of an entry; `first` for a hard link: it is the first of those of its inode. -/
def BEntry.crit (stars : Nat → Obj) (first : Bool) : BEntry → CEntry
  | .node x => .inode x.ino
  | .dir x _ => .inode x.ino
  | .ignoredDir x => .inode x.ino
  | .mirage _ k => .mirage (stars k).ino first
  | .detruit _ _ _ => .detruit
  | .ignored _ => .detruit

/-- overwrite->get_action, then the questions to the user: src/libdar/filtre.cpp:2028-2120 -/
def decideConflict (o : MgOpts) (p : List Bytes) (x y : CEntry) : Res (OverData × OverEa) := do
  let (d, a) ← o.policy.get o.capa x y
  let d := if d = .ask then o.askData p else d
  .ok (warned o p d a, a)

/-! ### the catalogue under construction -/

mutual
/-- the number of links to the hard linked inode `k`: cat_directory::get_etiquettes_found_in_tree, src/libdar/cat_directory.cpp -/
def BEntry.links (k : Nat) (e : BEntry) : Nat :=
  match e with
  | .mirage _ j => if j = k then 1 else 0
  | .dir _ c => BEntry.linksL k c
  | _ => 0
def BEntry.linksL (k : Nat) (l : List BEntry) : Nat :=
  match l with
  | [] => 0
  | e :: l => BEntry.links k e + BEntry.linksL k l
end
/-- cat_etoile::get_ref_count: the links found in the whole catalogue -/
def Cursor.links (k : Nat) (c : Cursor) : Nat :=
  (c.frames.map (fun f => BEntry.linksL k f.1 + BEntry.linksL k f.2.2)).sum + BEntry.linksL k c.cur
/-- the links met before the entry called `n` of the current directory; cat_mirage::is_first_mirage is that there is none (a catalogue under construction
is filled in the order of the walk) -/
def Cursor.linksBefore (k : Nat) (n : Bytes) (c : Cursor) : Nat :=
  (c.frames.map (fun f => BEntry.linksL k f.1)).sum + BEntry.linksL k (beforeChild c.cur n)
/-- the path of the current directory -/
def Cursor.path (c : Cursor) : List Bytes := (c.frames.map (fun f => f.2.1.name)).reverse
/-- current->remove(name), src/libdar/cat_directory.cpp:520-570 -/
def Cursor.removeChild (c : Cursor) (n : Bytes) : Cursor := ⟨c.frames, beforeChild c.cur n ++ afterChild c.cur n⟩
/-- catalogue::add, src/libdar/catalogue.cpp:439-470, and cat_directory::add_children, src/libdar/cat_directory.cpp:336-390: an entry of the same name is
replaced; adding a directory goes into it.  (Adding a directory where there is one is not done by the merging.) -/
def Cursor.put (c : Cursor) (e : BEntry) : Cursor :=
  let c := if (findChild c.cur e.name).isSome then c.removeChild e.name else c
  match e with
  | .dir x _ => ⟨(c.cur, x, []) :: c.frames, []⟩
  | e => c.add e

/-- What filtre_merge_step1 updates: the resulting catalogue and the hard linked inodes it holds, the keys of corres_copy (a key is always the
label of the inode it gives), the dates of the directories being read in the archive (the current one first), the directories to leave before the end of
what has to be skipped. -/
structure MgSt where
  at_ : Cursor
  stars : Nat → Obj
  known : List Nat
  dates : List DateT
  skip : Nat

/-- put an inode in the entry -/
def BEntry.withInode (e : BEntry) (x : Obj) : BEntry :=
  match e with
  | .node _ => .node x
  | .dir _ c => .dir x c
  | .ignoredDir _ => .ignoredDir x
  | e => e
/-- change the inode of the entry `al` of the current directory, in place -/
def MgSt.writeBack (s : MgSt) (al : BEntry) (x : Option Obj) : MgSt :=
  match x with
  | none => s
  | some x => match al with
    | .mirage _ k => { s with stars := putStar s.stars k x }
    | al => { s with at_ := ⟨s.at_.frames, beforeChild s.at_.cur al.name ++ al.withInode x :: afterChild s.at_.cur al.name⟩ }
/-- clean_hard_link_base_from, src/libdar/filtre.cpp:4604-4619; `n` is the number of links to this inode, including the one to be destroyed -/
def cleanKnown (known : List Nat) (k n : Nat) : Res (List Nat) :=
  if n = 0 then .error .bug
  else if n = 1 then (if k ∈ known then .ok (known.filter (· ≠ k)) else .error .bug)
  else .ok known
/-- on the entry to be added, which is not in the catalogue -/
def MgSt.cleanNew (s : MgSt) (e : BEntry) : Res MgSt :=
  match e with
  | .mirage _ k => do
    let kn ← cleanKnown s.known k (s.at_.links k + 1)
    .ok { s with known := kn }
  | _ => .ok s
mutual
/-- the labels found in a tree -/
def BEntry.labels (e : BEntry) : List Nat :=
  match e with
  | .mirage _ j => [j]
  | .dir _ c => BEntry.labelsL c
  | _ => []
def BEntry.labelsL (l : List BEntry) : List Nat :=
  match l with
  | [] => []
  | e :: l => BEntry.labels e ++ BEntry.labelsL l
end
/-- the loop on `tiquettes`, src/libdar/filtre.cpp:2414-2437, the directory of contents `ch` being still in the catalogue -/
def cleanTree (c : Cursor) (ch : List BEntry) : List Nat → List Nat → Res (List Nat)
  | known, [] => .ok known
  | known, k :: l =>
    if k ∉ known then .error .bug
    else if c.links k < BEntry.linksL k ch then .error .bug
    else cleanTree c ch (if c.links k = BEntry.linksL k ch then known.filter (· ≠ k) else known) l
/-- removal of the entry in place, src/libdar/filtre.cpp:2369-2479 (the counters apart) -/
def MgSt.removeOld (o : MgOpts) (s : MgSt) (al : BEntry) : Res MgSt :=
  match al with
  | .mirage n k => do
    let kn ← cleanKnown s.known k (s.at_.links k)
    .ok { s with known := kn, at_ := s.at_.removeChild n }
  | .dir x ch => do
    let kn ← cleanTree s.at_ ch s.known (BEntry.labelsL ch).eraseDups
    let c := s.at_.removeChild x.name
    .ok { s with known := kn, at_ := if o.emptyDir then c.put (.ignoredDir x) else c }
  | al => .ok { s with at_ := s.at_.removeChild al.name }

/-- make_clone, src/libdar/filtre.cpp:4522-4602: the clone (a directory without its contents) and the state, where a hard linked inode met for the
first time is recorded -/
def MgSt.clone (rstars : Nat → Obj) (off : Nat) (s : MgSt) (e : BEntry) : BEntry × MgSt :=
  match e with
  | .mirage n k =>
    if k + off ∈ s.known then (.mirage n (k + off), s)
    else (.mirage n (k + off), { s with stars := (fun j => if j = k + off then rstars k else s.stars j), known := (k + off) :: s.known })
  | .dir x _ => (.dir x [], s)
  | e => (e, s)

/-- the inode of the entry to be added is changed (through the hard link) -/
def MgSt.setNew (s : MgSt) (d : BEntry) (y : Option Obj) : BEntry × MgSt :=
  match y with
  | none => (d, s)
  | some y => match d with
    | .mirage n k => (.mirage n k, { s with stars := putStar s.stars k y })
    | d => (d.withInode y, s)

/-- going into the directory `al` of the resulting catalogue, its inode becoming `x`: re_add_in and re_add_in_replace, src/libdar/catalogue.cpp:472-497 -/
def MgSt.into (s : MgSt) (x : Obj) (ch : List BEntry) (date : DateT) : MgSt := { s with at_ := s.at_.enter x ch, dates := date :: s.dates }
/-- cat.add(dolly), and the reading cursor for a directory: src/libdar/filtre.cpp:2541-2573 -/
def MgSt.putNew (s : MgSt) (d : BEntry) (date : DateT) : MgSt :=
  { s with at_ := s.at_.put d, dates := if d.isDir then date :: s.dates else s.dates }
/-- skip_read_to_parent_dir on the archive when the entry is a directory -/
def MgSt.skipIf (s : MgSt) (e : BEntry) : MgSt := { s with skip := if e.isDir then 1 else 0 }

/-- the modification date of a directory -/
def BEntry.mtime : BEntry → DateT
  | .dir x _ => x.ino.mtime
  | _ => ⟨0, .s⟩

/-- first category, src/libdar/filtre.cpp:2124-2254: `al` is in place, `d` the clone of `e` -/
def mergeKeep (o : MgOpts) (s : MgSt) (p : List Bytes) (al e d : BEntry) (act : OverData) (a : OverEa) : Res MgSt := do
  let y := d.obj s.stars
  let x := keepMark act (al.obj s.stars)
  let x ← keepAttr o (resolveEa o p .preserve a x y) x y
  let s := s.writeBack al x
  match al, e with
  | .dir x0 ch, .dir _ _ => .ok (s.into (x.getD x0) ch e.mtime)
  | _, _ => (s.skipIf e).cleanNew d

/-- second category, src/libdar/filtre.cpp:2257-2490 -/
def mergeTake (o : MgOpts) (s : MgSt) (p : List Bytes) (al e d : BEntry) (act : OverData) (a : OverEa) : Res MgSt := do
  let x := al.obj s.stars
  let y := takeData o act x (d.obj s.stars)
  let y ← takeAttr o (resolveEa o p .overwrite a x y) x y
  let (d, s) := s.setNew d y
  match al, d with
  | .dir _ ch, .dir y _ => .ok (s.into y ch e.mtime)
  | al, d => do
    let s ← s.removeOld o al
    .ok (s.putNew d e.mtime)
/-- data_remove -/
def mergeDrop (o : MgOpts) (s : MgSt) (al e d : BEntry) : Res MgSt := do
  let s ← s.cleanNew d
  (s.skipIf e).removeOld o al

/-- an entry of that name is in the resulting catalogue, src/libdar/filtre.cpp:2008-2497 -/
def mergeConflict (o : MgOpts) (s : MgSt) (al e d : BEntry) : Res MgSt := do
  let p := s.at_.path ++ [e.name]
  let fal := (match al with | .mirage n k => decide (s.at_.linksBefore k n = 0) | _ => false)
  let fd := (match d with | .mirage _ k => decide (s.at_.links k = 0) | _ => false)
  let (act, a) ← decideConflict o p (al.crit s.stars fal) (d.crit s.stars fd)
  match act with
  | .preserve => mergeKeep o s p al e d act a
  | .preserveMark => mergeKeep o s p al e d act a
  | .undefined => mergeKeep o s p al e d act a
  | .overwrite => mergeTake o s p al e d act a
  | .overwriteMark => mergeTake o s p al e d act a
  | .remove => mergeDrop o s al e d
  | .ask => .error .bug

/-- no entry of that name, src/libdar/filtre.cpp:2498-2573; `second`: index >= 1 -/
def mergeNew (o : MgOpts) (second : Bool) (rstars : Nat → Obj) (s : MgSt) (e d : BEntry) : Res MgSt :=
  if second && o.decremental then do
    let s ← s.cleanNew d
    .ok ((s.skipIf e).putNew (.detruit e.name (e.sigKind rstars) (s.dates.headD ⟨0, .s⟩)) ⟨0, .s⟩)
  else .ok (s.putNew d e.mtime)

/-- subtree.is_covered(juillet.get_path()) && (e_dir != nullptr || filtre.is_covered(e_nom->get_name())) -/
def MgOpts.covers (o : MgOpts) (p : List Bytes) (e : BEntry) : Bool := o.subtree (p ++ [e.name]) && (e.isDir || o.filter e.name)

/-- "excluded by filters", src/libdar/filtre.cpp:2587-2608 -/
def mergeExcl (o : MgOpts) (s : MgSt) (e : BEntry) : MgSt :=
  match e with
  | .dir x _ => { s with at_ := if o.emptyDir then s.at_.put (.ignoredDir x) else s.at_, skip := 1 }
  | _ => s

/-- one turn of the loop, src/libdar/filtre.cpp:1970-2676 -/
def mergeStep (o : MgOpts) (second : Bool) (rstars : Nat → Obj) (off : Nat) (s : MgSt) (ev : BEv) : Res MgSt :=
  if s.skip > 0 then
    match ev with
    | .entry e => .ok (if e.isDir then { s with skip := s.skip + 1 } else s)
    | .eod => .ok { s with skip := s.skip - 1 }
  else match ev with
    | .eod => do
      let c ← s.at_.up
      .ok { s with at_ := c, dates := s.dates.tail }
    | .entry e =>
      if o.covers s.at_.path e then
        let (d, s) := s.clone rstars off e
        match findChild s.at_.cur e.name with
        | some al => mergeConflict o s al e d
        | none => mergeNew o second rstars s e d
      else .ok (mergeExcl o s e)
/-- the loop -/
def mergeLoop (o : MgOpts) (second : Bool) (rstars : Nat → Obj) (off : Nat) (s : MgSt) : List BEv → Res MgSt
  | [] => .ok s
  | ev :: l => do
    let s ← mergeStep o second rstars off s ev
    mergeLoop o second rstars off s l

/-! ### labels -/

mutual
/-- cat_etoile::change_etiquette, seen from the links -/
def BEntry.relabel (f : Nat → Nat) (e : BEntry) : BEntry :=
  match e with
  | .mirage n k => .mirage n (f k)
  | .dir x c => .dir x (BEntry.relabelL f c)
  | .node x => .node x
  | .detruit n k d => .detruit n k d
  | .ignored n => .ignored n
  | .ignoredDir x => .ignoredDir x
def BEntry.relabelL (f : Nat → Nat) (l : List BEntry) : List BEntry :=
  match l with
  | [] => []
  | e :: l => BEntry.relabel f e :: BEntry.relabelL f l
end
/-- "looking for the higest value", src/libdar/filtre.cpp:4641-4649: the label found and max_val -/
def highest (known : List Nat) (search : Nat) : Nat → Res (Nat × Nat)
  | 0 => .error .bug
  | m + 1 => if m + 1 ≤ search then .error .bug else if m + 1 ∈ known then .ok (m + 1, m) else highest known search m
/-- "second pass", src/libdar/filtre.cpp:4636-4659, for `n` values of `search` -/
def normLoop (root : List BEntry) (stars : Nat → Obj) (known : List Nat) (max search : Nat) : Nat → Res (List BEntry × (Nat → Obj) × List Nat)
  | 0 => .ok (root, stars, known)
  | n + 1 =>
    if search ∈ known then normLoop root stars known max (search + 1) n
    else do
      let (k, m) ← highest known search max
      normLoop (BEntry.relabelL (fun j => if j = k then search else j) root) (fun j => if j = search then stars k else stars j)
        (search :: known.filter (· ≠ k)) m (search + 1) n
/-- normalize_link_base, src/libdar/filtre.cpp:4621-4660; the cursor is at the root -/
def MgSt.normalize (s : MgSt) : Res MgSt := do
  let (r, st, kn) ← normLoop s.at_.cur s.stars s.known (s.known.foldl max 0) 0 s.known.length
  .ok { s with at_ := ⟨s.at_.frames, r⟩, stars := st, known := kn }

/-- the body of the loop on ref_tab, src/libdar/filtre.cpp:1941-2680: `root` is the date of the root directory of the archive -/
def mergePass (o : MgOpts) (second : Bool) (root : DateT) (s : MgSt) (ref : BCat) : Res MgSt := do
  let s ← mergeLoop o second ref.stars (if second then s.known.length else 0) { s with dates := [root], skip := 0 } (BEntry.eventsList ref.root)
  s.normalize

/-- filtre_merge_step1 for two archives, src/libdar/filtre.cpp:1904-2700 -/
def merge (o : MgOpts) (root1 root2 : DateT) (r1 r2 : BCat) : Res BCat := do
  let s ← mergePass o false root1 ⟨⟨[], []⟩, fun _ => r1.stars 0, [], [], 0⟩ r1
  let s ← mergePass o true root2 s r2
  .ok ⟨s.at_.cur, s.stars⟩
/-- filtre_merge in the decremental mode: step 0 gives its own policy, src/libdar/filtre.cpp:1803-1900 -/
def decremental (o : MgOpts) (root1 root2 : DateT) (r1 r2 : BCat) : Res BCat :=
  merge { o with decremental := true, policy := decrPolicy } root1 root2 r1 r2
/-- filtre_merge when there is no auxiliary archive -/
def mergeOneRef (o : MgOpts) (root1 : DateT) (r1 : BCat) : Res BCat := do
  let s ← mergePass o false root1 ⟨⟨[], []⟩, fun _ => r1.stars 0, [], [], 0⟩ r1
  .ok ⟨s.at_.cur, s.stars⟩

end Dar
