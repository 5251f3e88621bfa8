import Verif.Spec.Database
import Verif.Spec.DatabaseTree
import Verif.Model.DbAdd
/- Specification for the addition of archives to a database (C53): what an archive tells of a file, what the database then has to record, and what a
sequence of archives tells of a file. -/
namespace Dar

/-! ### What an archive tells -/

/-- What an archive tells of a path: nothing, that it was deleted, or the inode it holds there. -/
inductive Told where
  | nothing
  | deleted (date : DateT)
  | inode (i : InodeB) (st : SavedStatus) (f : Option FileB)

def Entry.label : Entry → Bytes
  | .node n => n.name
  | .dir n _ _ _ => n
  | .detruit n _ _ => n
  | .mirage n _ => n
  | .ignored n => n

/-- Deletions without date (archives made by old versions) are ignored by the database. -/
def Told.of (stars : Nat → Star) : Option Entry → Told
  | none => .nothing
  | some (.ignored _) => .nothing
  | some (.detruit _ _ d) => if d.val = 0 then .nothing else .deleted d
  | some (.node n) => .inode n.inode n.status n.special.asFile
  | some (.mirage _ k) => .inode (stars k).node.inode (stars k).node.status (stars k).node.special.asFile
  | some (.dir _ st i _) => .inode i st none

/-- the entry of path `n`/`p` -/
def entryAt (l : List Entry) (n : Bytes) : List Bytes → Option Entry
  | [] => l.find? (fun e => e.label = n)
  | x :: p => match l.find? (fun e => e.label = n) with
    | some (.dir _ _ _ c) => entryAt c x p
    | _ => none

mutual
/-- In each directory, the names are distinct. -/
def Entry.Distinct (e : Entry) : Prop :=
  match e with
  | .dir _ _ _ c => (c.map Entry.label).Nodup ∧ Entry.DistinctL c
  | _ => True
def Entry.DistinctL (l : List Entry) : Prop :=
  match l with
  | [] => True
  | e :: l => Entry.Distinct e ∧ Entry.DistinctL l
end

/-- what the archive tells of the path `n`/`p` -/
def ArchIn.told (a : ArchIn) (n : Bytes) (p : List Bytes) : Told := Told.of a.stars (entryAt a.root n p)

/-! ### What the database records -/

/-- the records, data and EA, of the path `n`/`p` -/
def recordsAt (l : List DTree) (n : Bytes) : List Bytes → SMap StatP × SMap Stat
  | [] => match l.find? (fun t => t.name = n) with
    | none => ([], [])
    | some t => (t.mods, t.chgs)
  | x :: p => match l.find? (fun t => t.name = n) with
    | none => ([], [])
    | some t => recordsAt t.sub x p

/-- the later of two dates -/
def later (a b : DateT) : DateT := if a.instant < b.instant then b else a

/-- The checksum of the data of the file once the archives up to the last record are restored, when they tell it. -/
def chainStep (c : Option Crc) (s : StatP) : Option Crc :=
  match s.present with
  | .saved => s.result
  | .patch => s.result
  | .patchUnusable => s.result
  | .present => c
  | .inode => c
  | .removed => none
  | .absent => none
def chainCrc (m : SMap StatP) : Option Crc := m.foldl (fun c p => chainStep c p.2) none

/-- the patch applies to data having this checksum -/
def Applies (c base : Option Crc) : Prop := ∃ x b, c = some x ∧ base = some b ∧ x.st.cyc = b.st.cyc
instance (c base : Option Crc) : Decidable (Applies c base) :=
  match c, base with
  | none, _ => isFalse (fun ⟨_, _, h, _⟩ => by cases h)
  | some _, none => isFalse (fun ⟨_, _, _, h, _⟩ => by cases h)
  | some x, some b => if h : x.st.cyc = b.st.cyc then isTrue ⟨x, b, rfl, rfl, h⟩
    else isFalse (fun ⟨_, _, h1, h2, h3⟩ => by cases h1; cases h2; exact h h3)

/-- A patch that does not apply is recorded as unusable. -/
def StatP.checked (c : Option Crc) (s : StatP) : StatP :=
  if s.present = .patch ∧ ¬ Applies c s.base then { s with present := .patchUnusable } else s

/-- how the data of an inode is recorded -/
def etatOf : SavedStatus → Etat
  | .saved => .saved
  | .fake => .saved
  | .delta => .patch
  | .inodeOnly => .inode
  | .notSaved => .present
/-- base checksum recorded -/
def baseOf (st : SavedStatus) (f : Option FileB) : Option Crc :=
  match st with
  | .saved => none
  | .fake => none
  | _ => f.bind (·.base)
/-- checksum recorded for the data obtained -/
def resultOf (st : SavedStatus) (f : Option FileB) : Option Crc :=
  match st with
  | .saved => f.bind (·.check)
  | .fake => f.bind (·.check)
  | .delta => f.bind (fun f => f.sig.bind (·.result))
  | _ => f.bind (fun f => f.check.or (f.sig.bind (·.result)))

/-- The database, asked without date, does not answer that the file is unknown or removed. -/
def foundThere (m : SMap StatP) : Prop := ∃ set r, getData m ⟨0, .s⟩ false = .ok (set, r) ∧ (r = .foundPresent ∨ r = .notRestorable)
def foundThereEa (m : SMap Stat) : Prop := ∃ n r, getEA m ⟨0, .s⟩ false = .ok (n, r) ∧ (r = .foundPresent ∨ r = .notRestorable)

/-- What has to be recorded for a file of which the archive tells nothing usable: it is absent if the last record tells it is there, with the date of the
deletion or the last known date, whichever is the later; nothing otherwise. -/
def missingRecord (del : DateT) (old : SMap StatP) : Option StatP :=
  match old.getLast? with
  | none => none
  | some (_, s) => if s.present = .removed ∨ s.present = .absent then none else some ⟨later s.date del, .absent, none, none⟩

open Classical in
/-- What has to be recorded for the data of a file. -/
noncomputable def recordData (del : DateT) (old : SMap StatP) : Told → Option StatP
  | .inode i st f => some ⟨later i.ctime i.mtime, etatOf st, baseOf st f, resultOf st f⟩
  | .deleted d => if foundThere old then some ⟨d, .removed, none, none⟩ else missingRecord del old
  | .nothing => missingRecord del old

/-- date of the last record, the null date if there is none -/
def lastSeen (old : SMap StatP) : DateT := match old.getLast? with | none => ⟨0, .s⟩ | some (_, s) => s.date

/-- the same as missingRecord for EA; the date is at least the one of the last older record of the data -/
def missingEa (del : DateT) (oldD : SMap StatP) (old : SMap Stat) : Option Stat :=
  match old.getLast? with
  | none => none
  | some (_, s) => if s.present = .removed ∨ s.present = .absent then none else some ⟨later (lastSeen oldD) del, .absent⟩

open Classical in
/-- What has to be recorded for the EA of a file. -/
noncomputable def recordEa (del : DateT) (oldD : SMap StatP) (old : SMap Stat) : Told → Option Stat
  | .inode i _ _ => match i.ea with
    | .full => some ⟨i.ctime, .saved⟩
    | .fake => some ⟨i.ctime, .saved⟩
    | .part => some ⟨i.ctime, .present⟩
    | .removed => if foundThereEa old then some ⟨i.ctime, .removed⟩ else missingEa del oldD old
    | .none => missingEa del oldD old
  | .deleted d => if foundThereEa old then some ⟨d, .removed⟩ else missingEa del oldD old
  | .nothing => missingEa del oldD old

/-- A record added for the archive `n`. -/
def appended {α : Type} (old : SMap α) (n : Nat) (r : Option α) : SMap α := old ++ (r.map (fun s => (n, s))).toList

/-- Date of the record that gives the state of a directory (the last archive of the lookup). -/
def stateDate (m : SMap StatP) : DateT :=
  match getData m ⟨0, .s⟩ false with
  | .ok (set, _) => match set.getLast? with
    | some n => match m.get n with
      | some s => s.date
      | none => ⟨0, .s⟩
    | none => ⟨0, .s⟩
  | .error _ => ⟨0, .s⟩
/-- Date given to the disappearance of the path `n`/`p`: that of its parent directory. -/
def deletionDate (root : DateT) (l : List DTree) (n : Bytes) (p : List Bytes) : DateT :=
  if p = [] then root else stateDate (recordsAt l n p.dropLast).1

/-! ### Databases made by additions -/

/-- Well-formed records of a file, in a database of `n` archives. -/
structure RecordsOk (n : Nat) (dir : Bool) (mods : SMap StatP) (chgs : SMap Stat) : Prop where
  sorted : mods.Sorted
  sortedEa : chgs.Sorted
  keys : ∀ q ∈ mods, 0 < q.1 ∧ q.1 ≤ n
  keysEa : ∀ q ∈ chgs, 0 < q.1 ∧ q.1 ≤ n
  etats : ∀ q ∈ chgs, q.2.present = .saved ∨ q.2.present = .present ∨ q.2.present = .removed ∨ q.2.present = .absent
  delta : checkDelta none mods = .ok mods
  dirs : dir = true → mods ≠ []

mutual
/-- All the records satisfy `P`; only directories have children; the names are distinct in each directory. -/
def DTree.Each (P : Bool → SMap StatP → SMap Stat → Prop) (t : DTree) : Prop :=
  match t with
  | .node _ d m c s => P d m c ∧ (d = false → s = []) ∧ (s.map DTree.name).Nodup ∧ DTree.EachL P s
def DTree.EachL (P : Bool → SMap StatP → SMap Stat → Prop) (l : List DTree) : Prop :=
  match l with
  | [] => True
  | t :: l => DTree.Each P t ∧ DTree.EachL P l
end

/-- A database as the additions make it. -/
def Database.Ok (db : Database) : Prop :=
  db.coord ≠ [] ∧ db.files.isDir = true ∧ (db.files.sub.map DTree.name).Nodup ∧ DTree.EachL (RecordsOk (db.coord.length - 1)) db.files.sub

/-- A new database: i_database(), src/libdar/i_database.cpp:54-71 -/
def newDatabase (version : Nat) (crypto : CryptoAlgo) : Database :=
  ⟨version, crypto, [⟨[], [], ⟨0, .s⟩, .none, [], 0⟩], [], [], .node [46] true [] [] []⟩

/-- archives added one after the other -/
def Database.addAll (db : Database) : List (ArchIn × Bytes × Bytes) → Res Database
  | [] => .ok db
  | (a, chemin, basename) :: l => do
    let db ← db.addArchive a chemin basename
    db.addAll l

/-! ### What a sequence of archives tells of a file -/

/-- State of the file and checksum of its data once an archive more is restored. -/
def Told.next (n : Nat) (t : Told) (s : FState × Option Crc) : FState × Option Crc :=
  match t with
  | .inode _ st f =>
    let r : StatP := StatP.checked s.2 ⟨⟨0, .s⟩, etatOf st, baseOf st f, resultOf st f⟩
    (s.1.step (n, r.present), chainStep s.2 r)
  | _ => (if s.1 = .unseen then .unseen else .gone, none)
/-- State after the archives numbered from `k` on. -/
def toldFrom (k : Nat) (x : Bytes) (p : List Bytes) : List ArchIn → FState × Option Crc → FState × Option Crc
  | [], s => s
  | a :: l, s => toldFrom (k + 1) x p l ((a.told x p).next k s)

/-- The same for EA: full, unchanged, or none. -/
def Told.nextEa (n : Nat) (t : Told) (s : FState) : FState :=
  match t with
  | .inode i _ _ => match i.ea with
    | .full => s.step (n, .saved)
    | .fake => s.step (n, .saved)
    | .part => s.step (n, .present)
    | .removed => if s = .unseen then .unseen else .gone
    | .none => if s = .unseen then .unseen else .gone
  | _ => if s = .unseen then .unseen else .gone
def toldEaFrom (k : Nat) (x : Bytes) (p : List Bytes) : List ArchIn → FState → FState
  | [], s => s
  | a :: l, s => toldEaFrom (k + 1) x p l ((a.told x p).nextEa k s)

end Dar
