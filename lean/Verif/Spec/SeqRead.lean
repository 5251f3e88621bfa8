import Verif.Model.SeqRead
import Verif.Spec.Catalogue
/- What a backup leaves in the archive for sequential reading, and what reading it sequentially should give: the same thing as reading the catalogue
in memory. -/
namespace Dar

/-- the inode is shared by several names -/
def shared (stars : Nat → Star) (k : Nat) : Bool := decide ((stars k).refs > 1 ∨ (stars k).keep = true)

/-- What the in-line copy of an entry tells about it: its name, type, status, owner, dates, size, not the offsets and checksums that were not known yet.
The in-line copy of a directory tells nothing about what it contains. -/
def Entry.inline (stars : Nat → Star) (dalgo : Compr) : Entry → Entry
  | .node n => .node (n.kept true dalgo)
  | .dir name st i _ => .dir name st (i.kept true) []
  | .mirage n k => if shared stars k then .mirage n k else .node (Node.kept true dalgo { (stars k).node with name := n })
  | e => e
/-- the in-line copy of an entry can be made -/
def Entry.InlineOk (stars : Nat → Star) : Entry → Prop
  | .node n => n.Writable true
  | .dir name _ i _ => (0 : UInt8) ∉ name ∧ i.Writable true
  | .mirage n k => (0 : UInt8) ∉ n ∧ (stars k).node.Writable true
  | _ => False

/-- what is saved of an object after its in-line copy: data, then marks (EA, FSA, checksums, delta signature, ...) with what follows them -/
structure SavedRest where
  data : Bytes
  marks : List (SeqT × Bytes)
/-- none of these marks announces an entry, the catalogue or a failure, and the data do not start with the escape pattern (see the finding) -/
def SavedRest.Ok [EscByte] (a : SavedRest) : Prop :=
  (∀ m ∈ a.marks, m.1 ≠ .file ∧ m.1 ≠ .catalogue ∧ m.1 ≠ .failedBackup) ∧ ¬ escPattern <+: a.data

/-- what a backup leaves in the archive: an object saved, an object whose saving failed at once, the end of a directory -/
inductive SeqEv where
  | saved (e : Entry) (a : SavedRest)
  | failed (e : Entry) (a : SavedRest)
  | eod (a : SavedRest)

/-- cat_eod dumped in line, src/libdar/cat_entree.cpp:262-305 -/
def eodInline : Res Bytes := do
  let c ← headerCrc eodBytes
  .ok (eodBytes ++ c.dump)

/-- the hard linked inodes written so far once `e` is (set_inode_wrote, src/libdar/filtre.cpp:999) -/
def wroteAfter (stars : Nat → Star) (wrote : List Nat) : Entry → List Nat
  | .mirage _ k => if shared stars k then (if k ∈ wrote then wrote else k :: wrote) else wrote
  | _ => wrote

/-- the marks left for an object: escape_catalogue::pre_add then the data, src/libdar/escape_catalogue.cpp:188-202; pre_add_failed_mark,
src/libdar/escape_catalogue.cpp:334-347, called by save_inode (src/libdar/filtre.cpp:3332-3336) -/
def SeqEv.marks (stars : Nat → Star) (wrote : List Nat) : SeqEv → Res (List (SeqT × Bytes) × List Nat)
  | .saved e a => do let b ← e.dumpInline stars wrote; .ok ((.file, b ++ a.data) :: a.marks, wroteAfter stars wrote e)
  | .failed e a => do let b ← e.dumpInline stars wrote; .ok ((.file, b) :: (.failedBackup, a.data) :: a.marks, wrote)
  | .eod a => do let b ← eodInline; .ok ((.file, b ++ a.data) :: a.marks, wrote)
/-- the marks left by a whole backup -/
def evMarks (stars : Nat → Star) : List Nat → List SeqEv → Res (List (SeqT × Bytes))
  | _, [] => .ok []
  | wrote, ev :: evs => do
    let (m, wrote) ← ev.marks stars wrote
    let ms ← evMarks stars wrote evs
    .ok (m ++ ms)

/-- an object that sequential reading does not find in line: a deletion record (only in the catalogue) or an entry to ignore -/
def Entry.hidden : Entry → Bool
  | .detruit _ _ _ => true
  | .ignored _ => true
  | _ => false

/-- `LeavesIn stars cut stack evs`: going through what remains of the directories of `stack` (the current one first) leaves `evs` in the archive.  Entries that
could not be saved (not hard linked ones) are met anywhere.  When `cut` is set the archive may end (interrupted) while directories are open. -/
inductive LeavesIn [EscByte] (stars : Nat → Star) (cut : Bool) : List (List Entry) → List SeqEv → Prop
  | done : LeavesIn stars cut [[]] []
  | stop {s} (h : cut = true) (ne : s ≠ []) (empty : ∀ l ∈ s, l = []) : LeavesIn stars cut s []
  | failed {e a s evs} (ok : Entry.InlineOk stars e) (notLink : ∀ n k, e ≠ .mirage n k) (notDir : e.isFolder = false) (after : a.Ok)
      (next : LeavesIn stars cut s evs) : LeavesIn stars cut s (.failed e a :: evs)
  | hidden {e l up evs} (h : e.hidden = true) (next : LeavesIn stars cut (l :: up) evs) : LeavesIn stars cut ((e :: l) :: up) evs
  | leaf {e a l up evs} (ok : Entry.InlineOk stars e) (notDir : e.isFolder = false) (after : a.Ok) (next : LeavesIn stars cut (l :: up) evs) :
      LeavesIn stars cut ((e :: l) :: up) (.saved e a :: evs)
  | dir {n st i ch a l up evs} (ok : Entry.InlineOk stars (.dir n st i [])) (after : a.Ok) (next : LeavesIn stars cut (ch :: l :: up) evs) :
      LeavesIn stars cut ((.dir n st i ch :: l) :: up) (.saved (.dir n st i []) a :: evs)
  | eod {a l up evs} (after : a.Ok) (next : LeavesIn stars cut (l :: up) evs) : LeavesIn stars cut ([] :: l :: up) (.eod a :: evs)

/-- the tree as the in-line copies tell it -/
def seenTree (stars : Nat → Star) (dalgo : Compr) : List Entry → List Entry
  | [] => []
  | .dir n st i ch :: l => .dir n st (i.kept true) (seenTree stars dalgo ch) :: seenTree stars dalgo l
  | .detruit _ _ _ :: l => seenTree stars dalgo l
  | .ignored _ :: l => seenTree stars dalgo l
  | e :: l => e.inline stars dalgo :: seenTree stars dalgo l

/-- in each directory the names are distinct -/
def DistinctNames : List Entry → Prop
  | [] => True
  | e :: l => (∀ e' ∈ l, e'.title ≠ e.title) ∧ (match e with | .dir _ _ _ ch => DistinctNames ch | _ => True) ∧ DistinctNames l

/-- what the caller of `read` does with the archive before the call: reads nothing, goes backward, or goes over some bytes and marks of what was saved of
the last object (never over the mark of an entry or of the catalogue) -/
inductive Move where
  | stay
  | back
  | ahead (marks bytes : Nat)

/-- the stream after having gone over `n` marks -/
def passMarks : Nat → MarkStream → MarkStream
  | 0, s => s
  | _, (d, []) => (d, [])
  | n + 1, (d, (t, d') :: ms) => if t = .file ∨ t = .catalogue then (d, (t, d') :: ms) else passMarks n (d', ms)
def Move.apply (m : Move) (st : EC) : EC :=
  match m, st.pos with
  | .stay, _ => st
  | .back, _ => { st with pos := .behind }
  | .ahead _ _, .behind => st
  | .ahead n k, .here s => { st with pos := .here ((passMarks n s).1.drop k, (passMarks n s).2) }

/-- a call of `read` after some moves in the archive, then, or not, a call of `skip_read_to_parent_dir` -/
structure SeqCall where
  move : Move
  skip : Bool

/-- the answers of the sequential reading to a series of calls and the last state -/
def seqRun [EscByte] (env : SeqEnv) : EC → List SeqCall → Res (List (Option Item) × EC)
  | st, [] => .ok ([], st)
  | st, c :: cs => do
    let (a, st) ← EC.read env (c.move.apply st)
    let st ← (if c.skip then st.skip else .ok st : Res EC)
    let (as, st) ← seqRun env st cs
    .ok (a :: as, st)
/-- the answers of a catalogue in memory to the same calls -/
def memCalls : MemRd → List SeqCall → Res (List (Option Item) × MemRd)
  | m, [] => .ok ([], m)
  | m, c :: cs => do
    let (a, m) := memRead m
    let m ← (if c.skip then memSkip m else .ok m : Res MemRd)
    let (as, m) ← memCalls m cs
    .ok (a :: as, m)

/-- an answer without the content of the directory (which the caller discovers by the next calls) -/
def Item.bare : Item → Item
  | .entry (.dir n st i _) => .entry (.dir n st i [])
  | it => it
def bareAnswers (l : List (Option Item)) : List (Option Item) := l.map (·.map Item.bare)

/-! ### the deletion records -/

/-- the deletion records of the catalogue, inside the directories that lead to them -/
def deletionTree : List Entry → List Entry
  | [] => []
  | .detruit n s d :: l => .detruit n s d :: deletionTree l
  | .dir n st i ch :: l => if (deletionTree ch).isEmpty then deletionTree l else .dir n st (i.kept false).unsaved (deletionTree ch) :: deletionTree l
  | _ :: l => deletionTree l
/-- the deletion records of a directory -/
def deletions : List Entry → List Entry
  | [] => []
  | .detruit n s d :: l => .detruit n s d :: deletions l
  | _ :: l => deletions l
/-- the tree as the in-line copies tell it, each directory followed by its deletion records -/
def seenWhole (stars : Nat → Star) (dalgo : Compr) : List Entry → List Entry
  | [] => []
  | .dir n st i ch :: l => .dir n st (i.kept true) (seenWhole stars dalgo ch ++ deletions ch) :: seenWhole stars dalgo l
  | .detruit _ _ _ :: l => seenWhole stars dalgo l
  | .ignored _ :: l => seenWhole stars dalgo l
  | e :: l => e.inline stars dalgo :: seenWhole stars dalgo l
/-- the whole tree, with its deletion records -/
def wholeTree (stars : Nat → Star) (dalgo : Compr) (l : List Entry) : List Entry := seenWhole stars dalgo l ++ deletions l

/-- the same object, with perhaps something else after its in-line copy -/
inductive SameObject : SeqEv → SeqEv → Prop
  | saved (e a a') : SameObject (.saved e a) (.saved e a')
  | failed (e a a') : SameObject (.failed e a) (.failed e a')
  | eod (a a') : SameObject (.eod a) (.eod a')
def SeqEv.after : SeqEv → SavedRest
  | .saved _ a => a
  | .failed _ a => a
  | .eod a => a

/-- the tree as far as the backup went before it was interrupted -/
inductive CutAt : List Entry → List Entry → Prop
  | here (l) : CutAt [] l
  | later {e l' l} (next : CutAt l' l) : CutAt (e :: l') (e :: l)
  | inside {n st i ch' ch l} (next : CutAt ch' ch) : CutAt [.dir n st i ch'] (.dir n st i ch :: l)

/-- the deletion records of a tree, each with the directories that lead to it -/
def deletionRecords (path : List Bytes) : List Entry → List (List Bytes × Bytes × UInt8 × DateT)
  | [] => []
  | .detruit n s d :: l => (path, n, s, d) :: deletionRecords path l
  | .dir n _ _ ch :: l => deletionRecords (path ++ [n]) ch ++ deletionRecords path l
  | _ :: l => deletionRecords path l
/-- only deletion records, no directory without any, no directory that claims to have EA or FSA in the archive -/
def OnlyDeletions : List Entry → Prop
  | [] => True
  | .detruit _ _ _ :: l => OnlyDeletions l
  | .dir _ _ i ch :: l => ch ≠ [] ∧ i.ea ≠ .full ∧ i.fsa ≠ .full ∧ OnlyDeletions ch ∧ OnlyDeletions l
  | _ :: _ => False
/-- a tree without its deletion records -/
def withoutDeletions : List Entry → List Entry
  | [] => []
  | .detruit _ _ _ :: l => withoutDeletions l
  | .dir n st i ch :: l => .dir n st i (withoutDeletions ch) :: withoutDeletions l
  | e :: l => e :: withoutDeletions l

/-! ### the conditions of a sequential reading -/

/-- the archive is read by a program able to read it (integers that fit, version 9 or more) -/
structure SeqEnv.Fit (env : SeqEnv) : Prop where
  fits : env.fits = fun _ => true
  ver : env.ver.lt ⟨9, 0⟩ = false
  fuel : 3 ≤ env.fuel

/-- the archive ends with a catalogue, which is the one of `tree` (what C32 shows to be read back); its signatories are those of the archive; if the
archive is signed, what has been read in line is found to be part of the catalogue (see C60).  The hard linked inodes are those of `stars` when the in-line
copies are made and of `fstars` when the catalogue is written: a link whose other links are not in the backup is then no more counted as shared
(filesystem_hard_link_read::couple::holder, src/libdar/filesystem_hard_link_read.hpp:113-123). -/
structure SeqEnv.Complete (env : SeqEnv) (stars fstars : Nat → Star) (tree : List Entry) (d : Bytes) (rest : List (SeqT × Bytes)) : Prop where
  cat : env.readCat (d, rest) = .ok (Entry.keptList fstars env.dalgo tree)
  sig : env.sameSig = true
  sub : env.isSigned = true → env.subset (seenTree stars env.dalgo tree) (Entry.keptList fstars env.dalgo tree) = true

end Dar
