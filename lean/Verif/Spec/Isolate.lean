import Verif.Model.Isolate
import Verif.Props.CatalogueFile
/- What the user of an archive gets from its catalogue, whether read from the archive or from an isolated catalogue. -/
namespace Dar

/-- what the catalogue tells of the delta signature of a file: its type, the checksum of the file, and, when there is a signature, the signature itself (or the failure to obtain it) -/
abbrev SigShown := Option (SigMagic × Option Crc × Option (Res (Nat × Bytes)))

/-- an entry as the user sees it: an inode, its delta signature, and the group of hard linked entries it belongs to; a directory; the record of a removed entry -/
inductive Shown where
  | inode (n : Node) (link : Option Nat) (sig : SigShown)
  | dir (name : Bytes) (st : SavedStatus) (i : InodeB) (l : List Shown)
  | removed (name : Bytes) (s : UInt8) (d : DateT)

/-- For data present in the archive: its size, where and how it is stored, its checksum.  For other files: the size. -/
def FileB.shown (st : SavedStatus) (f : FileB) : FileB :=
  if st.hasData then { f with stRead := f.stWrite, base := if st = .delta then f.base else none, sig := none }
  else ⟨f.size, 0, 0, 0, 0, false, .none, none, none, none⟩
def Special.shown (st : SavedStatus) : Special → Special
  | .file f => .file (f.shown st)
  | .door f => .door (f.shown st)
  | s => s.kept false st .none
def Node.shown (name : Bytes) (n : Node) : Node := ⟨name, n.status, n.inode.kept false, n.special.shown n.status⟩

/-- the signature of a file, `data` being where the catalogue says it is -/
def sigShown (data : Option Bytes) (n : Node) : SigShown :=
  match n.special with
  | .file f | .door f => f.sig.map fun d => (d.magic, d.result, if d.size ≠ 0 then some (sigFetch data d) else none)
  | _ => none
/-- nothing is looked at of the signatures -/
def noSigShown (_ : Node) : SigShown := none

mutual
def Entry.shown (sg : Node → SigShown) (stars : Nat → Star) (e : Entry) : List Shown :=
  match e with
  | .node n => [.inode (n.shown n.name) none (sg n)]
  | .dir name st i l => [.dir name st (i.kept false) (Entry.shownL sg stars l)]
  | .detruit name s d => [.removed name s d]
  | .mirage name k => [.inode ((stars k).node.shown name) (if (stars k).refs > 1 then some k else none) (sg (stars k).node)]
  | .ignored _ => []
def Entry.shownL (sg : Node → SigShown) (stars : Nat → Star) (l : List Entry) : List Shown :=
  match l with
  | [] => []
  | e :: l => Entry.shown sg stars e ++ Entry.shownL sg stars l
end

/-- What an opened archive shows: the name of the data, where the backup was done, the root directory and everything under it. -/
def IsoArc.shown (sg : Node → SigShown) (a : IsoArc) : Bytes × PathT × SavedStatus × InodeB × Bytes × List Shown :=
  (a.cat.label, a.cat.inPlace, a.cat.status, a.cat.inode.kept false, a.cat.name, Entry.shownL sg a.stars a.cat.children)

/-- An opened archive that is in order: everything in its catalogue can be stored, its hard links are counted right, its header is complete. -/
structure IsoArc.Sound (a : IsoArc) : Prop where
  cat : a.cat.Writable a.stars
  links : ∀ k, (a.stars k).refs = Entry.linksToL k a.cat.children ∧ (a.stars k).keep = false
  ver : a.ver.Writable
  /-- either it is an archive, its slices being known, or an isolated catalogue that knows the slices of its archive -/
  own : a.ver.refVersion = none → a.ver.base.refHeader = none ∧ a.sl.AsRef ∧ a.ver.base.initialOffset ≠ 0
  ref : a.ver.refVersion ≠ none → a.ver.base.refHeader ≠ none

/-- The archive a catalogue comes from: the header of its slices, its header, where this one is found. -/
def IsoArc.origin (a : IsoArc) : Option SliceHdr × HdrBase × Nat :=
  match a.ver.refVersion with
  | none => (some a.sl, a.ver.base, a.term)
  | some r => (a.ver.base.refHeader, r, a.ver.refOffset)

/-- options of an isolation that can be done -/
structure IsoOpts.Fit (o : IsoOpts) (a : IsoArc) : Prop where
  label : o.label ≠ a.cat.label
  base : o.base.Writable

end Dar
