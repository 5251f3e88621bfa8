import Verif.Spec.Difference
import Verif.Model.TestOp
/- Specification of the test of an archive: what "intact" means for what is recorded, which entries are concerned. -/
namespace Dar

/-- The width of the checksum of an object: one byte if it is empty, else four bytes per started gibibyte. -/
def widthFor (size : Nat) : Nat := if size = 0 then 1 else 4 * ((size + (2 ^ 30 - 1)) / 2 ^ 30)

/-- A checksum object that can be read from an archive: it is not empty and its width tells its class. -/
def Crc.Good (c : Crc) : Prop := 0 < c.st.cyc.length ∧ c.impl = crcImplFor c.st.cyc.length

/-- A copy of the data of a file is intact: it can be read up to the end, and its bytes have the recorded checksum (if any: old archives have none).  In sequential
reading the width of the checksum has to be the one for the recorded size. -/
def DataPiece.Intact (seq : Bool) (size : Nat) (p : DataPiece) : Prop :=
  ∃ d r, p.bytes = .ok d ∧ p.crc = .ok r ∧ ∀ c, r = some c → c.Good ∧ c.Fits d ∧ (seq = true → c.st.cyc.length = widthFor size)

/-- Attributes are intact: they can be reached and read, and their bytes have the recorded checksum. -/
def AttrPiece.Intact (width : Nat) (a : AttrPiece) : Prop :=
  a.seek = .ok () ∧ ∃ d c, a.bytes = .ok d ∧ a.crc = .ok c ∧ c.Good ∧ c.st.cyc.length = width ∧ c.Fits d

/-- The signature, if any, is intact. -/
def SigPiece.Intact (s : SigPiece) : Prop :=
  s.head = .ok () ∧ (s.here = true → ∃ d c, s.bytes = .ok d ∧ s.crc = .ok c ∧ c.Good ∧ c.st.cyc.length = widthFor s.size ∧ c.Fits d)

/-- Everything recorded for an inode is intact. -/
structure TIno.Intact (seq : Bool) (i : TIno) : Prop where
  data : ∀ l, i.data = some l → l ≠ [] ∧ ∀ p ∈ l, p.Intact seq i.size
  sig : ∀ s, i.sig = some s → s.Intact
  ea : ∀ a, i.ea = some a → a.Intact (if a.size = 0 then 2 else widthFor a.size)
  fsa : ∀ a, i.fsa = some a → a.Intact (widthFor a.size)

/-- What an entry stands for is intact. -/
def TEntry.Intact (seq : Bool) (inos : Nat → TIno) : TEntry → Prop
  | .plain _ i => i.Intact seq
  | .dir _ i _ => i.Intact seq
  | .link _ k => (inos k).Intact seq
  | .gone _ => True
  | .broken _ => False

/-- The entry `e` has path `p` in the directory `l` of path `pre`, and the directories between are all covered by the filter on paths. -/
inductive Seen (subtree : List Bytes → Bool) : List Bytes → List TEntry → List Bytes → TEntry → Prop
  | here {pre l e} : e ∈ l → Seen subtree pre l (pre ++ [e.name]) e
  | under {pre l n i ch p e} : .dir n i ch ∈ l → subtree (pre ++ [n]) = true → Seen subtree (pre ++ [n]) ch p e → Seen subtree pre l p e

/-- The filters select an entry: the one on paths and, but for a directory, the one on names. -/
def TestSelected (o : TOpts) (p : List Bytes) (e : TEntry) : Prop := o.subtree p = true ∧ (e.isDir = true ∨ o.names e.name = true)

/-- `e` is somewhere below. -/
inductive TBelow : List TEntry → TEntry → Prop
  | here {l e} : e ∈ l → TBelow l e
  | under {l n i ch e} : .dir n i ch ∈ l → TBelow ch e → TBelow l e

/-- The reading of the list of entries does not fail. -/
def ListReadable (l : List TEntry) : Prop := ∀ e, ¬ TBelow l (.broken e)

/-- How many entries are selected, how many are not (a directory that is not selected counts for one with all it contains). -/
def tTally (o : TOpts) : List Bytes → List TEntry → Nat × Nat
  | _, [] => (0, 0)
  | pre, .dir n _ ch :: l =>
    if o.subtree (pre ++ [n]) then ((tTally o (pre ++ [n]) ch).1 + (tTally o pre l).1 + 1, (tTally o (pre ++ [n]) ch).2 + (tTally o pre l).2)
    else ((tTally o pre l).1, (tTally o pre l).2 + 1)
  | pre, e :: l => if o.subtree (pre ++ [e.name]) && o.names e.name then ((tTally o pre l).1 + 1, (tTally o pre l).2) else ((tTally o pre l).1, (tTally o pre l).2 + 1)

end Dar
