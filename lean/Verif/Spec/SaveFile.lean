import Verif.Model.SaveFile
/- What is expected of the saving of a file that may change meanwhile. -/
namespace Dar

/-- where the object tells that the data is, there is the data of the reading number k, with its CRC -/
def PlacedAt (o : SaveOpts) (ev : Nat → ReadEv) (fic : FicRec) (bytes : Bytes) (k : Nat) : Prop :=
  (bytes.drop fic.offset).take fic.storage = o.stored fic.compressed (ev k).data ∧ fic.storage = (o.stored fic.compressed (ev k).data).length ∧ fic.crc = o.crcOf (ev k).data
/-- a file along the time: its modification date and its content -/
structure FileHist where
  mtime : Nat → Nat
  content : Nat → Bytes
/-- the content does not change without the modification date being changed, and dates do not come back -/
def FileHist.Honest (h : FileHist) : Prop := ∀ t1 t t2, t1 ≤ t → t ≤ t2 → h.mtime t1 = h.mtime t2 → h.content t = h.content t1
/-- the readings as they can happen: the reading number k lasts from b k to e k.  The date is looked at at b k and at e k, the size and each byte (and the end) are read at some moment in between -/
structure Happens (h : FileHist) (b e : Nat → Nat) (ev : Nat → ReadEv) (fic : FicRec) : Prop where
  order : ∀ k, b k ≤ e k ∧ e k ≤ b (k + 1)
  date0 : fic.mtime = h.mtime (b 0)
  size0 : ∃ t, b 0 ≤ t ∧ t ≤ e 0 ∧ fic.size = (h.content t).length
  data : ∀ k (i : Nat), ∃ t, b k ≤ t ∧ t ≤ e k ∧ (ev k).data[i]? = (h.content t)[i]?
  after : ∀ k m, (ev k).mtime = some m → m = h.mtime (e k)
  again : ∀ k m z, (ev k).again = some (m, z) → m = h.mtime (b (k + 1)) ∧ ∃ t, b (k + 1) ≤ t ∧ t ≤ e (k + 1) ∧ z = (h.content t).length

end Dar
