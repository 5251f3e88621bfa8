import Verif.Model.Basic
/-! What the cutting of a listing file into lines should give. -/
namespace Dar.Lf
open Dar

/-- `lines` is a way to read the text as lines, each followed by one of the end of line sequences, the last one possibly
followed by nothing; every byte of the text is either in a line or in an end of line sequence.  `up` is what is done to the
text of a line followed by an end of line. -/
inductive Cuts (seqs : List Bytes) (up : Bytes → Bytes) : Bytes → List Bytes → Prop
  | done : Cuts seqs up [] []
  | last (l : Bytes) : l ≠ [] → Cuts seqs up l [l]
  | line (l s rest : Bytes) (ls : List Bytes) : l ≠ [] → s ∈ seqs → Cuts seqs up rest ls →
      Cuts seqs up (l ++ s ++ rest) (up l :: ls)

/-- After some lines the text has an empty line: an end of line sequence just after another one, or at the start. -/
inductive HasEmptyLine (seqs : List Bytes) : Bytes → Prop
  | here (s rest : Bytes) : s ∈ seqs → HasEmptyLine seqs (s ++ rest)
  | later (l s rest : Bytes) : l ≠ [] → s ∈ seqs → HasEmptyLine seqs rest → HasEmptyLine seqs (l ++ s ++ rest)

/-- The number of carriage returns at the end of a line. -/
def endCr (l : Bytes) : Nat := (l.reverse.takeWhile (· = 13)).length

/-- The line without the carriage return that belongs to its end of line, when the end of lines are line feeds, possibly
preceded by a carriage return. -/
def stripCr (l : Bytes) : Bytes := if endCr l % 2 = 1 then l.dropLast else l

/-- What the documentation says: one carriage return, if any, belongs to the end of line. -/
def docStrip (l : Bytes) : Bytes := if l.getLast? = some 13 then l.dropLast else l

end Dar.Lf
