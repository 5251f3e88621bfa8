import Verif.Model.Escape
/-
Specification of the escape layer, independent from its algorithms.

A logical stream is some data, then marks, each followed by its own data.
-/
namespace Dar

variable [EscByte]

/-- A logical stream: the data before the first mark, then every mark with the data that follows. -/
abbrev MarkStream := Bytes × List (SeqT × Bytes)

/-- The on-disk form of pure data: after each occurrence of the five byte pattern one byte is added that
tells it is not a mark. -/
def escData : Bytes → Bytes
  | [] => []
  | b :: d =>
      if escPattern <+: b :: d then escSeq .notASequence ++ escData (d.drop 4)
      else b :: escData d
termination_by d => d.length

/-- The on-disk form of the marks and the data that follow them. -/
def encMarks : List (SeqT × Bytes) → Bytes
  | [] => []
  | (t, d) :: ms => escSeq t ++ escData d ++ encMarks ms

/-- The on-disk form of a logical stream. -/
def encStream (d : Bytes) (ms : List (SeqT × Bytes)) : Bytes := escData d ++ encMarks ms

/-- What a sequence of `write` and `mark` calls means: data written accumulates in the current segment. -/
def opsMeaning : List EscOp → MarkStream
  | [] => ([], [])
  | .write a :: ops => (a ++ (opsMeaning ops).1, (opsMeaning ops).2)
  | .mark t :: ops => ([], (t, (opsMeaning ops).1) :: (opsMeaning ops).2)
  | .sync :: ops => opsMeaning ops

/-- The data ends with an incomplete occurrence of the pattern. -/
def endsPartial (d : Bytes) : Prop := ∃ k, 0 < k ∧ k < 5 ∧ escPattern.take k <:+ d

/-- The last data of the stream does not end with an incomplete pattern. -/
def TailOk (d : Bytes) : List (SeqT × Bytes) → Prop
  | [] => ¬ endsPartial d
  | (_, d') :: ms => TailOk d' ms

/-- Nothing remains of the stream but a non empty incomplete occurrence of the pattern. -/
def OnlyPartial (d : Bytes) (ms : List (SeqT × Bytes)) : Prop :=
  ms = [] ∧ d ≠ [] ∧ d.length < 5 ∧ d <+: escPattern

/-- All marks are real ones (`seqt_not_a_sequence` cannot be added as a mark). -/
def RealMarks (ms : List (SeqT × Bytes)) : Prop := ∀ m ∈ ms, m.1 ≠ .notASequence

/-- What skipping to the next mark of type `t` does on a logical stream: marks of other types are passed
only when jumping is allowed and the mark is not unjumpable; the result is whether such a mark was found
and the stream that remains: after the mark when found; otherwise the data that precede the blocking mark
and that mark, or nothing. -/
def skipSpec (t : SeqT) (jump : Bool) (unj : List SeqT) (d : Bytes) : List (SeqT × Bytes) → Bool × MarkStream
  | [] => (false, ([], []))
  | (t', d') :: ms =>
      if t' = t then (true, (d', ms))
      else if jump = true ∧ t' ∉ unj then skipSpec t jump unj d' ms
      else (false, (d, (t', d') :: ms))

end Dar
