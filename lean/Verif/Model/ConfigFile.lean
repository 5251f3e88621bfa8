import Verif.Model.Flat
/- Model of the configuration files of dar (~/.darrc, option -B) and of the batch files of dar_manager: the comments (src/dar_suite/no_comment.cpp), the
conditional syntax (src/dar_suite/config_file.cpp), the pieces of a file made visible (src/dar_suite/hide_file.cpp), the cut into words
(src/dar_suite/line_tools.hpp:322-422) and the inclusions (src/dar_suite/command_line.cpp:1475-1540).

Bytes above 127 are not letters (the C locale). -/
namespace Dar

/-! ### pieces of a file -/

/-- hide_file::partie, src/dar_suite/hide_file.hpp: `start` in the file below, `size`, `off` in the resulting file -/
structure Morceau where
  start : Nat
  size : Nat
  off : Nat
  deriving DecidableEq, Repr
/-- pos_index and pos_relicat -/
structure HidePos where
  index : Nat
  rel : Nat
  deriving DecidableEq, Repr

/-- the loop of hide_file::inherited_read, src/dar_suite/hide_file.cpp:150-168: `pos_relicat += lu`, where `lu` counts all that has been read by this call
(`got` before this turn) -/
def hideLoop (below : Bytes) (ps : List Morceau) (size : Nat) : Nat → Bytes → HidePos → Res (Bytes × HidePos)
  | 0, got, h => .ok (got, h)
  | n + 1, got, h =>
    match ps[h.index]? with
    | none => .ok (got, h)
    | some p =>
      if got.length < size then
        let maxlire := min (p.size - h.rel) (size - got.length)
        let b := (below.drop (p.start + h.rel)).take maxlire
        if b.length = 0 ∧ maxlire > 0 then .error .bug
        else
          let got' := got ++ b
          let rel' := h.rel + got'.length
          hideLoop below ps size n got' (if rel' ≥ p.size then ⟨h.index + 1, 0⟩ else ⟨h.index, rel'⟩)
      else .ok (got, h)
/-- hide_file::inherited_read (as many turns as there are pieces or bytes asked at most) -/
def hideRead (below : Bytes) (ps : List Morceau) (h : HidePos) (size : Nat) : Res (Bytes × HidePos) := hideLoop below ps size (ps.length + size + 1) [] h
/-- the loop of hide_file::skip -/
def hideFind : List Morceau → Nat → Nat → Option (Nat × Morceau)
  | [], _, _ => none
  | p :: ps, i, pos => if p.off + p.size - 1 < pos then hideFind ps (i + 1) pos else some (i, p)
/-- hide_file::skip, src/dar_suite/hide_file.cpp:42-60 (a piece is not empty) -/
def hideSkip (ps : List Morceau) (h : HidePos) (pos : Nat) : Res (HidePos × Bool) :=
  match hideFind ps 0 pos with
  | none => .ok (h, false)
  | some (i, p) => if p.off > pos then .error .bug else .ok (⟨i, pos - p.off⟩, true)
/-- hide_file::get_position, src/dar_suite/hide_file.cpp:125-138 -/
def hidePosition (ps : List Morceau) (h : HidePos) : Nat :=
  match ps[h.index]? with
  | some p => p.off + h.rel
  | none => match ps.getLast? with
    | some p => p.off + p.size
    | none => 0
/-- what a hide_file shows of the file below when it is read from one end to the other -/
def hideView (below : Bytes) (ps : List Morceau) : Bytes := ps.flatMap (fun p => (below.drop p.start).take p.size)

/-! ### comments -/

/-- st_unknown, st_command, st_comment -/
inductive NcStatus where
  | unknown
  | command
  | comment
  deriving DecidableEq
/-- the local variables of no_comment::fill_morceau; `parts`: morceau, the last one first; `pos`: the position in the file below -/
structure NcSt where
  status : NcStatus
  tmp : Morceau
  lastOff : Nat
  lastCom : Bool
  parts : List Morceau
  pos : Nat
/-- a turn of the loop of no_comment::fill_morceau, src/dar_suite/no_comment.cpp:42-101; `stop`: nothing could be read, `a` is then the previous character
(a space at first) -/
def ncStep (s : NcSt) (a : UInt8) (stop : Bool) : Res NcSt :=
  match s.status with
  | .unknown =>
    if a = 32 ∨ a = 9 then .ok { s with tmp := { s.tmp with size := s.tmp.size + 1 } }
    else if a = 10 then .ok { s with tmp := { s.tmp with size := 0 } }
    else if a = 35 then .ok { s with status := .comment }
    else .ok { s with status := .command, tmp := ⟨s.pos - 1, 1, s.lastOff⟩ }
  | .comment => if a = 10 then .ok { s with status := .unknown, lastCom := true, tmp := { s.tmp with size := 0 } } else .ok s
  | .command =>
    let tmp := if stop then s.tmp else { s.tmp with size := s.tmp.size + 1 }
    if a = 10 ∨ stop then
      if s.lastCom then
        .ok { s with status := .unknown, parts := tmp :: s.parts, lastOff := tmp.off + tmp.size, lastCom := false, tmp := { tmp with size := 0 } }
      else match s.parts with
        | [] => .error .bug
        | b :: l =>
          let b' := { b with size := s.pos - b.start }
          .ok { s with status := .unknown, parts := b' :: l, lastOff := b'.off + b'.size, lastCom := false, tmp := { tmp with size := 0 } }
    else .ok { s with tmp := tmp }
/-- the loop -/
def ncRun (s : NcSt) (last : UInt8) : Bytes → Res NcSt
  | [] => ncStep s last true
  | a :: l => do
    let s' ← ncStep { s with pos := s.pos + 1 } a false
    ncRun s' a l
/-- no_comment::fill_morceau, src/dar_suite/no_comment.cpp:27-102 -/
def ncPieces (text : Bytes) : Res (List Morceau) := do
  let s ← ncRun ⟨.unknown, ⟨0, 0, 0⟩, 0, true, [], 0⟩ 32 text
  .ok s.parts.reverse

/-! ### conditional syntax -/

/-- isalpha, isalnum of the C locale -/
def isAlpha (a : UInt8) : Bool := (65 ≤ a && a ≤ 90) || (97 ≤ a && a ≤ 122)
def isWordChar (a : UInt8) : Bool := isAlpha a || (48 ≤ a && a ≤ 57) || a == 95 || a == 45

/-- init, search, end, purge -/
inductive CfStatus where
  | init
  | search
  | fin
  | purge
  deriving DecidableEq
/-- config_file::find_next_target, src/dar_suite/config_file.cpp:134-208; `pos`: the position in the file below.  The result: where the line of the target begins,
the target, where this line ends and what follows it. -/
def findTarget (status : CfStatus) (debut : Nat) (nature : Bytes) (pos : Nat) : Bytes → Option (Nat × Bytes × Nat × Bytes)
  | [] => none
  | a :: l => match status with
    | .init =>
      if a = 32 ∨ a = 9 then findTarget .init debut nature (pos + 1) l
      else if a = 10 then findTarget .init (pos + 1) nature (pos + 1) l
      else if isAlpha a then findTarget .search debut [a] (pos + 1) l
      else findTarget .purge debut nature (pos + 1) l
    | .search =>
      if isWordChar a then findTarget .search debut (nature ++ [a]) (pos + 1) l
      else if a = 58 then findTarget .fin debut nature (pos + 1) l
      else if a = 10 then findTarget .init (pos + 1) nature (pos + 1) l
      else findTarget .purge debut nature (pos + 1) l
    | .fin =>
      if a = 32 ∨ a = 9 ∨ a = 13 then findTarget .fin debut nature (pos + 1) l
      else if a = 10 then some (debut, nature, pos + 1, l)
      else findTarget .purge debut nature (pos + 1) l
    | .purge =>
      if a = 10 then findTarget .init (pos + 1) nature (pos + 1) l
      else findTarget .purge debut nature (pos + 1) l

/-- the local variables of config_file::fill_morceau: `keep` is status == fin; `parts`: morceau, the last one first; the targets seen -/
structure CfSt where
  keep : Bool
  start : Nat
  off : Nat
  lastOff : Nat
  parts : List Morceau
  seen : List Bytes
/-- the loop of config_file::fill_morceau, src/dar_suite/config_file.cpp:77-102, then the last piece, 104-111; `pos`: the position, `total`: the size of the file below
(as many turns as there are bytes at most) -/
def cfLoop (targets : List Bytes) (total : Nat) : Nat → CfSt → Nat → Bytes → Res CfSt
  | 0, _, _, _ => .error .diverge
  | n + 1, s, pos, text =>
    match findTarget .init pos [] pos text with
    | none =>
      if s.keep then
        if total < s.start then .error .bug
        else .ok { s with parts := if total - s.start > 0 then ⟨s.start, total - s.start, s.off⟩ :: s.parts else s.parts }
      else .ok s
    | some (first, t, last, rest) =>
      if s.keep ∧ first < s.start then .error .bug
      else
        let s1 := if s.keep then
            { s with keep := false, lastOff := s.lastOff + (first - s.start),
                     parts := if first - s.start > 0 then ⟨s.start, first - s.start, s.off⟩ :: s.parts else s.parts }
          else s
        if t ∈ targets then cfLoop targets total n { s1 with keep := true, start := last, off := s1.lastOff, seen := t :: s1.seen } last rest
        else cfLoop targets total n s1 last rest
/-- config_file::fill_morceau, src/dar_suite/config_file.cpp:62-112: the pieces, and the targets seen -/
def cfPieces (targets : List Bytes) (text : Bytes) : Res (List Morceau × List Bytes) := do
  let s ← cfLoop targets text.length (text.length + 1) ⟨true, 0, 0, 0, [], []⟩ 0 text
  .ok (s.parts.reverse, s.seen)

/-! ### words -/

/-- the local variables of line_tools_split_in_words; `quotes`: the last one first -/
structure WordSt where
  words : List Bytes
  current : Bytes
  quotes : Bytes
  escaped : Bool
/-- what is done of a quote inside a word, src/dar_suite/line_tools.hpp:386-404 -/
def quoteIn (s : WordSt) (a q : UInt8) (qs : Bytes) : WordSt :=
  if a = q then
    if qs = [] then { s with words := s.words ++ [s.current], current := [], quotes := [] }
    else { s with quotes := qs, current := s.current ++ [a] }
  else if a ≠ 32 then { s with quotes := a :: q :: qs, current := s.current ++ [a] }
  else { s with current := s.current ++ [a] }
/-- a turn of the loop of line_tools_split_in_words, src/dar_suite/line_tools.hpp:331-417 -/
def wordStep (s : WordSt) (a : UInt8) : WordSt :=
  if s.escaped then { s with current := s.current ++ [a], escaped := false }
  else if a = 92 then { s with escaped := true }
  else match s.quotes with
    | [] =>
      if a = 32 ∨ a = 9 ∨ a = 10 ∨ a = 13 then s
      else if a = 34 ∨ a = 39 ∨ a = 96 then { s with quotes := [a] }
      else { s with quotes := [32], current := s.current ++ [a] }
    | q :: qs =>
      if a = 9 then if q ≠ 32 then s else quoteIn s 32 q qs
      else if a = 10 ∨ a = 13 then quoteIn s 32 q qs
      else if a = 32 ∨ a = 34 ∨ a = 39 ∨ a = 96 then quoteIn s a q qs
      else { s with current := s.current ++ [a] }
/-- line_tools_split_in_words, src/dar_suite/line_tools.hpp:322-422: a space is added at the end -/
def splitWords (text : Bytes) : Res (List Bytes) :=
  let s := (text ++ [32]).foldl wordStep ⟨[], [], [], false⟩
  if s.quotes = [] then .ok s.words else .error .range

/-! ### the words of a configuration file -/

/-- make_args_from_file, src/dar_suite/command_line.cpp:2828-2912: the comments are removed first, then the conditional parts, then the words are cut -/
def configWords (targets : List Bytes) (text : Bytes) : Res (List Bytes) := do
  let ps ← ncPieces text
  let (qs, _) ← cfPieces targets (hideView text ps)
  splitWords (hideView (hideView text ps) qs)

/-! ### inclusions -/

/-- an option found in a configuration file: an ordinary one or -B -/
inductive ConfOpt where
  | opt (o : Bytes)
  | incl (file : Bytes)
/-- the treatment of the options of a file and of those it includes, src/dar_suite/command_line.cpp:1475-1540: `files` gives the options of a file (or it cannot be read),
`stack` is rec.inclusions.  `depth`: at most that many inclusions inside one another. -/
def inclExpand (files : Bytes → Option (List ConfOpt)) : Nat → List Bytes → List ConfOpt → Res (List Bytes)
  | _, _, [] => .ok []
  | d, stack, .opt o :: l => do
    let r ← inclExpand files d stack l
    .ok (o :: r)
  | 0, _, .incl _ :: _ => .error .diverge
  | d + 1, stack, .incl f :: l =>
    if f ∈ stack then .error .range
    else match files f with
      | none => .error .range
      | some opts => do
        let r1 ← inclExpand files d (f :: stack) opts
        let r2 ← inclExpand files (d + 1) stack l
        .ok (r1 ++ r2)
  termination_by d _ l => (d, l.length)

end Dar
