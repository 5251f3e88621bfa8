import Verif.Model.Basic
/- Model of src/libdar/path.{hpp,cpp}.  Texts are bytes; '/' is 47, '.' 46, ':' 58.  The `reading` iterator
(sequential reading of the components) is not modelled. -/
namespace Dar

/-- src/libdar/path.hpp:165-169: the fields of class path. -/
structure PathT where
  dirs : List Bytes
  relative : Bool
  undisclosed : Bool
  deriving DecidableEq, Repr

def pDot : Bytes := [46]
def pDotDot : Bytes := [46, 46]

/-- src/libdar/path.cpp:348-368: what is added for the part ended by a '/': nothing if empty; a first word ending in
':' and followed by a second '/' keeps one '/'. -/
def splitPart (agg : Bytes) (splitted : List Bytes) (part : Bytes) : List Bytes :=
  if part = [] then splitted
  else if part.getLast? = some 58 ∧ agg.head? ≠ some 47 ∧ splitted = [] ∧ agg.length > part.length + 1 ∧
      agg[part.length + 1]? = some 47 then splitted ++ [part ++ [47]]
  else splitted ++ [part]

/-- src/libdar/path.cpp:333-401 path_split: `part` is the text between `bk` and `it`, the last argument what follows
`it`. -/
def pathSplitLoop (agg : Bytes) (splitted : List Bytes) (part : Bytes) : Bytes → List Bytes
  | [] => if part = [] then splitted else splitted ++ [part]
  | c :: rest =>
    if c = 47 then pathSplitLoop agg (splitPart agg splitted part) [] rest
    else pathSplitLoop agg splitted (part ++ [c]) rest

def pathSplit (agg : Bytes) : List Bytes := pathSplitLoop agg [] [] agg

/-- src/libdar/path.cpp:297-325, the loop of reduce: the elements before `it` (nearest first: its head is `*prev`; when
there is none `prev` equals `it`), the elements from `it` on. -/
def reduceLoop : List Bytes → List Bytes → List Bytes
  | before, [] => before.reverse
  | [], d :: rest => reduceLoop [d] rest
  | p :: before, d :: rest =>
    if d = pDotDot ∧ p ≠ pDotDot then reduceLoop before rest else reduceLoop (d :: p :: before) rest

/-- src/libdar/path.cpp:290-330 reduce -/
def pathReduce (relative : Bool) (dirs : List Bytes) : List Bytes :=
  let dirs := dirs.filter (· ≠ pDot)
  if relative ∧ dirs = [] then [pDot]
  else
    let dirs := reduceLoop [] dirs
    if relative ∧ dirs = [] then [pDot] else dirs

/-- src/libdar/path.cpp:50-99, constructor -/
def pathOf (chem : Bytes) (undisclosed : Bool) : Res PathT :=
  if chem = [] then .error .range
  else
    let undisclosed := if chem = [47] then false else undisclosed
    let relative : Bool := chem.head? ≠ some 47
    let s := if relative then chem else chem.drop 1
    let s := if undisclosed ∧ s.getLast? = some 47 then s.dropLast else s
    let dirs := if undisclosed then [s] else pathSplit s
    if dirs = [] ∧ relative then .error .range
    else .ok ⟨if undisclosed then dirs else pathReduce relative dirs, relative, undisclosed⟩

/-- components separated by '/' -/
def joinSlash : List Bytes → Bytes
  | [] => []
  | [d] => d
  | d :: t => d ++ 47 :: joinSlash t

/-- src/libdar/path.cpp:240-251 display -/
def PathT.display (p : PathT) : Bytes := (if p.relative then [] else [47]) ++ joinSlash p.dirs

/-- src/libdar/path.cpp:121-127 basename -/
def PathT.basename (p : PathT) : Bytes := p.dirs.getLast?.getD [47]

/-- src/libdar/path.cpp:141-161 pop -/
def PathT.pop (p : PathT) : Option (Bytes × PathT) :=
  if (if p.relative then p.dirs.length > 1 else p.dirs ≠ []) then
    some (p.dirs.getLast?.getD [], { p with dirs := p.dirs.dropLast })
  else none

/-- src/libdar/path.cpp:163-184 pop_front -/
def PathT.popFront (p : PathT) : Option (Bytes × PathT) :=
  if p.relative then
    if p.dirs.length > 1 then some (p.dirs.head?.getD [], { p with dirs := p.dirs.drop 1 }) else none
  else if p.dirs ≠ [] then some ([47], { p with relative := true }) else none

/-- src/libdar/path.cpp:186-206 operator += (path) -/
def PathT.addPath (p arg : PathT) : Res PathT :=
  if arg.relative = false then .error .range
  else .ok { p with dirs := pathReduce p.relative (p.dirs ++ arg.dirs.filter (· ≠ pDot)),
                    undisclosed := p.undisclosed || arg.undisclosed }

/-- src/libdar/path.cpp:208-213 operator += (string) -/
def PathT.addName (p : PathT) (sub : Bytes) : PathT := { p with dirs := pathReduce p.relative (p.dirs ++ [sub]) }

/-- src/libdar/path.hpp:139 append -/
def PathT.append (p : PathT) (sub : Bytes) : Res PathT := if 47 ∈ sub then .error .bug else .ok (p.addName sub)

/-- strncmp(a, b, n) == 0 on null-terminated strings (the areas end with a null byte). -/
def strncmpEq : Nat → Bytes → Bytes → Bool
  | 0, _, _ => true
  | n + 1, a, b =>
    let x := a.head?.getD 0
    let y := b.head?.getD 0
    if x ≠ y then false else if x = 0 then true else strncmpEq n a.tail b.tail

/-- src/libdar/path.cpp:215-238 is_subdir_of; `up` is the conversion applied to both texts (tools_to_upper, or nothing
when the comparison is case sensitive). -/
def PathT.isSubdirOf (up : Bytes → Bytes) (p q : PathT) : Bool :=
  let me := up p.display
  let you := up q.display
  if me.length ≥ you.length then
    if strncmpEq you.length me you then
      if me.length > you.length then
        (decide (you.length > 1) && me[you.length]? == some 47) || (decide (you.length = 1) && you[0]? == some 47)
      else true
    else false
  else false

end Dar
