import Verif.Model.Mask
/- Model of the selection of files by the options -I -X (names) and -g -P -[ -] (paths): the masks made of them, src/dar_suite/command_line.cpp:3168-3432.

Case sensitive, as by default.  fnmatch (`glob`) and the regular expressions are arbitrary. -/
namespace Dar

/-- pre_mask, src/dar_suite/command_line.cpp:90-97: whether it includes, and the mask made for it -/
structure FilterOpt where
  included : Bool
  mask : Mask

/-! ### ordered and unordered -/

/-- ret_mask, and which of tmp_ou_mask and tmp_et_mask is not null (it is then ret_mask itself) -/
inductive OmSt where
  | empty
  | one (m : Mask)
  | ou (l : List Mask)
  | et (l : List Mask)
/-- ret_mask -/
def OmSt.mask : OmSt → Mask
  | .empty => .const true
  | .one m => m
  | .ou l => .or l
  | .et l => .and l
/-- a turn of the loop of make_ordered_mask, src/dar_suite/command_line.cpp:3277-3343 -/
def orderedStep (s : OmSt) (o : FilterOpt) : OmSt :=
  if o.included then
    match s with
    | .empty => .one o.mask
    | .ou l => .ou (l ++ [o.mask])
    | s => .ou [s.mask, o.mask]
  else
    match s with
    | .empty => .one (.not o.mask)
    | .et l => .et (l ++ [.not o.mask])
    | s => .et [s.mask, .not o.mask]
/-- make_ordered_mask, src/dar_suite/command_line.cpp:3267-3378: without any option everything is covered -/
def orderedMask (l : List FilterOpt) : Mask := (l.foldl orderedStep .empty).mask
/-- make_unordered_mask, src/dar_suite/command_line.cpp:3380-3432 -/
def unorderedMask (l : List FilterOpt) : Mask :=
  let inc := (l.filter (·.included)).map (·.mask)
  let exc := (l.filter (!·.included)).map (·.mask)
  .and ((if inc.length > 0 then [.or inc] else [.const true]) ++ (if exc.length > 0 then [.not (.or exc)] else []))

/-! ### the mask of an option -/

/-- what an option about paths gives: a path (the root of the operation followed by the argument), the lines of a file (made absolute), or a regular expression -/
inductive PathArg where
  | path (p : PathT)
  | listing (lines : List PathT)
  | regex (f : Bytes → Bool)
/-- make_include_path, src/dar_suite/command_line.cpp:3247-3265 (the argument of -g is never a regular expression) -/
def includePathMask (a : PathArg) : Mask := match a with
  | .path p => .simplePath p id
  | .listing lines => .list (mlBuild (lines.map PathT.display)) true
  | .regex f => .pred f
/-- make_exclude_path_ordered, src/dar_suite/command_line.cpp:3184-3219: the pattern, and the pattern followed by a slash and a star -/
def excludePathOrdered (glob : Bytes → Bytes → Bool) (a : PathArg) : Mask := match a with
  | .path p => .or [.pred (glob p.display), .pred (glob (p.display ++ [47, 42]))]
  | .listing lines => .list (mlBuild (lines.map PathT.display)) false
  | .regex f => .pred f
/-- make_exclude_path_unordered, src/dar_suite/command_line.cpp:3222-3245 -/
def excludePathUnordered (glob : Bytes → Bytes → Bool) (a : PathArg) : Mask := match a with
  | .path p => .pred (glob p.display)
  | .listing lines => .list (mlBuild (lines.map PathT.display)) false
  | .regex f => .pred f
/-- an option -g or -[ (included), -P or -] -/
structure PathOpt where
  included : Bool
  arg : PathArg
/-- src/dar_suite/command_line.cpp:687-697: the mask `subtree` -/
def subtreeMask (ordered : Bool) (glob : Bytes → Bytes → Bool) (l : List PathOpt) : Mask :=
  if ordered then orderedMask (l.map fun o => ⟨o.included, if o.included then includePathMask o.arg else excludePathOrdered glob o.arg⟩)
  else unorderedMask (l.map fun o => ⟨o.included, if o.included then includePathMask o.arg else excludePathUnordered glob o.arg⟩)
/-- src/dar_suite/command_line.cpp:670-679, make_include_exclude_name 3168-3181: the mask `selection`; an option is a predicate on names -/
def selectionMask (ordered : Bool) (l : List (Bool × (Bytes → Bool))) : Mask :=
  if ordered then orderedMask (l.map fun o => ⟨o.1, .pred o.2⟩) else unorderedMask (l.map fun o => ⟨o.1, .pred o.2⟩)
/-- the condition under which an entry is looked at, src/libdar/filtre.cpp:680-681 (also 276-277, 1284, 1479, 1987): `p` is the root of the operation followed by the path of
the entry; an error of a mask is not modelled (none happens on these paths) -/
def coversEntry (subtree selection : Mask) (isDir : Bool) (p : List Bytes) (name : Bytes) : Bool :=
  (match subtree.coversPath ⟨p, false, false⟩ with
    | .ok b => b
    | .error _ => false) &&
  (isDir || match selection.coversText name with
    | .ok b => b
    | .error _ => false)

end Dar
