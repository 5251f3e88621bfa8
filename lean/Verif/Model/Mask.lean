import Verif.Model.Path
/- Model of src/libdar/mask.{hpp,cpp} and of the lookup of src/libdar/mask_list.cpp.
Glob and regular expressions (fnmatch, regexec) are arbitrary predicates on texts.  The reading of the list file of
mask_list line by line is in Model/ListFile.lean; here the model starts from its lines, made absolute. -/
namespace Dar

/-- src/libdar/mask_list.cpp:379-420, modified_lexicalorder_a_lessthan_b: '/' is the lowest character, others are
compared as signed chars; true also for equal texts. -/
def mlSigned (c : UInt8) : Int := if c.toNat < 128 then c.toNat else (c.toNat : Int) - 256
def mlLe : Bytes → Bytes → Bool
  | [], _ => true
  | _ :: _, [] => false
  | a :: as, b :: bs =>
    if a = 47 then (if b ≠ 47 then true else mlLe as bs)
    else if b = 47 then false
    else if a ≠ b then decide (mlSigned a < mlSigned b)
    else mlLe as bs

/-- std::list::unique -/
def mlUnique : List Bytes → List Bytes
  | [] => []
  | [a] => [a]
  | a :: b :: l => if a = b then mlUnique (b :: l) else a :: mlUnique (b :: l)

/-- src/libdar/mask_list.cpp:302-306: sort then unique (the sorting algorithm of the library is some sorting
algorithm; here merge sort). -/
def mlBuild (lines : List Bytes) : List Bytes := mlUnique (lines.mergeSort mlLe)

/-- src/libdar/mask_list.cpp:339-346, the binary search. -/
def mlSearch (c : List Bytes) (t : Bytes) (min max : Nat) : Nat × Nat :=
  if h : max - min > 1 then
    if mlLe (c.getD ((min + max) / 2) []) t then mlSearch c t ((min + max) / 2) max
    else mlSearch c t min ((min + max) / 2)
  else (min, max)
termination_by max - min
decreasing_by all_goals omega

/-- src/libdar/mask_list.cpp:325-358 is_covered (case sensitive); an invalid path throws. -/
def mlCovered (c : List Bytes) (including : Bool) (expression : Bytes) : Res Bool :=
  if c = [] then .ok false
  else
    let (min, max) := mlSearch c expression 0 (c.length - 1)
    let max := if min = 0 ∧ mlLe expression (c.getD min []) = true then min else max
    if c.getD max [] = expression ∨ c.getD min [] = expression then .ok true
    else if including then do
      let p ← pathOf (c.getD max []) false
      let q ← pathOf expression false
      .ok (p.isSubdirOf id q)
    else .ok false

/-- The mask classes, src/libdar/mask.hpp.  `pred` stands for simple_mask and regular_mask, and for same_path_mask;
`up` is the case conversion (identity when case sensitive). -/
inductive Mask where
  | const (b : Bool)                       -- bool_mask
  | pred (f : Bytes → Bool)                -- simple_mask, regular_mask, same_path_mask
  | not (m : Mask)                         -- not_mask
  | and (l : List Mask)                    -- et_mask
  | or (l : List Mask)                     -- ou_mask
  | simplePath (p : PathT) (up : Bytes → Bytes)   -- simple_path_mask
  | excludeDir (p : Bytes) (up : Bytes → Bytes)   -- exclude_dir_mask
  | list (contenu : List Bytes) (including : Bool) -- mask_list

mutual
/-- is_covered(const path &) of each class: mask.hpp:87 (default), 110, 239, 289/310-320, 345/356-366, mask.cpp:243-246,
mask.hpp:494 (in exclude_dir_mask the parameter hides the field of the same name). -/
def Mask.coversPath (m : Mask) (p : PathT) : Res Bool :=
  match m with
  | .const b => .ok b
  | .pred f => .ok (f p.display)
  | .not m => (m.coversPath p).map (!·)
  | .and l => if l.isEmpty then .error .range else Mask.allPath l p
  | .or l => if l.isEmpty then .error .range else Mask.anyPath l p
  | .simplePath q up => .ok (p.isSubdirOf up q || q.isSubdirOf up p)
  | .excludeDir _ up => .ok (p.isSubdirOf up p)
  | .list c incl => mlCovered c incl p.display
/-- the loop of et_mask::t_is_covered: stops at the first mask that does not cover -/
def Mask.allPath (l : List Mask) (p : PathT) : Res Bool :=
  match l with
  | [] => .ok true
  | m :: l => match m.coversPath p with
    | .error e => .error e
    | .ok b => if b then Mask.allPath l p else .ok false
/-- the loop of ou_mask::t_is_covered: stops at the first mask that covers -/
def Mask.anyPath (l : List Mask) (p : PathT) : Res Bool :=
  match l with
  | [] => .ok false
  | m :: l => match m.coversPath p with
    | .error e => .error e
    | .ok b => if b then .ok true else Mask.anyPath l p
end

mutual
/-- is_covered(const std::string &) of each class (simple_path_mask and exclude_dir_mask refuse, mask.hpp:405, 493). -/
def Mask.coversText (m : Mask) (s : Bytes) : Res Bool :=
  match m with
  | .const b => .ok b
  | .pred f => .ok (f s)
  | .not m => (m.coversText s).map (!·)
  | .and l => if l.isEmpty then .error .range else Mask.allText l s
  | .or l => if l.isEmpty then .error .range else Mask.anyText l s
  | .simplePath _ _ => .error .bug
  | .excludeDir _ _ => .error .bug
  | .list c incl => mlCovered c incl s
def Mask.allText (l : List Mask) (s : Bytes) : Res Bool :=
  match l with
  | [] => .ok true
  | m :: l => match m.coversText s with
    | .error e => .error e
    | .ok b => if b then Mask.allText l s else .ok false
def Mask.anyText (l : List Mask) (s : Bytes) : Res Bool :=
  match l with
  | [] => .ok false
  | m :: l => match m.coversText s with
    | .error e => .error e
    | .ok b => if b then .ok true else Mask.anyText l s
end

end Dar
