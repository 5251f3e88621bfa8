import Verif.Model.Deci
/- Model of the names of slices, src/libdar/sar_tools.cpp.  A directory (class entrepot) is the list of the names it contains, each given once by read_dir_next; the errors of the directory
itself (Erange of read_dir_reset, failing unlink) are not modelled. -/
namespace Dar

/-- sar_tools_make_padded_number, src/libdar/sar_tools.cpp:181-190; each turn adds a character: `k` bounds their number -/
def padLoop (md : Nat) : Nat → Bytes → Bytes
  | 0, s => s
  | k + 1, s => if s.length < md then padLoop md k (48 :: s) else s
def paddedNumber (num : Bytes) (md : Nat) : Bytes := padLoop md md num

/-- sar_tools_make_filename, src/libdar/sar_tools.cpp:70-79 -/
def sliceName (base : Bytes) (num md : Nat) (ext : Bytes) : Res Bytes := do
  let digits ← deciHuman (deciOfNat num)
  .ok (base ++ [46] ++ paddedNumber digits md ++ [46] ++ ext)

/-- std::string::find: the place of the first occurrence -/
def strFindAt (pat : Bytes) : Bytes → Option Nat
  | [] => if pat = [] then some 0 else none
  | c :: l => if pat.isPrefixOf (c :: l) then some 0 else (strFindAt pat l).map (· + 1)
/-- std::string::rfind: the place of the last occurrence -/
def strRfindAt (pat : Bytes) : Bytes → Option Nat
  | [] => if pat = [] then some 0 else none
  | c :: l => match strRfindAt pat l with
    | some k => some (k + 1)
    | none => if pat.isPrefixOf (c :: l) then some 0 else none

/-- sar_tools_extract_num, src/libdar/sar_tools.cpp:81-115: the number, or none (false).  Any error of deci (Egeneric) gives false. -/
def sliceNum (filename base : Bytes) (md : Nat) (ext : Bytes) : Option Nat :=
  let minSize := base.length + ext.length + 2
  if filename.length ≤ minSize then none
  else if filename.length - minSize < md ∧ md ≠ 0 then none
  else if strFindAt base filename ≠ some 0 then none
  else if strRfindAt ext filename ≠ some (filename.length - ext.length) then none
  else match deciOfText ((filename.take (filename.length - ext.length - 1)).drop (base.length + 1)) with
    | .error _ => none
    | .ok d => some (deciComputer d)

/-- the loop of sar_tools_get_higher_number_in_dir, src/libdar/sar_tools.cpp:136-144 -/
def higherLoop (base : Bytes) (md : Nat) (ext : Bytes) : List Bytes → Nat → Bool → Bool × Nat
  | [], ret, somme => (somme, ret)
  | f :: l, ret, somme => match sliceNum f base md ext with
    | none => higherLoop base md ext l ret somme
    | some cur => higherLoop base md ext l (if cur > ret then cur else ret) true
/-- sar_tools_get_higher_number_in_dir, src/libdar/sar_tools.cpp:117-147: the value returned and `ret` -/
def higherNumber (dir : List Bytes) (base : Bytes) (md : Nat) (ext : Bytes) : Bool × Nat := higherLoop base md ext dir 0 false

/-- sar_tools_remove_higher_slices_than, src/libdar/sar_tools.cpp:149-179: the names left -/
def removeHigher (dir : List Bytes) (base : Bytes) (md : Nat) (ext : Bytes) (keep : Nat) : List Bytes :=
  match dir with
  | [] => []
  | f :: l => match sliceNum f base md ext with
    | none => f :: removeHigher l base md ext keep
    | some cur => if cur > keep then removeHigher l base md ext keep else f :: removeHigher l base md ext keep

end Dar
