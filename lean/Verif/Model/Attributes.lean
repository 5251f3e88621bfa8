import Verif.Model.Headers
import Verif.Model.Datetime
/- Model of src/libdar/ea.{hpp,cpp} (extended attributes), filesystem_specific_attribute.{hpp,cpp} and fsa_family.cpp (filesystem specific attributes): storage, look up, addition,
comparison.  Not modelled: the system calls reading them from and setting them to the filesystem. -/
namespace Dar

/-! ### extended attributes -/

/-- std::string::compare, used by std::map<string, string> (ea.hpp:80): bytes are compared as unsigned values -/
def strLt : Bytes → Bytes → Bool
  | _, [] => false
  | [], _ :: _ => true
  | a :: l, b :: m => decide (a.toNat < b.toNat) || (decide (a = b) && strLt l m)

/-- the field `attr`, a std::map: the pairs in increasing order of the keys -/
abbrev EaMap := List (Bytes × Bytes)

/-- ea_attributs::add, src/libdar/ea.hpp:61 (attr[key] = value) -/
def eaAdd (m : EaMap) (k v : Bytes) : EaMap :=
  match m with
  | [] => [(k, v)]
  | (k', v') :: m => if k = k' then (k, v) :: m else if strLt k k' then (k, v) :: (k', v') :: m else (k', v') :: eaAdd m k v

/-- ea_attributs::find, src/libdar/ea.cpp:142-155 -/
def eaFind (m : EaMap) (k : Bytes) : Option Bytes :=
  match m with
  | [] => none
  | (k', v') :: m => if k = k' then some v' else eaFind m k

/-- write_pair_key, src/libdar/ea.cpp:205-212 -/
def eaPair (p : Bytes × Bytes) : Bytes := putStr p.1 ++ (putInt p.2.length ++ p.2)
/-- ea_attributs::dump, src/libdar/ea.cpp:104-114 -/
def eaDump (m : EaMap) : Bytes := putInt m.length ++ m.flatMap eaPair

/-- "system." -/
def eaSystem : Bytes := [115, 121, 115, 116, 101, 109, 46]
/-- "user." -/
def eaUser : Bytes := [117, 115, 101, 114, 46]

/-- read_pair_string, src/libdar/ea.cpp:185-203 -/
def eaReadPair (edit : ArchVer) : Reader (Bytes × Bytes) := do
  let pre ← (if edit.lt ⟨5, 0⟩ then do
      let fl ← readByte
      pure (if fl.toNat / 128 % 2 = 1 then eaSystem else eaUser)
    else pure [])
  let key ← getStr
  let n ← getInt
  let v ← getStrSize n
  pure (pre ++ key, v)

/-- ea_attributs::ea_attributs(f, edit), src/libdar/ea.cpp:47-69: the pairs are read one after the other (their number is taken 2^32 - 1 at a time, see C04) and stored in the map -/
def eaRead (edit : ArchVer) : Reader EaMap := do
  let n ← getInt
  let l ← readList (eaReadPair edit) n
  pure (l.foldl (fun m p => eaAdd m p.1 p.2) [])

/-- ea_attributs::operator +, src/libdar/ea.cpp:171-181 -/
def eaPlus (a b : EaMap) : EaMap := b.foldl (fun m p => eaAdd m p.1 p.2) a

/-- ea_attributs::diff, src/libdar/ea.cpp:123-140 -/
def eaDiff (a b : EaMap) (covered : Bytes → Bool) : Bool :=
  match a with
  | [] => false
  | (k, v) :: a => if covered k = true ∧ eaFind b k ≠ some v then true else eaDiff a b covered

/-- ea_attributs::space_used, src/libdar/ea.cpp:157-169 -/
def eaSpace (m : EaMap) : Nat := m.foldl (fun n p => n + (p.1.length + p.2.length)) 0

/-! ### filesystem specific attributes -/

/-- fsa_family, src/libdar/fsa_family.hpp:42 -/
inductive FsaFam where
  | hfs
  | extX
  deriving DecidableEq, Repr
/-- fsa_nature, src/libdar/fsa_family.hpp:48-61 (fsan_unset is never stored) -/
inductive FsaNat where
  | creationDate | appendOnly | compressed | noDump | immutable | dataJournaling | secureDeletion | noTailMerging | undeletable | noatimeUpdate
  | synchronousDirectory | synchronousUpdate | topOfDirHierarchy
  deriving DecidableEq, Repr
/-- the values of the enumerations -/
def FsaFam.idx : FsaFam → Nat
  | .hfs => 0
  | .extX => 1
def FsaNat.idx : FsaNat → Nat
  | .creationDate => 1
  | .appendOnly => 2
  | .compressed => 3
  | .noDump => 4
  | .immutable => 5
  | .dataJournaling => 6
  | .secureDeletion => 7
  | .noTailMerging => 8
  | .undeletable => 9
  | .noatimeUpdate => 10
  | .synchronousDirectory => 11
  | .synchronousUpdate => 12
  | .topOfDirHierarchy => 13

/-- fsa_bool, fsa_time, src/libdar/filesystem_specific_attribute.hpp:253-342 (fsa_infinint is not used) -/
inductive FsaVal where
  | bool (b : Bool)
  | time (d : DateT)
  deriving DecidableEq, Repr
/-- class filesystem_specific_attribute -/
structure Fsa where
  fam : FsaFam
  nat : FsaNat
  val : FsaVal
  deriving DecidableEq, Repr

/-- is_same_type_as, src/libdar/filesystem_specific_attribute.cpp:110-114 -/
def Fsa.same (a b : Fsa) : Bool := decide (a.fam = b.fam ∧ a.nat = b.nat)
/-- operator <, src/libdar/filesystem_specific_attribute.cpp:116-125 -/
def Fsa.lt (a b : Fsa) : Bool := decide (a.fam.idx < b.fam.idx ∨ (a.fam.idx = b.fam.idx ∧ a.nat.idx < b.nat.idx))

/-- family_to_signature, filesystem_specific_attribute.cpp:1092-1116 -/
def FsaFam.sig : FsaFam → UInt8
  | .hfs => 104
  | .extX => 108
/-- nature_to_signature, filesystem_specific_attribute.cpp:1118-1176 -/
def FsaNat.sig : FsaNat → UInt8 × UInt8
  | .creationDate => (97, 97)
  | .appendOnly => (98, 97)
  | .compressed => (98, 98)
  | .noDump => (98, 99)
  | .immutable => (98, 100)
  | .dataJournaling => (98, 101)
  | .secureDeletion => (98, 102)
  | .noTailMerging => (98, 103)
  | .undeletable => (98, 104)
  | .noatimeUpdate => (98, 105)
  | .synchronousDirectory => (98, 106)
  | .synchronousUpdate => (98, 107)
  | .topOfDirHierarchy => (98, 108)
/-- signature_to_family, filesystem_specific_attribute.cpp:1178-1189 -/
def sigToFam (c : UInt8) : Res FsaFam := if c = 104 then .ok .hfs else if c = 108 then .ok .extX else .error .range
/-- signature_to_nature, filesystem_specific_attribute.cpp:1191-1226 -/
def sigToNat (a b : UInt8) : Res FsaNat :=
  if a = 97 ∧ b = 97 then .ok .creationDate
  else if a = 98 ∧ b = 97 then .ok .appendOnly
  else if a = 98 ∧ b = 98 then .ok .compressed
  else if a = 98 ∧ b = 99 then .ok .noDump
  else if a = 98 ∧ b = 100 then .ok .immutable
  else if a = 98 ∧ b = 101 then .ok .dataJournaling
  else if a = 98 ∧ b = 102 then .ok .secureDeletion
  else if a = 98 ∧ b = 103 then .ok .noTailMerging
  else if a = 98 ∧ b = 104 then .ok .undeletable
  else if a = 98 ∧ b = 105 then .ok .noatimeUpdate
  else if a = 98 ∧ b = 106 then .ok .synchronousDirectory
  else if a = 98 ∧ b = 107 then .ok .synchronousUpdate
  else if a = 98 ∧ b = 108 then .ok .topOfDirHierarchy
  else .error .range

/-- the two loops of binary_search_in_sorted_list, src/libdar/filesystem_specific_attribute.cpp:81-106: (min, max, index) when the loop ends; `fuel` is the size of the table -/
def fsaSearchLoop (t : List Fsa) (x : Fsa) : Nat → Nat → Nat → Res (Nat × Nat × Nat)
  | 0, _, _ => .error .diverge
  | fuel + 1, min, max =>
    let index := (min + max) / 2
    match t[index]? with
    | none => .error .ub
    | some y =>
      let min' := if y.lt x then index + 1 else min
      let max' := if y.lt x then max else index
      if !(y.same x) && decide (max' - min' > 0) then fsaSearchLoop t x fuel min' max' else .ok (min', max', index)
/-- binary_search_in_sorted_list: whether the attribute has been found, and the index (left to 0 when the table is empty, as in priv_add, filesystem_specific_attribute.cpp:449) -/
def fsaSearch (t : List Fsa) (x : Fsa) : Res (Bool × Nat) :=
  if t = [] then .ok (false, 0)
  else match fsaSearchLoop t x t.length 0 t.length with
    | .error e => .error e
    | .ok (min, max, index) =>
      let index := if max - min = 0 then min else index
      if min < t.length then
        match t[index]? with
        | none => .error .ub
        | some y => .ok (y.same x, index)
      else .ok (false, index)

/-- filesystem_specific_attribute_list::priv_add, filesystem_specific_attribute.cpp:447-492 -/
def fsaPrivAdd (t : List Fsa) (x : Fsa) : Res (List Fsa) := do
  let (found, index) ← fsaSearch t x
  .ok (if found then t.set index x else t.take index ++ x :: t.drop index)

/-- one element in its place -/
def fsaPlace (x : Fsa) : List Fsa → List Fsa
  | [] => [x]
  | y :: l => if x.lt y then x :: y :: l else y :: fsaPlace x l
/-- sort_fsa, filesystem_specific_attribute.cpp:495-498 (std::sort; the order of equal elements is not specified by it, here they keep their order) -/
def fsaSort (l : List Fsa) : List Fsa := l.foldl (fun r x => fsaPlace x r) []

/-- filesystem_specific_attribute_list::add, filesystem_specific_attribute.cpp:157-162 -/
def fsaAdd (t : List Fsa) (x : Fsa) : Res (List Fsa) := do
  let t ← fsaPrivAdd t x
  .ok (fsaSort t)
/-- priv_add of each -/
def fsaAddAll (t : List Fsa) : List Fsa → Res (List Fsa)
  | [] => .ok t
  | x :: l => do
    let t ← fsaPrivAdd t x
    fsaAddAll t l
/-- operator +, filesystem_specific_attribute.cpp:384-401 -/
def fsaPlus (a b : List Fsa) : Res (List Fsa) := do
  let t ← fsaAddAll a b
  .ok (fsaSort t)
/-- find, filesystem_specific_attribute.cpp:403-416: a boolean attribute of the given type is searched for -/
def fsaFind (t : List Fsa) (fam : FsaFam) (nat : FsaNat) : Res (Option Fsa) := do
  let (found, index) ← fsaSearch t ⟨fam, nat, .bool true⟩
  if found then
    match t[index]? with
    | none => .error .ub
    | some y => .ok (some y)
  else .ok none
/-- has_linux_immutable_set, filesystem_specific_attribute.cpp:337-353 -/
def fsaImmutable (t : List Fsa) : Res Bool := do
  match ← fsaFind t .extX .immutable with
  | none => .ok false
  | some ⟨_, _, .bool b⟩ => .ok b
  | some _ => .error .bug

/-- fsa_bool::write, fsa_time::write, filesystem_specific_attribute.hpp:271, 333 -/
def FsaVal.dump : FsaVal → Res Bytes
  | .bool b => .ok [if b then 84 else 70]
  | .time d => d.dump
/-- one attribute, filesystem_specific_attribute.cpp:295-306 -/
def Fsa.dump (x : Fsa) : Res Bytes := do
  let v ← x.val.dump
  .ok ([x.fam.sig, x.nat.sig.1, x.nat.sig.2] ++ v)
/-- the attributes one after the other -/
def fsaDumpAll : List Fsa → Res Bytes
  | [] => .ok []
  | x :: l => do
    let a ← x.dump
    let b ← fsaDumpAll l
    .ok (a ++ b)
/-- filesystem_specific_attribute_list::write, filesystem_specific_attribute.cpp:286-311 -/
def fsaDump (l : List Fsa) : Res Bytes := do
  let b ← fsaDumpAll l
  .ok (putInt l.length ++ b)

/-- fsa_bool::fsa_bool(f, fam, nat), filesystem_specific_attribute.cpp:1232-1255 -/
def fsaReadBool : Reader FsaVal := do
  let c ← readByte
  if c = 84 then pure (.bool true) else if c = 70 then pure (.bool false) else Reader.fail .data
/-- the value, according to the nature, filesystem_specific_attribute.cpp:247-271 -/
def fsaReadVal (ver : ArchVer) (n : FsaNat) : Reader FsaVal :=
  match n with
  | .creationDate => do
    let d ← dateRead (fun _ => true) ver
    pure (.time d)
  | _ => fsaReadBool
/-- one attribute, filesystem_specific_attribute.cpp:229-278 -/
def fsaReadOne (ver : ArchVer) : Reader Fsa := do
  let c ← readByte
  let fam ← Reader.lift (sigToFam c)
  let s ← readExact 2
  let nat ← Reader.lift (sigToNat (s.getD 0 0) (s.getD 1 0))
  let v ← fsaReadVal ver nat
  pure ⟨fam, nat, v⟩
/-- filesystem_specific_attribute_list::read, filesystem_specific_attribute.cpp:210-284, into an empty list (their number is taken 2^64 - 1 at a time, see C04) -/
def fsaRead (ver : ArchVer) : Reader (List Fsa) := do
  let n ← getInt
  let l ← readList (fsaReadOne ver) n
  pure (fsaSort l)

/-- operator == : same type and same value (equal_value_to; fsa_time uses the exact equality of datetime), filesystem_specific_attribute.hpp:93 and .cpp:1257-1314 -/
def Fsa.eq (a b : Fsa) : Bool :=
  a.same b && (match a.val, b.val with
    | .bool x, .bool y => decide (x = y)
    | .time x, .time y => x.eq y
    | _, _ => false)

/-- "while(rt != ref.fsa.end() && *(*rt) < *(*it))", filesystem_specific_attribute.cpp:190-195: the iterator is dereferenced right after having been incremented, also when it has
reached the end (undefined behaviour) -/
def fsaSkipLess (x : Fsa) : List Fsa → Res (List Fsa)
  | [] => .ok []
  | y :: l => if y.lt x then (if l = [] then .error .ub else fsaSkipLess x l) else .ok (y :: l)
/-- is_included_in, filesystem_specific_attribute.cpp:164-208 -/
def fsaIncluded (scope : FsaFam → Bool) : List Fsa → List Fsa → Res Bool
  | [], _ => .ok true
  | _ :: _, [] => .ok false
  | x :: it, y :: rt =>
    if scope x.fam then do
      let r ← fsaSkipLess x (y :: rt)
      match r with
      | [] => .ok false
      | z :: r => if z.eq x then fsaIncluded scope it (z :: r) else .ok false
    else fsaIncluded scope it (y :: rt)

/-- fsa_scope_to_infinint, src/libdar/fsa_family.cpp:102-112 -/
def scopeToInt (s : FsaFam → Bool) : Nat := (if s .hfs then 1 else 0) ||| (if s .extX then 2 else 0)
/-- infinint_to_fsa_scope, src/libdar/fsa_family.cpp:114-125 -/
def intToScope (n : Nat) : FsaFam → Bool
  | .hfs => decide (n &&& 1 ≠ 0)
  | .extX => decide (n &&& 2 ≠ 0)

end Dar
