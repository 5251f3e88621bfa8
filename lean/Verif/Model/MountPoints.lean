import Verif.Model.Path
import Verif.Model.Backup
/- Model of the filtering by filesystem: class filesystem_ids (src/libdar/filesystem_ids.cpp), its options and the option -M of dar.  The system call
stat is a function from paths to the number of the filesystem (none: it fails). -/
namespace Dar.Mp

/-- the fields of filesystem_ids, src/libdar/filesystem_ids.hpp:107-110; the two sets are lists -/
structure Fsids where
  root : Nat
  incl : List Nat
  excl : List Nat
  deriving DecidableEq, Repr

/-- path2fs_id, src/libdar/filesystem_ids.cpp:152-170 -/
def path2id (st : Bytes → Option Nat) (p : Bytes) : Res Nat :=
  match st p with
  | some d => .ok d
  | none => .error .range

/-- the constructor filesystem_ids(bool, path), src/libdar/filesystem_ids.cpp:59-71 -/
def Fsids.make (st : Bytes → Option Nat) (sameFs : Bool) (root : PathT) : Res Fsids := do
  let r ← path2id st root.display
  .ok (if sameFs then ⟨r, [r], []⟩ else ⟨r, [], [r]⟩)

/-- the argument is converted from string to path, refused if relative, and looked for with stat once put in normal form:
src/libdar/filesystem_ids.cpp:73-78 and 83-88, 91-96 and 101-106 -/
def fsAt (st : Bytes → Option Nat) (p : Bytes) : Res Nat := do
  let t ← pathOf p false
  if t.relative then .error .range else path2id st t.display

/-- include_fs_at for a list, src/libdar/filesystem_ids.cpp:80-89 -/
def Fsids.includeAll (st : Bytes → Option Nat) (f : Fsids) : List Bytes → Res Fsids
  | [] => .ok f
  | p :: l => do
    let d ← fsAt st p
    Fsids.includeAll st { f with incl := d :: f.incl } l

/-- exclude_fs_at for a list, src/libdar/filesystem_ids.cpp:98-107 -/
def Fsids.excludeAll (st : Bytes → Option Nat) (f : Fsids) : List Bytes → Res Fsids
  | [] => .ok f
  | p :: l => do
    let d ← fsAt st p
    Fsids.excludeAll st { f with excl := d :: f.excl } l

/-- is_covered, src/libdar/filesystem_ids.cpp:110-143 -/
def Fsids.covered (f : Fsids) (d : Nat) : Bool :=
  if d = f.root then true
  else if f.incl = [] then
    if f.excl = [] then true else !f.excl.contains d
  else if f.excl = [] then f.incl.contains d
  else if f.incl.contains d then !f.excl.contains d
  else false

/-- the three fields of archive_options_create, src/libdar/archive_options.hpp:730-732, with their defaults (src/libdar/archive_options.cpp:361-363) -/
structure CreateFs where
  sameFs : Bool := false
  incl : List Bytes := []
  excl : List Bytes := []
  deriving DecidableEq, Repr

/-- src/libdar/archive_options.hpp:499 -/
def CreateFs.setSameFs (_ : CreateFs) (b : Bool) : CreateFs := ⟨b, [], []⟩
/-- src/libdar/archive_options.hpp:504 -/
def CreateFs.setInclude (o : CreateFs) (p : Bytes) : CreateFs := { o with incl := o.incl ++ [p] }
/-- src/libdar/archive_options.hpp:509 -/
def CreateFs.setExclude (o : CreateFs) (p : Bytes) : CreateFs := { o with excl := o.excl ++ [p] }

/-- the constructor of i_archive that creates an archive, src/libdar/i_archive.cpp:503-505 -/
def idsOf (st : Bytes → Option Nat) (root : PathT) (o : CreateFs) : Res Fsids := do
  let f ← Fsids.make st o.sameFs root
  let f ← f.includeAll st o.incl
  f.excludeAll st o.excl

/-- line_tools_split, src/dar_suite/line_tools.hpp:135-155: `cur` the text between `be` and `ne` -/
def splitLoop (sep : UInt8) (cur : Bytes) (acc : List Bytes) : Bytes → List Bytes
  | [] => if cur = [] then acc else acc ++ [cur]
  | c :: l => if c ≠ sep then splitLoop sep (cur ++ [c]) acc l else splitLoop sep [] (acc ++ [cur]) l
def split (sep : UInt8) (val : Bytes) : List Bytes := splitLoop sep [] [] val

/-- the fields of line_param for -M, src/dar_suite/command_line.hpp:112-114 and, for the initial values, src/dar_suite/command_line.cpp:266-268 -/
structure Params where
  same : Bool := false
  incl : List Bytes := []
  excl : List Bytes := []
  deriving DecidableEq, Repr

/-- an option -M on the command line with its argument, if any: src/dar_suite/command_line.cpp:1770-1791.  The warning that the legacy option is given
twice is not modelled.  'I' is 73, 'X' 88, ':' 58. -/
def Params.option (p : Params) : Option Bytes → Res Params
  | none => .ok { p with same := true }
  | some arg =>
    match split 58 arg with
    | [a, b] => if a = [73] then .ok { p with incl := p.incl ++ [b] } else if a = [88] then .ok { p with excl := p.excl ++ [b] } else .error .range
    | _ => .error .range

/-- the options in order -/
def Params.options (p : Params) : List (Option Bytes) → Res Params
  | [] => .ok p
  | a :: l => do
    let p ← p.option a
    Params.options p l

/-- what dar gives to the library, src/dar_suite/dar.cpp:424-442 -/
def Params.toCreate (p : Params) : CreateFs :=
  if p.incl = [] ∧ p.excl = [] then CreateFs.setSameFs {} p.same
  else p.excl.foldl CreateFs.setExclude (p.incl.foldl CreateFs.setInclude {})

/-- from the command line to the filter -/
def darIds (st : Bytes → Option Nat) (root : PathT) (args : List (Option Bytes)) : Res Fsids := do
  let p ← Params.options {} args
  idsOf st root p.toCreate

/-- src/libdar/filtre.cpp:680-683: the condition on the filesystem is one of the four of an entry to save; it does not apply to a hard link to an inode already
saved (there e_ino is null: 664-674).  `dev`: the number of the filesystem of the entry at this path, get_device(). -/
def withFs (o : BkOpts) (f : Fsids) (dev : List Bytes → Nat) : BkOpts :=
  { o with cov := fun p link => o.cov p link && (link || f.covered (dev p)) }

end Dar.Mp
