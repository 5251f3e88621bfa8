import Verif.Model.SeqRead
/- Model of what protects the sequential reading of a signed archive: catalogue::is_subset_of (src/libdar/catalogue.cpp:958-1004), with
catalogue::compare (519-626), same_as and the comparison operators of the entries.

The hard linked inodes of the two catalogues are given by tables. -/
namespace Dar

/-- an inode as the comparisons see it -/
inductive CmpIno where
  | node (n : Node)
  | dir (name : Bytes)
def CmpIno.name : CmpIno → Bytes
  | .node n => n.name
  | .dir n => n
/-- signature() -/
def CmpIno.letter : CmpIno → UInt8
  | .node n => n.special.letter
  | .dir _ => 100
/-- dynamic_cast<cat_inode *>, then get_inode() for a hard link, src/libdar/catalogue.cpp:569-580 -/
def Entry.ino (links : Nat → Node) : Entry → Option CmpIno
  | .node n => some (.node n)
  | .dir n _ _ _ => some (.dir n)
  | .mirage _ k => some (.node (links k))
  | .detruit _ _ _ => none
  | .ignored _ => none

/-- cat_signature::compatible_signature, src/libdar/cat_signature.cpp:124-134 -/
def lettersAgree (a b : UInt8) : Bool :=
  if a = 101 ∨ a = 102 then b == 101 || b == 102 else b == a
/-- cat_inode::same_as, src/libdar/cat_inode.cpp:365-368, and cat_nomme::same_as, src/libdar/cat_nomme.hpp:63 -/
def CmpIno.sameAs (a b : CmpIno) : Bool := a.name == b.name && lettersAgree a.letter b.letter

/-- operator == of the class of `a`: cat_file.hpp:265 (always true), cat_door.cpp:36-44, cat_lien.cpp:66-75, cat_device.cpp:110-120 with
cat_chardev.cpp:34-42 and cat_blockdev.cpp:34-42, cat_tube.cpp:34-42, cat_prise.cpp:34-42, cat_directory.cpp:242-250; cat_inode does not define any, so that
cat_inode::operator== is that of cat_nomme (cat_nomme.cpp:46-54): the name. -/
def CmpIno.equals (a b : CmpIno) : Bool :=
  match a, b with
  | .dir n, .dir m => n == m
  | .dir _, .node _ => false
  | .node x, b => match x.special, b with
    | .file _, _ => true
    | .door _, .node y => (match y.special with | .door _ => true | _ => false)
    | .link t, .node y => (match y.special with | .link t' => t == t' && x.name == y.name | _ => false)
    | .chardev p q, .node y => (match y.special with | .chardev p' q' => p == p' && q == q' && x.name == y.name | _ => false)
    | .blockdev p q, .node y => (match y.special with | .blockdev p' q' => p == p' && q == q' && x.name == y.name | _ => false)
    | .pipe, .node y => (match y.special with | .pipe => x.name == y.name | _ => false)
    | .socket, .node y => (match y.special with | .socket => x.name == y.name | _ => false)
    | _, .dir _ => false

/-- current_compare and the directories above it, and out_compare (the names of the directories of the other catalogue that this one does not have) -/
structure CatCmp where
  stack : List (List Entry)
  out : List Bytes
/-- catalogue::reset_compare, src/libdar/catalogue.cpp:509-517 -/
def CatCmp.start (root : List Entry) : CatCmp := ⟨[root], []⟩

/-- `extracted` -/
inductive Found where
  | eod
  | ino (i : CmpIno)
  | deleted (name : Bytes) (signe : UInt8) (date : DateT)

/-- "updating internal structure to follow directory tree", src/libdar/catalogue.cpp:582-590 -/
def CatCmp.follow (c : CatCmp) (target found : Entry) : CatCmp :=
  match target, found with
  | .dir _ _ _ _, .dir _ _ _ ch => ⟨ch :: c.stack, c.out⟩
  | .dir n _ _ _, _ => ⟨c.stack, n :: c.out⟩
  | _, _ => c
/-- "now comparing the objects", src/libdar/catalogue.cpp:592-618; `none`: false is returned.  A deletion record is compared with itself (605), what
is_subset_of does next settles it. -/
def compareFound (mine theirs : Nat → Node) (target found : Entry) : Res (Option Found) :=
  match target.ino mine with
  | some a => match found.ino theirs with
    | some b => .ok (if a.sameAs b then some (.ino b) else none)
    | none => .ok none
  | none => match target, found with
    | .detruit _ _ _, .detruit n s d => .ok (some (.deleted n s d))
    | .detruit _ _ _, _ => .ok none
    | _, _ => .error .bug
/-- the directory `target` is not in the catalogue: out_compare += its name -/
def CatCmp.leave (c : CatCmp) (target : Entry) : CatCmp := if target.isFolder then ⟨c.stack, target.title :: c.out⟩ else c

/-- catalogue::compare, src/libdar/catalogue.cpp:519-626; `none`: false is returned -/
def CatCmp.compare (mine theirs : Nat → Node) (c : CatCmp) : Item → Res (Option Found × CatCmp)
  | .eod => match c.out with
    | _ :: out => .ok (none, ⟨c.stack, out⟩)
    | [] => match c.stack with
      | _ :: d :: st => .ok (some .eod, ⟨d :: st, []⟩)
      | _ => .error .range
  | .entry e =>
    if c.out ≠ [] then .ok (none, c.leave e)
    else match findNamed e.title (c.stack.headD []) with
      | none => .ok (none, c.leave e)
      | some found => do
        let r ← compareFound mine theirs e found
        .ok (r, c.follow e found)

/-- `*toi == *moi` with moi replaced by its inode if it is a hard link, src/libdar/catalogue.cpp:978-987 and the operators -/
def foundEquals (mine : Nat → Node) (toi : Found) (moi : Item) : Bool :=
  match toi, moi with
  | .eod, _ => true
  | .ino a, .entry e => (match e.ino mine with
    | some b => a.equals b
    -- only cat_file::operator== accepts anything
    | none => match a with | .node x => (match x.special with | .file _ => true | _ => false) | .dir _ => false)
  | .ino a, .eod => match a with | .node x => (match x.special with | .file _ => true | _ => false) | .dir _ => false
  | .deleted n s d, .entry (.detruit n' s' d') => n == n' && s == s' && d == d'
  | .deleted _ _ _, _ => false

/-- what catalogue::read gives one after the other from a tree (memRead, see `memRead_walk`) -/
def walkItems : List Entry → List Item
  | [] => []
  | .dir n st i ch :: l => .entry (.dir n st i ch) :: (walkItems ch ++ .eod :: walkItems l)
  | e :: l => .entry e :: walkItems l

/-- the loop of catalogue::is_subset_of, src/libdar/catalogue.cpp:967-989 -/
def subsetLoop (mine theirs : Nat → Node) : CatCmp → List Item → Res Bool
  | _, [] => .ok true
  | c, it :: l => do
    let (r, c') ← c.compare mine theirs it
    match r with
    | none => .ok false
    | some toi => if foundEquals mine toi it then subsetLoop mine theirs c' l else .ok false
/-- catalogue::is_subset_of, src/libdar/catalogue.cpp:958-1004: the errors Edata and Erange are a negative answer -/
def isSubset (mine theirs : Nat → Node) (me ref : List Entry) : Res Bool :=
  match subsetLoop mine theirs (CatCmp.start ref) (walkItems me) with
  | .error .range => .ok false
  | .error .data => .ok false
  | r => r

/-- is_subset_of as called by a sequential reading (src/libdar/escape_catalogue.cpp:756); an internal error stops the reading, which is also what a
negative answer does outside lax mode: both are taken as `false` -/
def subsetOf (mine theirs : Nat → Node) (me ref : List Entry) : Bool :=
  match isSubset mine theirs me ref with
  | .ok b => b
  | .error _ => false

end Dar
