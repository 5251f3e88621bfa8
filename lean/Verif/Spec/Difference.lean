import Verif.Spec.Backup
import Verif.Spec.Checksum
import Verif.Spec.Attributes
import Verif.Model.Difference
/- Specification of the comparison of an archive with a filesystem. -/
namespace Dar

/-- The recorded checksum is the one of this content. -/
def Crc.Fits (c : Crc) (data : Bytes) : Prop := c.st.cyc = crcSpec c.st.cyc.length data

/-- The content of a plain file: same size and (whatever the options are) same modification date, and, depending on what the archive has, the same data (which must also fit the recorded
checksum), or a content that has the recorded signature, or a content that has the recorded checksum. -/
def FileAgrees (o : DfOpts) (x y : Obj) : Prop :=
  y.ino.size = x.ino.size ∧ SameHours o.capa 0 x.ino.mtime y.ino.mtime ∧
  (if x.ino.status = .saved ∧ o.isolated = false then y.data = x.data ∧ ∀ c, o.crcOf x = some c → c.Fits y.data
   else if x.ino.deltaSig = true then o.sign x y.data = o.sigOf x
   else if x.ino.status = .delta then o.crcOf x ≠ none ∧ ∀ c, o.patchCrc x = some c → c.Fits y.data
   else ∀ c, o.crcOf x = some c → c.Fits y.data)

/-- The attributes may have changed: the date of last change of the inode is later than the one recorded. -/
def ChangedAfter (o : DfOpts) (x y : Obj) : Prop := ¬ SameHours o.capa o.hourshift x.ino.ctime y.ino.ctime ∧ x.ino.ctime.instant < y.ino.ctime.instant

/-- The inode has extended attributes covered by the filter. -/
def HasEa (o : DfOpts) (y : Obj) : Prop := ∃ k v, o.eaMask k = true ∧ eaFind (o.eaOf y.eas) k = some v
/-- The inode has attributes of the filesystem in the scope. -/
def HasFsa (o : DfOpts) (y : Obj) : Prop := ∃ a ∈ o.fsaOf y.fsas, o.scope a.fam = true

/-- The inode `y` found on the filesystem agrees with what the archive tells of the inode `x`. -/
structure Agrees (o : DfOpts) (x y : Obj) : Prop where
  kind : y.ino.kind = x.ino.kind
  owner : o.what = .all → y.ino.uid = x.ino.uid ∧ y.ino.gid = x.ino.gid
  perm : o.what = .all ∨ o.what = .ignoreOwner → y.ino.perm = x.ino.perm
  mtime : o.what ≠ .inodeType → x.ino.kind ≠ .symlink ∨ o.symlinkDate = true → SameHours o.capa o.hourshift x.ino.mtime y.ino.mtime
  file : x.ino.isFile = true → FileAgrees o x y
  target : x.ino.kind = .symlink → x.ino.status = .saved → y.ino.target = x.ino.target
  device : x.ino.isDevice = true → x.ino.status = .saved → y.ino.major = x.ino.major ∧ y.ino.minor = x.ino.minor
  /-- the covered attributes of the archive are there with the same value, and there must be one -/
  eaFull : x.ino.eaStatus = .full → HasEa o y ∧ (o.isolated = false → ∀ k v, o.eaMask k = true → eaFind (o.eaOf x.eas) k = some v → eaFind (o.eaOf y.eas) k = some v)
  eaPart : x.ino.eaStatus = .part ∨ x.ino.eaStatus = .fake → HasEa o y ∧ ¬ ChangedAfter o x y
  fsaFull : x.fsa = .full → (HasFsa o y ∧ (o.isolated = false → ∀ a ∈ o.fsaOf x.fsas, o.scope a.fam = true → a ∈ o.fsaOf y.fsas)) ∨ (¬ HasFsa o y ∧ ∀ f, o.scope f = false)
  fsaPart : x.fsa = .part → (HasFsa o y ∧ ¬ ChangedAfter o x y) ∨ (¬ HasFsa o y ∧ ∀ f, o.scope f = false)

/-- What the comparison is given is well formed: recorded checksums are not empty (and of the implementation chosen for their width), a binary difference comes with the checksum of its
result, the sets of attributes are sets, and the filesystem has for each attribute of the archive one of the same type or of a later one (see C47). -/
structure Comparable (o : DfOpts) (x y : Obj) : Prop where
  crc : ∀ c, o.crcOf x = some c ∨ o.patchCrc x = some c → 0 < c.st.cyc.length ∧ c.impl = crcImplFor c.st.cyc.length
  patch : x.ino.status = .delta → o.patchCrc x ≠ none
  eaMe : (o.eaOf x.eas).Pairwise (fun a b => strLt a.1 b.1 = true)
  fsaMe : FsaSet (o.fsaOf x.fsas) ∧ ∀ a ∈ o.fsaOf x.fsas, a.Typed
  fsaYou : x.fsa = .full → FsaSet (o.fsaOf y.fsas) ∧ ∀ a ∈ o.fsaOf y.fsas, a.Typed
  fsaTypes : x.fsa = .full → HasFsa o y → ∀ a ∈ o.fsaOf x.fsas, o.scope a.fam = true → ∃ b ∈ o.fsaOf y.fsas, o.scope b.fam = true ∧ b.lt a = false

/-- The filters keep the entry. -/
def Selected (o : DfOpts) (p : List Bytes) (e : BEntry) : Prop := o.subtree p = true ∧ (e.isDir = true ∨ o.names e.name = true)
/-- The directories above a path are kept by the filters and are directories of the filesystem. -/
def OpenTo (o : DfOpts) (fs : FS) (p : List Bytes) : Prop :=
  ∀ q, q ≠ [] → q <+: p → q ≠ p → o.subtree q = true ∧ ∃ y, fs.obj q = some y ∧ y.ino.kind = .dir
/-- What has to be told of an entry of the archive. -/
def ToTell (o : DfOpts) (stars : Nat → Obj) (fs : FS) (p : List Bytes) (e : BEntry) : DfWord → Prop
  | .skipped => ¬ Selected o p e
  | .silent => Selected o p e ∧ e.obj stars = none
  | .ok => Selected o p e ∧ ∃ x y, e.obj stars = some x ∧ fs.obj p = some y ∧ Agrees o x y
  | .diff => Selected o p e ∧ ∃ x, e.obj stars = some x ∧ ∀ y, fs.obj p = some y → ¬ Agrees o x y
/-- The comparison can be done: nothing is unreadable, and what is compared is well formed. -/
structure Readable (o : DfOpts) (cat : BCat) (fs : FS) : Prop where
  fails : ∀ p, o.fails p = none
  each : ∀ p e x y, OccursIn cat.root p e → e.obj cat.stars = some x → fs.obj p = some y → Comparable o x y

end Dar
