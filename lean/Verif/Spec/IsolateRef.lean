import Verif.Spec.Isolate
import Verif.Model.Backup
/- What a differential backup looks at in a catalogue of reference: an inode is seen through the name that leads to it, hard links included. -/
namespace Dar

def Special.kindOf : Special → InoKind
  | .file _ => .file
  | .door _ => .door
  | .link _ => .symlink
  | .chardev _ _ => .chardev
  | .blockdev _ _ => .blockdev
  | .pipe => .pipe
  | .socket => .socket
def Special.fileOf : Special → Option FileB
  | .file f | .door f => some f
  | _ => none
def FsaSaved.toSt : FsaSaved → FsaSt | .none => .none | .part => .part | .full => .full
/-- has_delta_signature_available: there is a signature to fetch -/
def SigShown.there : SigShown → Bool
  | some (_, _, some _) => true
  | _ => false
def refIno (kind : InoKind) (st : SavedStatus) (i : InodeB) (f : Option FileB) (sig : Bool) : Ino :=
  ⟨kind, i.uid, i.gid, i.perm, i.mtime, i.ctime, st, (f.map (·.size)).getD 0, (f.map (·.dirty)).getD false, false, sig, 0, 0, [], i.ea, 0, i.eaSize.getD 0⟩
mutual
def Shown.ref (x : Shown) : BEntry :=
  match x with
  | .inode n _ sig => .node ⟨n.name, refIno n.special.kindOf n.status n.inode n.special.fileOf (SigShown.there sig), n.inode.fsa.toSt, [], [], []⟩
  | .dir name st i l => .dir ⟨name, refIno .dir st i none false, i.fsa.toSt, [], [], []⟩ (Shown.refL l)
  | .removed name s d => .detruit name (if s = 100 then .dir else .file) d
def Shown.refL (l : List Shown) : List BEntry :=
  match l with
  | [] => []
  | x :: l => Shown.ref x :: Shown.refL l
end
/-- there is no hard link left: never looked at -/
def noObj : Obj := ⟨[], ⟨.pipe, 0, 0, 0, ⟨0, .s⟩, ⟨0, .s⟩, .saved, 0, false, false, false, 0, 0, [], .none, 0, 0⟩, .none, [], [], []⟩
/-- the catalogue of an opened archive, as a reference -/
def IsoArc.asRef (a : IsoArc) : BCat := ⟨Shown.refL (Entry.shownL (sigShown a.sigs) a.stars a.cat.children), fun _ => noObj⟩

end Dar
