import Verif.Model.FileIo
/- What is expected of files and pipes over system calls: the behaviour of Model/Flat.lean, whatever the system does at each call. -/
namespace Dar

/-- the system does not report an error at this call -/
def SysEv.Harmless : SysEv → Prop
  | .moved _ => True
  | .intr => True
  | .noSpace goOn => goOn = true
  | _ => False
/-- the call transfers data -/
def SysEv.moves : SysEv → Bool
  | .moved _ => true
  | _ => false
/-- how many of the calls transfer data -/
def SysEv.count (evs : List SysEv) : Nat := (evs.filter SysEv.moves).length
/-- the result of a call that has returned normally -/
def IoRes.Is {σ α : Type} (r : IoRes σ α) (a : α) (s : σ) : Prop := ∃ evs, r = .done a s evs
/-- the call has returned, normally or not -/
def IoRes.Ended {σ α : Type} : IoRes σ α → Prop
  | .running _ => False
  | _ => True
/-- the state once the call has returned (normally or not) or has been stopped (a crash) -/
def IoRes.state {σ α : Type} : IoRes σ α → σ
  | .running s => s
  | .done _ s _ => s
  | .failed _ s => s
/-- what a reader of the pipe has still to get -/
def PipeR.rest (p : PipeR) : Bytes := p.next.toList ++ p.src

end Dar
