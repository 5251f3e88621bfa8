import Verif.Model.RemoteRead
/- What is expected of the reading of a remote file, told with the calls that ended. -/
namespace Dar.Lc
open Dar

/-- the position after some calls (the last first): each read moves it by what it gave -/
def posAfter : List Done → Nat
  | [] => 0
  | .read _ b :: l => posAfter l + b.length
  | .skip p :: _ => p
  | .ahead _ :: l => posAfter l
/-- each read gave the bytes of the file that are at its position, and not more than asked -/
def Faithful (file : Bytes) : List Done → Prop
  | [] => True
  | .read n b :: l => b = (file.drop (posAfter l)).take b.length ∧ b.length ≤ n ∧ Faithful file l
  | .skip _ :: l => Faithful file l
  | .ahead _ :: l => Faithful file l
/-- each read gave all that was asked, or came to the end of the file -/
def Full (file : Bytes) : List Done → Prop
  | [] => True
  | .read n b :: l => (b.length = n ∨ file.length ≤ posAfter l + b.length) ∧ Full file l
  | .skip _ :: l => Full file l
  | .ahead _ :: l => Full file l

/-- calls that ask for something -/
def Asks (c : Cfg) : Call → Prop
  | .read n => 0 < n
  | .skip _ => True
  | .ahead n => 0 < n ∨ c.ftp = true

end Dar.Lc
