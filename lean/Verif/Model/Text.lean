import Verif.Model.Infinint
import Verif.Lemmas.Reader
/- Zero-terminated strings and vectors of strings in files, src/libdar/tools.cpp. -/
namespace Dar

/-- src/libdar/tools.cpp:189-193 tools_write_string -/
def putStr (s : Bytes) : Bytes := s ++ [0]

/-- src/libdar/tools.cpp:195-211 tools_read_string -/
def getStr : Reader Bytes := fun s =>
  match s with
  | [] => .error .range
  | b :: rest =>
    if b = 0 then .ok ([], rest)
    else match getStr rest with
      | .error e => .error e
      | .ok (l, r) => .ok (b :: l, r)

/-- src/libdar/tools.cpp:681-689 tools_write_vector -/
def putVec (l : List Bytes) : Bytes := putInt l.length ++ (l.map putStr).flatten

/-- src/libdar/tools.cpp:691-703 tools_read_vector -/
def getVec : Reader (List Bytes) := do
  let n ← getInt
  readList getStr n

end Dar
