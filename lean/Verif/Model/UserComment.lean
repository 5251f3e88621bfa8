import Verif.Model.Basic
/- Model of the expansion of the user comment stored in clear in the header of archives (option -. of dar), src/dar_suite/line_tools.cpp:349-415 line_tools_expand_user_comment.
The date, the user, the group and the host are parameters. -/
namespace Dar

/-- What the macros stand for: argv, and what line_tools_get_date_utc, line_tools_get_euid, line_tools_get_egid and line_tools_get_hostname answer. -/
structure CommentEnv where
  prog : Bytes
  args : List Bytes
  date : Bytes
  user : Bytes
  group : Bytes
  host : Bytes

/-- the options compared by strcmp, src/dar_suite/line_tools.cpp:370-381: -K -J -$ -# -* -% and the long ones -/
def keyOptions : List Bytes := [[45, 75], [45, 74], [45, 36], [45, 35], [45, 42], [45, 37],
  "--key".toUTF8.toList, "--ref-key".toUTF8.toList, "--aux-key".toUTF8.toList, "--crypto-block".toUTF8.toList, "--ref-crypto-block".toUTF8.toList, "--aux-crypto-block".toUTF8.toList]

/-- the loop on the arguments, src/dar_suite/line_tools.cpp:369-384: `++i` jumps over the next argument -/
def argsLoop : List Bytes → Bytes
  | [] => []
  | [a] => if a ∈ keyOptions then [] else [32, 34] ++ a ++ [34]
  | a :: b :: l => if a ∈ keyOptions then argsLoop l else [32, 34] ++ a ++ [34] ++ argsLoop (b :: l)

/-- the switch, src/dar_suite/line_tools.cpp:366-401 -/
def commentMacro (e : CommentEnv) (c : UInt8) : Res Bytes :=
  if c = 99 then .ok ([34] ++ e.prog ++ [34] ++ argsLoop e.args)   -- c
  else if c = 100 then .ok e.date    -- d
  else if c = 117 then .ok e.user    -- u
  else if c = 103 then .ok e.group   -- g
  else if c = 104 then .ok e.host    -- h
  else if c = 37 then .ok [37]       -- %
  else .error .range

/-- the loop, src/dar_suite/line_tools.cpp:355-411: `pend` is the text from `st` to `it`.  When the text ends with '%', `it` goes one place after the end (undefined behaviour). -/
def commentLoop (e : CommentEnv) (pend ret : Bytes) : Bytes → Res Bytes
  | [] => .ok (ret ++ pend)
  | [x] => if x = 37 then .error .ub else .ok (ret ++ (pend ++ [x]))
  | x :: c :: l => if x = 37 then do
      let t ← commentMacro e c
      commentLoop e [] (ret ++ pend ++ t) l
    else commentLoop e (pend ++ [x]) ret (c :: l)

/-- line_tools_expand_user_comment -/
def expandComment (e : CommentEnv) (s : Bytes) : Res Bytes := commentLoop e [] [] s

end Dar
