import Verif.Model.Criterium
import Verif.Model.Deci
/- Model of the reading of overwriting policies (the overwriting policy option of dar), src/dar_suite/crit_action_cmd_line.cpp, and of dates given
as text, src/dar_suite/line_tools.cpp. -/
namespace Dar

/-! ### Dates given as text -/

/-- The fields of `struct tm` that line_tools_convert_date sets.  The others (tm_isdst, ...) stay those of the present
time, tm_wday and tm_yday are ignored by mktime (line_tools.cpp:1201-1202). -/
structure Tm where
  year : Int   -- years since 1900
  mon : Int    -- 0-11
  mday : Int
  hour : Int
  min : Int
  sec : Int
  deriving DecidableEq, Repr

/-- What the system answers: the current time, the same as local fields (tools_localtime), and mktime. -/
structure Clock where
  now : Int
  local_ : Tm
  mktime : Tm → Int

/-- The states of the scanner, line_tools.cpp:1190.  `error` always ends in an Erange exception: the loop stops
(l.1304) and set_etat(finish) throws (l.1252-1253, 1365); it is modelled by raising it at once. -/
inductive DateSt where | init | year | month | day | hour | min | sec
  deriving DecidableEq, Repr

/-- The scanner: its state, the date so far, the number being read (`S_I tmp`, l.1264). -/
structure DateScan where
  st : DateSt
  tm : Tm
  tmp : Nat

/-- line_tools.cpp:1211-1216 add_digit.  The number is a signed integer of 32 bits: going over is undefined behaviour. -/
def DateScan.addDigit (s : DateScan) (c : UInt8) : Res DateScan :=
  let v := s.tmp * 10 + (c.toNat - 48)
  if v < 2 ^ 31 then .ok { s with tmp := v } else .error .ub

/-- line_tools.cpp:1220-1256: what set_etat does with the number read for the field of the current state. -/
def DateScan.store (s : DateScan) : Res Tm :=
  match s.st with
  | .year => if s.tmp < 1970 then .error .range else .ok { s.tm with year := (s.tmp : Int) - 1900 }
  | .month => if s.tmp < 1 ∨ s.tmp > 12 then .error .range else .ok { s.tm with mon := (s.tmp : Int) - 1 }
  | .day => if s.tmp < 1 ∨ s.tmp > 31 then .error .range else .ok { s.tm with mday := s.tmp }
  | .hour => if s.tmp > 23 then .error .range else .ok { s.tm with hour := s.tmp }
  | .min => if s.tmp > 59 then .error .range else .ok { s.tm with min := s.tmp }
  | .sec => if s.tmp > 59 then .error .range else .ok { s.tm with sec := s.tmp }
  | .init => .ok s.tm

/-- line_tools.cpp:1218-1259 set_etat -/
def DateScan.setEtat (s : DateScan) (st : DateSt) : Res DateScan :=
  match s.store with
  | .error e => .error e
  | .ok tm => .ok ⟨st, tm, 0⟩

/-- line_tools.cpp:1305-1363: one character. -/
def DateScan.step (s : DateScan) (c : UInt8) : Res DateScan :=
  if c = 47 then                                    -- '/'
    match s.st with
    | .year => s.setEtat .month
    | .month => s.setEtat .day
    | _ => .error .range
  else if c = 58 then                               -- ':'
    match s.st with
    | .hour => s.setEtat .min
    | .min => s.setEtat .sec
    | _ => .error .range
  else if c = 45 then                               -- '-'
    match s.st with
    | .day => s.setEtat .hour
    | _ => .error .range
  else if c = 32 ∨ c = 9 ∨ c = 10 ∨ c = 13 then .ok s
  else if 48 ≤ c ∧ c ≤ 57 then s.addDigit c
  else .error .range

/-- line_tools.cpp:1304: the loop. -/
def DateScan.run (s : DateScan) : Bytes → Res DateScan
  | [] => .ok s
  | c :: l => match s.step c with
    | .error e => .error e
    | .ok s => s.run l

/-- line_tools.cpp:1277-1301: the field the text begins with, from the number of '/' and '-' in it
(tools_count_in_string, src/libdar/tools.cpp). -/
def dateInit (s : Bytes) : Option DateSt :=
  match s.count 47 with
  | 0 => match s.count 45 with
    | 0 => some .hour
    | 1 => some .day
    | _ => none
  | 1 => some .month
  | 2 => some .year
  | _ => none

/-- line_tools.cpp:1188-1373 line_tools_convert_date.  `U_I` is size_t (integers.hpp:55): a negative time becomes a huge
number. -/
def convertDate (ck : Clock) (s : Bytes) : Res Nat :=
  match dateInit s with
  | none => .error .range
  | some st =>
    match DateScan.run ⟨st, { ck.local_ with sec := 0, min := 0, hour := 0 }, 0⟩ s with
    | .error e => .error e
    | .ok sc => match sc.store with
      | .error e => .error e
      | .ok tm =>
        let w := ck.mktime tm
        if w > ck.now then .error .range else .ok (w % 2 ^ 64).toNat

/-- src/dar_suite/crit_action_cmd_line.cpp:411-423, command_line.cpp:983-997: a number of seconds, else a date. -/
def dateArg (ck : Clock) (s : Bytes) : Res Nat :=
  match deciOfText s with
  | .ok d => .ok (deciComputer d)
  | .error .deci => convertDate ck s
  | .error e => .error e

/-! ### Policies -/

/-- src/dar_suite/crit_action_cmd_line.cpp:34-51 crit_action_canonize_string -/
def canonize (s : Bytes) : Bytes := s.filter fun c => c != 32 && c != 13 && c != 10 && c != 9

/-- src/dar_suite/line_tools.cpp:288-313 line_tools_find_first_char_out_of_parenth: the text before and the text after
the character found; `p` is the number of parentheses opened so far. -/
def findOut (t : UInt8) : Nat → Bytes → Res (Option (Bytes × Bytes))
  | _, [] => .ok none
  | p, c :: l =>
    if c = t ∧ p = 0 then .ok (some ([], l))
    else if c = 41 ∧ p = 0 then .error .range
    else match findOut t (if c = 40 then p + 1 else if c = 41 then p - 1 else p) l with
      | .error e => .error e
      | .ok none => .ok none
      | .ok (some (a, b)) => .ok (some (c :: a, b))

/-- crit_action_cmd_line.cpp:275-295: `dynamic_cast<const crit_or *>` -/
def orJoin (a b : Crit) : Crit := match b with
  | .or l => .or (a :: l)
  | _ => .or [a, b]

/-- crit_action_cmd_line.cpp:316-335: `dynamic_cast<const crit_and *>`, which succeeds on a crit_or too: crit_or derives
from crit_and (src/libdar/criterium.hpp:547) -/
def andJoin (a b : Crit) : Crit := match b with
  | .and l => .and (a :: l)
  | .or l => .and (a :: l)
  | _ => .and [a, b]

/-- crit_action_cmd_line.cpp:466-529: the conditions of one letter -/
def atomOf (hs : Nat) (c : UInt8) : Res Crit :=
  if c = 73 then .ok .isInode                    -- I
  else if c = 68 then .ok .isDir                 -- D
  else if c = 70 then .ok .isFile                -- F
  else if c = 72 then .ok .isHardlinked          -- H
  else if c = 65 then .ok .isNewHardlinked       -- A
  else if c = 82 then .ok (.dataMoreRecent hs)   -- R
  else if c = 66 then .ok .dataBigger            -- B
  else if c = 83 then .ok .dataSaved             -- S
  else if c = 89 then .ok .dataDirty             -- Y
  else if c = 88 then .ok .dataSparse            -- X
  else if c = 76 then .ok .hasDeltaSig           -- L
  else if c = 80 then .ok .isBinaryPatch         -- P
  else if c = 69 then .ok .sameInodeData         -- E
  else if c = 101 then .ok .eaPresent            -- e
  else if c = 114 then .ok (.eaMoreRecent hs)    -- r
  else if c = 109 then .ok .moreEa               -- m
  else if c = 98 then .ok .eaBigger              -- b
  else if c = 115 then .ok .eaSaved              -- s
  else if c = 84 then .ok .sameType              -- T
  else .error .range

/-- crit_action_cmd_line.cpp:396-531: what is neither an operator nor between parentheses -/
def simpleCrit (ck : Clock) (hs : Nat) (s : Bytes) : Res Crit :=
  if s.length ≥ 4 ∧ s[1]? = some 40 ∧ s.getLast? = some 41 then
    if s.head? = some 82 ∨ s.head? = some 114 then
      match dateArg ck (s.drop 2).dropLast with
      | .error e => .error e
      | .ok d => .ok (if s.head? = some 82 then .dataMoreRecentThan d hs else .eaMoreRecentThan d hs)
    else .error .range
  else match s with
    | [c] => atomOf hs c
    | _ => .error .range

/-- crit_action_cmd_line.cpp:257-547 criterium_create_from_string; `n` bounds the depth of the recursion, each call being
on a shorter text. -/
def parseCrit (ck : Clock) (hs : Nat) : Nat → Bytes → Res Crit
  | 0, _ => .error .diverge
  | n + 1, s =>
    if s = [] then .error .range
    else match findOut 124 0 s with                          -- '|'
    | .error e => .error e
    | .ok (some (a, b)) =>
      match parseCrit ck hs n a with
      | .error e => .error e
      | .ok x => match parseCrit ck hs n b with
        | .error e => .error e
        | .ok y => .ok (orJoin x y)
    | .ok none => match findOut 38 0 s with                   -- '&'
    | .error e => .error e
    | .ok (some (a, b)) =>
      match parseCrit ck hs n a with
      | .error e => .error e
      | .ok x => match parseCrit ck hs n b with
        | .error e => .error e
        | .ok y => .ok (andJoin x y)
    | .ok none =>
      if s.head? = some 40 ∧ s.getLast? = some 41 then parseCrit ck hs n s.tail.dropLast
      else if s.head? = some 33 then (parseCrit ck hs n s.tail).map .not       -- '!'
      else if s.head? = some 126 then (parseCrit ck hs n s.tail).map .invert   -- '~'
      else simpleCrit ck hs s

/-- crit_action_cmd_line.cpp:186-211 -/
def dataOf (c : UInt8) : Res OverData :=
  if c = 80 then .ok .preserve            -- P
  else if c = 79 then .ok .overwrite      -- O
  else if c = 83 then .ok .preserveMark   -- S
  else if c = 84 then .ok .overwriteMark  -- T
  else if c = 82 then .ok .remove         -- R
  else if c = 42 then .ok .undefined      -- *
  else if c = 65 then .ok .ask            -- A
  else .error .range

/-- crit_action_cmd_line.cpp:213-244 -/
def eaOf (c : UInt8) : Res OverEa :=
  if c = 112 then .ok .preserve             -- p
  else if c = 111 then .ok .overwrite       -- o
  else if c = 115 then .ok .preserveMark    -- s
  else if c = 116 then .ok .overwriteMark   -- t
  else if c = 109 then .ok .mergePreserve   -- m
  else if c = 110 then .ok .mergeOverwrite  -- n
  else if c = 114 then .ok .clear           -- r
  else if c = 42 then .ok .undefined        -- *
  else if c = 97 then .ok .ask              -- a
  else .error .range

/-- crit_action_cmd_line.cpp:87-99: `add` then `gobe` or `add` -/
def chainJoin (a b : Action) : Action := match b with
  | .chain l => .chain (a :: l)
  | _ => .chain [a, b]

/-- crit_action_cmd_line.cpp:181-253 -/
def constAction (s : Bytes) : Res Action :=
  match s with
  | [a, b] => match dataOf a with
    | .error e => .error e
    | .ok d => match eaOf b with
      | .error e => .error e
      | .ok ea => .ok (.const d ea)
  | _ => .error .range

/-- crit_action_cmd_line.cpp:54-255 crit_action_create_from_string.  `string(it + 2, fin)` is undefined when `fin` comes
before `it + 2` (l.146). -/
def parseAction (ck : Clock) (hs : Nat) : Nat → Bytes → Res Action
  | 0, _ => .error .diverge
  | n + 1, s =>
    if s = [] then .error .range
    else match findOut 59 0 s with                            -- ';'
    | .error e => .error e
    | .ok (some (a, b)) =>
      match parseAction ck hs n a with
      | .error e => .error e
      | .ok x => match parseAction ck hs n b with
        | .error e => .error e
        | .ok y => .ok (chainJoin x y)
    | .ok none =>
      if s.head? = some 123 then                              -- '{'
        match findOut 125 0 s with                            -- '}'
        | .error e => .error e
        | .ok none => .error .range
        | .ok (some (pre, post)) =>
          if post.head? ≠ some 91 then .error .range          -- '['
          else match findOut 93 0 s with                      -- ']'
          | .error e => .error e
          | .ok none => .error .range
          | .ok (some (pre2, post2)) =>
            match parseCrit ck hs (n + 1) pre.tail with
            | .error e => .error e
            | .ok c =>
              if pre2.length < pre.length + 2 then .error .ub
              else match parseAction ck hs n (pre2.drop (pre.length + 2)) with
              | .error e => .error e
              | .ok t =>
                if post2 = [] then .ok (.test c t (.const .undefined .undefined))
                else match parseAction ck hs n post2 with
                | .error e => .error e
                | .ok f => .ok (.test c t f)
      else constAction s

/-- src/dar_suite/command_line.cpp:1885: the argument of the overwriting policy option -/
def readPolicy (ck : Clock) (hs : Nat) (s : Bytes) : Res Action :=
  parseAction ck hs ((canonize s).length + 1) (canonize s)

end Dar
