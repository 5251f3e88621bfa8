import Verif.Model.MountPoints
/- Model of how the end of line sequences given with a listing file (-[ and -]) are understood: src/dar_suite/line_tools.cpp. -/
namespace Dar.Eo
open Dar

/-- extract_octal_from_string, src/dar_suite/line_tools.cpp:2097-2112 (`ret` is a char) -/
def octal (digit : Nat) (ret : UInt8) : Bytes → UInt8 × Bytes
  | [] => (ret, [])
  | c :: l => if (48 ≤ c ∧ c ≤ 55) ∧ digit < 3 then octal (digit + 1) (ret * 8 + (c - 48)) l else (ret, c :: l)
/-- one digit of extract_hexa_from_string, src/dar_suite/line_tools.cpp:2122-2129 -/
def hexDigit (c : UInt8) : Option UInt8 :=
  if 48 ≤ c ∧ c ≤ 57 then some (c - 48)
  else if 65 ≤ c ∧ c ≤ 70 then some (c - 65 + 10)
  else if c > 97 ∧ c ≤ 102 then some (c - 97 + 10)
  else none
/-- extract_hexa_from_string, src/dar_suite/line_tools.cpp:2114-2137 (after the last character of a string there is a zero) -/
def hexa : Bytes → Option (UInt8 × Bytes)
  | a :: b :: l => match hexDigit a, hexDigit b with
    | some x, some y => some (x * 16 + y, l)
    | _, _ => none
  | _ => none

theorem octal_le (digit : Nat) (ret : UInt8) (l : Bytes) : (octal digit ret l).2.length ≤ l.length := by
  induction l generalizing digit ret with
  | nil => simp [octal]
  | cons c l ih =>
    unfold octal
    split
    · have := ih (digit + 1) (ret * 8 + (c - 48)); simp; omega
    · simp
theorem hexa_le {l r : Bytes} {x : UInt8} (h : hexa l = some (x, r)) : r.length ≤ l.length := by
  unfold hexa at h
  split at h
  · split at h
    · cases h; simp; omega
    · cases h
  · cases h

/-- a sequence of one letter, src/dar_suite/line_tools.cpp:1925-1954 -/
def letter (c : UInt8) : Option UInt8 :=
  if c = 39 ∨ c = 34 ∨ c = 92 then some c
  else if c = 110 then some 10
  else if c = 114 then some 13
  else if c = 116 then some 9
  else if c = 98 then some 8
  else if c = 102 then some 12
  else if c = 118 then some 11
  else none

/-- line_tools_replace_escape_sequences, src/dar_suite/line_tools.cpp:1908-1998; with "\0" at the end of the string the iterator does not move and the loop does not end (`diverge`) -/
def esc : Bytes → Res Bytes
  | [] => .ok []
  | c :: l =>
    if c = 92 then match l with
      | [] => .error .range
      | d :: l => match letter d with
        | some v => do .ok (v :: (← esc l))
        | none =>
          if d = 48 then
            if l = [] then .error .diverge
            else
              have := octal_le 0 0 l
              do .ok ((octal 0 0 l).1 :: (← esc (octal 0 0 l).2))
          else if d = 120 then match h : hexa l with
            | some p =>
              have := hexa_le (show hexa l = some (p.1, p.2) from h)
              do .ok (p.1 :: (← esc p.2))
            | none => .error .range
          else .error .range
    else do .ok (c :: (← esc l))
termination_by l => l.length
decreasing_by all_goals (simp_all; try omega)

/-- last_is_escaped after the loop, src/dar_suite/line_tools.cpp:1857-1878 -/
def lastEsc : Bytes → Bool → Bool
  | [], b => b
  | c :: l, _ =>
    if c = 92 then match l with
      | [] => false
      | _ :: l => lastEsc l true
    else lastEsc l false
/-- the sequence ends by a backslash that is not escaped: the comma after it was, src/dar_suite/line_tools.cpp:1881 -/
def endsOpen (s : Bytes) : Bool := decide (s.getLast? = some 92) && !lastEsc s false

/-- the loop on the sequences, src/dar_suite/line_tools.cpp:1852-1901 -/
def eolsLoop : List Bytes → Res (List Bytes)
  | [] => .ok []
  | it :: rest =>
    if endsOpen it then match rest with
      | nextone :: rest => eolsLoop ((it.dropLast ++ [44] ++ nextone) :: rest)
      | [] => do .ok [← esc (it.dropLast ++ [44])]
    else do
      let v ← esc it
      .ok (v :: (← eolsLoop rest))
termination_by l => l.length

/-- what precedes the last `sep` and what follows, when there is one: line_tools_find_last_char_of, src/dar_suite/line_tools.cpp:933-946 -/
def cutLast (sep : UInt8) : Bytes → Option (Bytes × Bytes)
  | [] => none
  | c :: l => match cutLast sep l with
    | some (a, b) => some (c :: a, b)
    | none => if c = sep then some ([], l) else none

/-- line_tools_split_mask_list_from_eols, src/dar_suite/line_tools.cpp:1838-1906: the name of the file and the sequences -/
def listArg (arg : Bytes) : Res (Bytes × List Bytes) := match cutLast 58 arg with
  | none => .ok (arg, [])
  | some (file, eols) => do .ok (file, ← eolsLoop (Mp.split 44 eols))

end Dar.Eo
