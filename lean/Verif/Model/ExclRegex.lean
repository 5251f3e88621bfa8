import Verif.Model.Basic
/- Model of the regular expression built for an option -P (or for a mask of exclusion) when --alter=regex is used: tools_build_regex_for_exclude_mask, src/libdar/tools.cpp; and of the part of
the POSIX extended regular expressions that is needed to say what it means (regcomp and regexec, src/libdar/mask.cpp:101-104 and 113-130, with REG_EXTENDED).
Brackets and the braces of repetition are left out of the expressions of the user (they are in no way special for the code). -/
namespace Dar.Er
open Dar

/-- the bytes that the code puts a backslash before, src/libdar/tools.cpp:2427-2429; they are also those that have a meaning in a regular expression: . ? + * ^ $ [ | { ( ) \ -/
def special (c : UInt8) : Bool :=
  c == 46 || c == 63 || c == 43 || c == 42 || c == 94 || c == 36 || c == 91 || c == 124 || c == 123 || c == 40 || c == 41 || c == 92

/-- src/libdar/tools.cpp:2424-2436 -/
def escape : Bytes → Bytes
  | [] => []
  | c :: l => if special c then 92 :: c :: escape l else c :: escape l
/-- the relative part up to the first `$`, src/libdar/tools.cpp:2453-2454 -/
def upTo : Bytes → Bytes
  | [] => []
  | c :: l => if c = 36 then [] else c :: upTo l
/-- src/libdar/tools.cpp:2446-2454 -/
def relative (s : Bytes) : Bytes := match s with
  | 94 :: l => upTo l
  | _ => [46, 42] ++ upTo s
/-- `(/.+)?$` -/
def ending : Bytes := [40, 47, 46, 43, 41, 63, 36]
/-- tools_build_regex_for_exclude_mask, src/libdar/tools.cpp:2417-2459 -/
def build (pre rel : Bytes) : Bytes :=
  let r := [94] ++ escape pre
  (if r.getLast? = some 47 then r else r ++ [47]) ++ relative rel ++ ending

/-! ### regular expressions -/

inductive Quant | star | plus | opt
  deriving DecidableEq
/-- an extended regular expression: a character, a character after a backslash, any character, the start of the text, its end, parentheses, a repetition, and so on -/
inductive Rx
  | chr (c : UInt8)
  | esc (c : UInt8)
  | any
  | bol
  | eol
  | grp (r : Rx)
  | rep (q : Quant) (r : Rx)
  | cat (r s : Rx)
  | alt (r s : Rx)
  deriving DecidableEq

def Quant.char : Quant → UInt8
  | .star => 42
  | .plus => 43
  | .opt => 63
/-- the text of an expression -/
def print : Rx → Bytes
  | .chr c => [c]
  | .esc c => [92, c]
  | .any => [46]
  | .bol => [94]
  | .eol => [36]
  | .grp r => [40] ++ print r ++ [41]
  | .rep q r => print r ++ [q.char]
  | .cat r s => print r ++ print s
  | .alt r s => print r ++ [124] ++ print s
def anchor (r : Rx) : Bool := decide (r = .bol ∨ r = .eol)
/-- the grammar: 0 an atom, 1 an atom that may be repeated, 2 a branch, 3 an expression -/
def wf : Rx → Nat → Bool
  | .chr c, _ => !special c
  | .esc c, _ => special c
  | .any, _ => true
  | .bol, _ => true
  | .eol, _ => true
  | .grp r, _ => wf r 3
  | .rep _ r, k => decide (1 ≤ k) && wf r 0 && !anchor r
  | .cat r s, k => decide (2 ≤ k) && wf r 1 && wf s 2
  | .alt r s, k => decide (3 ≤ k) && wf r 2 && wf s 3
/-- the text `s` is that of the expression `x` (there is only one: C87_unique) -/
def Reads (s : Bytes) (x : Rx) : Prop := wf x 3 = true ∧ print x = s

/-- any number of matches, one after the other: what precedes, what is matched, what follows -/
inductive Reps (S : Bytes → Bytes → Bytes → Prop) : Bytes → Bytes → Bytes → Prop
  | none (b a : Bytes) : Reps S b [] a
  | more {b u v a : Bytes} : S b u (v ++ a) → Reps S (b ++ u) v a → Reps S b (u ++ v) a
/-- the expression matches `m`, with `b` before and `a` after -/
def sem : Rx → Bytes → Bytes → Bytes → Prop
  | .chr c, _, m, _ => m = [c]
  | .esc c, _, m, _ => m = [c]
  | .any, _, m, _ => ∃ c, m = [c]
  | .bol, b, m, _ => m = [] ∧ b = []
  | .eol, _, m, a => m = [] ∧ a = []
  | .grp r, b, m, a => sem r b m a
  | .rep q r, b, m, a => match q with
    | .star => Reps (sem r) b m a
    | .plus => ∃ u v, m = u ++ v ∧ sem r b u (v ++ a) ∧ Reps (sem r) (b ++ u) v a
    | .opt => m = [] ∨ sem r b m a
  | .cat r s, b, m, a => ∃ u v, m = u ++ v ∧ sem r b u (v ++ a) ∧ sem s (b ++ u) v a
  | .alt r s, b, m, a => sem r b m a ∨ sem s b m a
/-- regexec finds the expression somewhere in the text -/
def search (x : Rx) (t : Bytes) : Prop := ∃ b m a, t = b ++ m ++ a ∧ sem x b m a

/-- no anchor -/
def plain : Rx → Bool
  | .bol => false
  | .eol => false
  | .grp r => plain r
  | .rep _ r => plain r
  | .cat r s => plain r && plain s
  | .alt r s => plain r && plain s
  | _ => true

end Dar.Er
