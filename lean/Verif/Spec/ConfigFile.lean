import Verif.Model.ConfigFile
/- Configuration files, described line by line. -/
namespace Dar

/-! ### lines -/

/-- a line with its end -/
def IsLine (l : Bytes) : Prop := ∃ b, l = b ++ [10] ∧ (10 : UInt8) ∉ b
/-- a text: lines, and what follows the last end of line -/
structure IsText (text : Bytes) (ls : List Bytes) (last : Bytes) : Prop where
  eq : text = ls.flatten ++ last
  lines : ∀ l ∈ ls, IsLine l
  last : (10 : UInt8) ∉ last
/-- space or tabulation -/
def isBlank (a : UInt8) : Bool := a == 32 || a == 9

/-! ### comments -/

/-- the kinds of lines: nothing visible, a comment ('#' first), anything else -/
inductive LineKind where
  | blank
  | comment
  | command
  deriving DecidableEq
def lineKind (l : Bytes) : LineKind := match l.dropWhile isBlank with
  | [] => .blank
  | a :: _ => if a = 10 then .blank else if a = 35 then .comment else .command
/-- what remains once the comments have been removed: the command lines, one after the other.  At the beginning and after a comment (`fresh`) blank lines, and the blanks before a
command, are removed too; between two commands blank lines (`pend`) are kept. -/
def withoutComments (fresh : Bool) (pend : Bytes) : List Bytes → Bytes
  | [] => []
  | l :: ls => match lineKind l with
    | .blank => withoutComments fresh (pend ++ l) ls
    | .comment => withoutComments true [] ls
    | .command => (if fresh then l.dropWhile isBlank else pend ++ l) ++ withoutComments false [] ls

/-! ### conditional syntax -/

/-- a letter: A to Z, a to z -/
def isLetter (a : UInt8) : Bool := (65 ≤ a && a ≤ 90) || (97 ≤ a && a ≤ 122)
/-- what a target may be made of: letters, digits, '_', '-' -/
def isTargetChar (a : UInt8) : Bool := isLetter a || (48 ≤ a && a ≤ 57) || a == 95 || a == 45
/-- the target of a line (without its end): a word (which begins by a letter) followed by ':' and by nothing visible -/
def targetOf (body : Bytes) : Option Bytes := match body.dropWhile isBlank with
  | [] => none
  | c :: t =>
    if isLetter c then
      match t.dropWhile isTargetChar with
      | 58 :: m => if m.all (fun a => a == 32 || a == 9 || a == 13) then some (c :: t.takeWhile isTargetChar) else none
      | _ => none
    else none
/-- what is kept: what precedes the first target, then what follows each of the targets wanted up to the next target -/
def keptLines (targets : List Bytes) (keep : Bool) (last : Bytes) : List Bytes → Bytes
  | [] => if keep then last else []
  | l :: ls => match targetOf l.dropLast with
    | some t => keptLines targets (decide (t ∈ targets)) last ls
    | none => (if keep then l else []) ++ keptLines targets keep last ls

/-! ### pieces -/

/-- pieces of a file, one after the other from the offset `off` on, not empty, in the file below up to `lim` -/
def PiecesFrom (lim : Nat) : Nat → List Morceau → Prop
  | _, [] => True
  | off, p :: ps => p.off = off ∧ 0 < p.size ∧ p.start + p.size ≤ lim ∧ PiecesFrom lim (off + p.size) ps

/-! ### words -/

/-- a character without special meaning -/
def PlainChar (a : UInt8) : Prop := a ∉ ([32, 9, 10, 13, 34, 39, 96, 92] : Bytes)
/-- what separates words -/
def IsSep (a : UInt8) : Prop := a ∈ ([32, 9, 10, 13] : Bytes)
def IsQuote (a : UInt8) : Prop := a ∈ ([34, 39, 96] : Bytes)
/-- the inside of a word begun by `q` (a quote, or a space for a word without quotes), and what it means: a backslash before any character; a plain character; a space, inside
quotes; another pair of quotes, which is then part of the word -/
inductive WordBody : UInt8 → Bytes → Bytes → Prop
  | nil {q} : WordBody q [] []
  | esc {q a t w} (h : WordBody q t w) : WordBody q (92 :: a :: t) (a :: w)
  | raw {q a t w} (ha : PlainChar a ∨ (a = 32 ∧ q ≠ 32)) (h : WordBody q t w) : WordBody q (a :: t) (a :: w)
  | nested {q r i v t w} (hr : IsQuote r) (hne : r ≠ q) (hi : WordBody r i v) (h : WordBody q t w) : WordBody q (r :: (i ++ r :: t)) (r :: (v ++ r :: w))
/-- a text and the words it is made of -/
inductive Written : Bytes → List Bytes → Prop
  | nil : Written [] []
  | sep {a t ws} (ha : IsSep a) (h : Written t ws) : Written (a :: t) ws
  | quoted {q b w t ws} (hq : IsQuote q) (hb : WordBody q b w) (h : Written t ws) : Written (q :: (b ++ q :: t)) (w :: ws)
  | plain {a b w t ws} (ha : PlainChar a) (hb : WordBody 32 b w) (hs : t = [] ∨ ∃ c t', t = c :: t' ∧ IsSep c) (h : Written t ws) : Written (a :: (b ++ t)) ((a :: w) :: ws)
/-- a word between double quotes, a backslash before each character -/
def quotedWord (w : Bytes) : Bytes := [34] ++ w.flatMap (fun a => [92, a]) ++ [34]

/-! ### inclusions -/

/-- the options of a file once each inclusion has been replaced by the options of the file it names -/
inductive Expands (files : Bytes → Option (List ConfOpt)) : List ConfOpt → List Bytes → Prop
  | nil : Expands files [] []
  | opt {o l r} (h : Expands files l r) : Expands files (.opt o :: l) (o :: r)
  | incl {f opts l r1 r2} (hf : files f = some opts) (h1 : Expands files opts r1) (h2 : Expands files l r2) : Expands files (.incl f :: l) (r1 ++ r2)
/-- the files `names` are all those named by -B options, in the options given or in these files -/
structure NamedIn (files : Bytes → Option (List ConfOpt)) (names : List Bytes) (opts : List ConfOpt) : Prop where
  here : ∀ f, .incl f ∈ opts → f ∈ names
  inside : ∀ f l g, f ∈ names → files f = some l → .incl g ∈ l → g ∈ names

end Dar
