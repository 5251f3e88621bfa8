import Verif.Model.Criterium
import Verif.Spec.Decimal
/- Specification of the texts of overwriting policies and of their meaning, after the manual page of dar (option of the
overwriting policy), and of dates (option -af). -/
namespace Dar

/-- ASCII text to bytes, to write examples. -/
def asc (s : String) : Bytes := s.toList.map fun c => UInt8.ofNat c.toNat

/-! ### Conditions -/

/-- A condition as written: a letter, a letter R or r with a date between parentheses, negation, inversion, parentheses,
conjunction, disjunction. -/
inductive CondT where
  | letter (c : UInt8)
  | dated (ea : Bool) (arg : Bytes)
  | neg (e : CondT)
  | inv (e : CondT)
  | par (e : CondT)
  | conj (a b : CondT)
  | disj (a b : CondT)

/-- The text of a condition. -/
def CondT.text : CondT → Bytes
  | .letter c => [c]
  | .dated ea arg => (if ea then 114 else 82) :: 40 :: (arg ++ [41])  -- r(arg)  R(arg)
  | .neg e => 33 :: e.text                                           -- !e
  | .inv e => 126 :: e.text                                          -- ~e
  | .par e => 40 :: (e.text ++ [41])                                 -- (e)
  | .conj a b => a.text ++ 38 :: b.text                              -- a&b
  | .disj a b => a.text ++ 124 :: b.text                             -- a|b

/-- The priority of the operator at the top: disjunction, then conjunction, then everything else. -/
def CondT.level : CondT → Nat
  | .disj _ _ => 0
  | .conj _ _ => 1
  | _ => 2

/-- The letters of the manual page and the question each one asks. -/
def letterTable (hs : Nat) : List (UInt8 × Crit) :=
  [ (73, .isInode), (68, .isDir), (70, .isFile), (72, .isHardlinked), (65, .isNewHardlinked),  -- I D F H A
    (82, .dataMoreRecent hs), (66, .dataBigger), (83, .dataSaved), (89, .dataDirty), (88, .dataSparse),  -- R B S Y X
    (84, .sameType), (76, .hasDeltaSig), (80, .isBinaryPatch), (69, .sameInodeData),  -- T L P E
    (101, .eaPresent), (114, .eaMoreRecent hs), (109, .moreEa), (98, .eaBigger), (115, .eaSaved) ]  -- e r m b s

/-- The text follows the usual precedence (what binds less is between parentheses), its letters exist, and its dates are
dates; `date` tells what date a text is, if any. -/
def CondT.Ok (date : Bytes → Option Nat) : CondT → Prop
  | .letter c => ∃ q, (c, q) ∈ letterTable 0
  | .dated _ arg => arg ≠ [] ∧ (date arg).isSome
  | .neg e => e.Ok date ∧ e.level = 2
  | .inv e => e.Ok date ∧ e.level = 2
  | .par e => e.Ok date
  | .conj a b => a.Ok date ∧ b.Ok date ∧ a.level = 2 ∧ 1 ≤ b.level
  | .disj a b => a.Ok date ∧ b.Ok date ∧ 1 ≤ a.level

/-- What the condition answers about an entry in place `x` and an entry to be added `y`. -/
def CondT.holds (date : Bytes → Option Nat) (capa : TimeUnit) (hs : Nat) : CondT → CEntry → CEntry → Res Bool
  | .letter c, x, y => match (letterTable hs).lookup c with
    | some q => q.eval capa x y
    | none => .error .range
  | .dated false arg, x, y => Crit.eval capa (.dataMoreRecentThan ((date arg).getD 0) hs) x y
  | .dated true arg, x, y => Crit.eval capa (.eaMoreRecentThan ((date arg).getD 0) hs) x y
  | .neg e, x, y => (e.holds date capa hs x y).map (!·)
  | .inv e, x, y => e.holds date capa hs y x
  | .par e, x, y => e.holds date capa hs x y
  | .conj a b, x, y => do if ← a.holds date capa hs x y then b.holds date capa hs x y else return false
  | .disj a b, x, y => do if ← a.holds date capa hs x y then return true else b.holds date capa hs x y

/-- A disjunction, maybe inside parentheses. -/
def CondT.isDisj : CondT → Bool
  | .par e => e.isDisj
  | .disj _ _ => true
  | _ => false

/-- No conjunction ends with a disjunction between parentheses (for instance `I&(D|F)`; `(D|F)&I` is fine). -/
def CondT.Safe : CondT → Prop
  | .letter _ => True
  | .dated _ _ => True
  | .neg e => e.Safe
  | .inv e => e.Safe
  | .par e => e.Safe
  | .conj a b => a.Safe ∧ b.Safe ∧ b.isDisj = false
  | .disj a b => a.Safe ∧ b.Safe

/-! ### Actions -/

/-- The letters of the actions on data and on EA. -/
def dataLetter : OverData → UInt8
  | .preserve => 80 | .overwrite => 79 | .preserveMark => 83 | .overwriteMark => 84   -- P O S T
  | .remove => 82 | .undefined => 42 | .ask => 65                                     -- R * A
def eaLetter : OverEa → UInt8
  | .preserve => 112 | .overwrite => 111 | .preserveMark => 115 | .overwriteMark => 116  -- p o s t
  | .mergePreserve => 109 | .mergeOverwrite => 110 | .clear => 114                       -- m n r
  | .undefined => 42 | .ask => 97                                                        -- * a

/-- An action as written: two letters; a condition with an action of two letters between brackets, possibly followed by
what to do otherwise. -/
inductive ActT where
  | two (d : OverData) (e : OverEa)
  | cond (c : CondT) (d : OverData) (e : OverEa)
  | condElse (c : CondT) (d : OverData) (e : OverEa) (other : ActT)

def ActT.text : ActT → Bytes
  | .two d e => [dataLetter d, eaLetter e]
  | .cond c d e => 123 :: (c.text ++ [125, 91, dataLetter d, eaLetter e, 93])                       -- {c}[de]
  | .condElse c d e o => 123 :: (c.text ++ [125, 91, dataLetter d, eaLetter e, 93]) ++ o.text       -- {c}[de]o

def ActT.Ok (date : Bytes → Option Nat) : ActT → Prop
  | .two _ _ => True
  | .cond c _ _ => c.Ok date
  | .condElse c _ _ o => c.Ok date ∧ o.Ok date

def ActT.Safe : ActT → Prop
  | .two _ _ => True
  | .cond c _ _ => c.Safe
  | .condElse c _ _ o => c.Safe ∧ o.Safe

/-- The pair of actions on which an expression decides. -/
def ActT.result (date : Bytes → Option Nat) (capa : TimeUnit) (hs : Nat) (x y : CEntry) : ActT → Res (OverData × OverEa)
  | .two d e => .ok (d, e)
  | .cond c d e => do if ← c.holds date capa hs x y then return (d, e) else return (.undefined, .undefined)
  | .condElse c d e o => do if ← c.holds date capa hs x y then return (d, e) else o.result date capa hs x y

/-- A policy: expressions separated by semicolons. -/
def policyText : List ActT → Bytes
  | [] => []
  | [a] => a.text
  | a :: l => a.text ++ 59 :: policyText l

/-- "evaluated in turn up to the time the couple of action is fully defined.  Once an action is defined, it can be
redefined by a subsequent evaluation in the chain, however it cannot be set back to undefined" -/
def chainResult (results : List (Res (OverData × OverEa))) : OverData × OverEa → Res (OverData × OverEa)
  | (d, e) => match results with
    | [] => .ok (d, e)
    | r :: l =>
      if d ≠ .undefined ∧ e ≠ .undefined then .ok (d, e)
      else do
        let (d', e') ← r
        chainResult l (if d' = .undefined then d else d', if e' = .undefined then e else e')

def policyResult (date : Bytes → Option Nat) (capa : TimeUnit) (hs : Nat) (x y : CEntry) (p : List ActT) : Res (OverData × OverEa) :=
  chainResult (p.map (ActT.result date capa hs x y)) (.undefined, .undefined)

/-- Blank characters may be put anywhere. -/
def notBlank (c : UInt8) : Bool := !(c = 32 || c = 9 || c = 10 || c = 13)

/-! ### Dates -/

/-- A date as written: `[[[year/]month/]day-]hour:minute[:second]`, each field by its digits. -/
structure DateT' where
  date : Option (Option (Option Bytes × Bytes) × Bytes)   -- [[year/]month/]day
  hour : Bytes
  minute : Bytes
  second : Option Bytes

/-- `[:second]` -/
def secondText : Option Bytes → Bytes
  | none => []
  | some s => 58 :: s

def DateT'.text (t : DateT') : Bytes :=
  (match t.date with
   | none => []
   | some (none, d) => d ++ [45]
   | some (some (none, m), d) => m ++ 47 :: d ++ [45]
   | some (some (some y, m), d) => y ++ 47 :: m ++ 47 :: d ++ [45]) ++
  t.hour ++ 58 :: t.minute ++ secondText t.second

def DateT'.year (t : DateT') : Option Bytes := t.date.bind fun p => p.1.bind fun q => q.1
def DateT'.month (t : DateT') : Option Bytes := t.date.bind fun p => p.1.map fun q => q.2
def DateT'.day (t : DateT') : Option Bytes := t.date.map fun p => p.2

/-- A number written in digits (leading zeros allowed) lies in an interval. -/
def NumIn (lo hi : Nat) (s : Bytes) : Prop := s ≠ [] ∧ (∀ c ∈ s, isDigitByte c) ∧ lo ≤ decVal s ∧ decVal s ≤ hi

/-- Each field is a number in its range; years up to what fits in a signed 32 bits integer. -/
structure DateT'.Ok (t : DateT') : Prop where
  year : ∀ y, t.year = some y → NumIn 1970 (2 ^ 31 - 1) y
  month : ∀ y, t.month = some y → NumIn 1 12 y
  day : ∀ y, t.day = some y → NumIn 1 31 y
  hour : NumIn 0 23 t.hour
  minute : NumIn 0 59 t.minute
  second : ∀ y, t.second = some y → NumIn 0 59 y

end Dar
