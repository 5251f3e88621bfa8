import Verif.Model.Basic
/- What the argument of -[ and -] says (C84): man/dar.1:382, and the usual escape sequences of C. -/
namespace Dar.Eo
open Dar

/-- \' \" \\ \n \r \t \b \f \v -/
def letters : List (UInt8 × UInt8) := [(39, 39), (34, 34), (92, 92), (110, 10), (114, 13), (116, 9), (98, 8), (102, 12), (118, 11)]
def Octal (c : UInt8) : Prop := 48 ≤ c ∧ c ≤ 55
/-- the value of a hexadecimal digit (the letter a is not one for dar: C84_hexa_counterexample) -/
def hexVal : List (UInt8 × Nat) := [(48, 0), (49, 1), (50, 2), (51, 3), (52, 4), (53, 5), (54, 6), (55, 7), (56, 8), (57, 9), (65, 10), (66, 11), (67, 12), (68, 13), (69, 14), (70, 15),
  (98, 11), (99, 12), (100, 13), (101, 14), (102, 15)]
def octVal (ds : Bytes) : Nat := ds.foldl (fun n c => n * 8 + (c.toNat - 48)) 0

/-- the text `t`, where a backslash begins an escape sequence, stands for `v` -/
inductive Says : Bytes → Bytes → Prop
  | nil : Says [] []
  | plain {c t v} : c ≠ 92 → Says t v → Says (c :: t) (c :: v)
  | letter {c x t v} : (c, x) ∈ letters → Says t v → Says (92 :: c :: t) (x :: v)
  /-- \0 then up to three octal digits, as many as there are -/
  | octal {ds t v} : (∀ d ∈ ds, Octal d) → ds.length ≤ 3 → (ds.length = 3 ∨ ∀ c ∈ t.head?, ¬ Octal c) → ds ++ t ≠ [] → Says t v → Says ([92, 48] ++ ds ++ t) (UInt8.ofNat (octVal ds) :: v)
  | hexa {a b x y t v} : (a, x) ∈ hexVal → (b, y) ∈ hexVal → Says t v → Says ([92, 120, a, b] ++ t) (UInt8.ofNat (x * 16 + y) :: v)

/-- `t` is the text `p` where each comma is preceded by a backslash (in `p` each backslash goes with the character that follows) -/
inductive Written : Bytes → Bytes → Prop
  | nil : Written [] []
  | plain {c p t} : c ≠ 92 → c ≠ 44 → Written p t → Written (c :: p) (c :: t)
  | comma {p t} : Written p t → Written (44 :: p) (92 :: 44 :: t)
  | pair {c p t} : c ≠ 44 → Written p t → Written (92 :: c :: p) (92 :: c :: t)

/-- `t` tells the sequence `v` -/
def Tells (t v : Bytes) : Prop := ∃ p, Written p t ∧ Says p v

/-- texts with a comma between -/
def commas : List Bytes → Bytes
  | [] => []
  | [r] => r
  | r :: rs => r ++ [44] ++ commas rs

end Dar.Eo
