import Verif.Model.MountPoints
import Verif.Model.Headers
import Verif.Model.ToolsText
/- Model of how the argument of -z is understood: src/dar_suite/line_tools.cpp, and of the numbers read by tools_str2int. -/
namespace Dar.Zc
open Dar

/-! ### numbers read from a stream -/

/-- what operator >> skips -/
def blank (c : UInt8) : Bool := (9 ≤ c && c ≤ 13) || c == 32
def digit (c : UInt8) : Bool := 48 ≤ c && c ≤ 57
/-- the value of digits -/
def value (d : Bytes) : Nat := d.foldl (fun a c => a * 10 + (c.toNat - 48)) 0
/-- the sign that operator >> accepts -/
def sign : Bytes → Bool × Bytes
  | [] => (false, [])
  | c :: l => if c = 45 then (true, l) else if c = 43 then (false, l) else (false, c :: l)
/-- tools_str2int, src/libdar/tools.cpp:480-495, and tools_my_atoi, src/libdar/tools.cpp:2362-2374: the number (U_I has 64 bits: a number with `-` is taken modulo 2^64, one that is too large is refused),
then a word, which must be absent -/
def str2int (t : Bytes) : Option Nat :=
  let s := sign (t.dropWhile blank)
  let d := s.2.takeWhile digit
  if d = [] then none
  else if 2 ^ 64 ≤ value d then none
  else if (s.2.dropWhile digit).dropWhile blank = [] then some (if s.1 then (2 ^ 64 - value d) % 2 ^ 64 else value d)
  else none

/-! ### -z -/

/-- a word of the C++ source -/
def asc (s : String) : Bytes := s.toList.map (fun c => UInt8.ofNat c.toNat)
/-- string2compression, src/libdar/compression.cpp:134-164 -/
def compr (a : Bytes) : Res Compr :=
  if a = asc "gzip" ∨ a = asc "gz" then .ok .gzip
  else if a = asc "bzip2" ∨ a = asc "bzip" ∨ a = asc "bz" then .ok .bzip2
  else if a = asc "lzo" ∨ a = asc "lz" ∨ a = asc "l" then .ok .lzo
  else if a = asc "lzop-1" ∨ a = asc "lzop1" then .ok .lzo1x_1_15
  else if a = asc "lzop-3" ∨ a = asc "lzop3" then .ok .lzo1x_1
  else if a = asc "xz" ∨ a = asc "lzma" then .ok .xz
  else if a = asc "zstd" then .ok .zstd
  else if a = asc "lz4" then .ok .lz4
  else if a = asc "none" then .ok .none
  else .error .range
/-- the first field of two or three, src/dar_suite/line_tools.cpp:1797-1800 and 1813-1816 -/
def algoOf (t : Bytes) : Res Compr := if t = [] then .ok .gzip else compr t
/-- the second one, src/dar_suite/line_tools.cpp:1802-1808 and 1818-1824 -/
def levelOf (a : Compr) (t : Bytes) : Res Nat :=
  if t = [] then .ok 9
  else match str2int t with
    | none => .error .range
    | some v => if (v > 9 ∧ a ≠ .zstd) ∨ v < 1 then .error .range else .ok v
/-- the third one, src/dar_suite/line_tools.cpp:1826-1830 -/
def blockOf (base : Nat) (t : Bytes) : Res Nat := do
  let v ← extendedSize t base
  if v < 2 ^ 64 then .ok v else .error .range

/-- what -z sets -/
structure Comp where
  algo : Compr
  level : Nat
  block : Nat
  deriving DecidableEq, Repr

/-- only one field, src/dar_suite/line_tools.cpp:1777-1795 -/
def oneField (t : Bytes) : Res Comp :=
  match str2int t with
  | some v => .ok ⟨.gzip, v, 0⟩
  | none => do .ok ⟨← compr t, 9, 0⟩
/-- line_tools_split_compression_algo, src/dar_suite/line_tools.cpp:1763-1836 -/
def parseZ (base : Nat) (t : Bytes) : Res Comp :=
  match Mp.split 58 t with
  | [_] => oneField t
  | [x, y] => do
    let a ← algoOf x
    let l ← levelOf a y
    .ok ⟨a, l, 0⟩
  | [x, y, z] => do
    let a ← algoOf x
    let l ← levelOf a y
    let b ← blockOf base z
    .ok ⟨a, l, b⟩
  | _ => .error .range

/-- the check made when an archive is about to be created, src/libdar/i_archive.cpp:2192-2193 -/
def createCheck (c : Comp) : Res Comp := if (c.level > 9 ∧ c.algo ≠ .zstd) ∨ c.level < 1 then .error .libcall else .ok c

end Dar.Zc
