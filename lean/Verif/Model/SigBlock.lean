import Verif.Model.ToolsText
import Verif.Model.MountPoints
/- Model of the block size of delta signatures: src/libdar/delta_sig_block_size.{hpp,cpp}, the logarithm and roots of src/libdar/tools.cpp, and the option
--delta sig:... of dar. -/
namespace Dar.Sb
open Dar

/-- fs_function_t, src/libdar/delta_sig_block_size.hpp:53-63 -/
inductive Fn
  | fixed | linear | log2 | root2 | root3
  deriving DecidableEq, Repr

/-- the fields of delta_sig_block_size, src/libdar/delta_sig_block_size.hpp:65-69 -/
structure Sig where
  fn : Fn
  mult : Nat
  dvs : Nat
  lo : Nat
  hi : Nat
  deriving DecidableEq, Repr

/-- RS_DEFAULT_BLOCK_LEN, src/libdar/delta_sig_block_size.hpp:37-39 -/
def defaultLen : Nat := 2048

/-- reset, src/libdar/delta_sig_block_size.cpp:41-48 -/
def Sig.reset : Sig := ⟨.root2, 1, 1, defaultLen, 64 * defaultLen⟩

/-- check, src/libdar/delta_sig_block_size.cpp:59-65 -/
def Sig.check (s : Sig) : Res Unit :=
  if s.dvs = 0 then .error .range
  else if s.hi ≠ 0 ∧ s.lo > s.hi then .error .range
  else .ok ()

/-- the loop of tools_upper_rounded_log2, src/libdar/tools.cpp:2393-2397; the first argument bounds the number of turns (there are at most as many as `tmp`) -/
def bitsLoop : Nat → Nat → Nat → Nat
  | 0, _, ret => ret
  | f + 1, tmp, ret => if tmp = 0 then ret else bitsLoop f (tmp / 2) (ret + 1)
/-- tools_upper_rounded_log2, src/libdar/tools.cpp:2388-2400 -/
def bits (x : Nat) : Nat := bitsLoop x x 0
/-- tools_lower_rounded_exp2, src/libdar/tools.cpp:2402-2405 -/
def exp2 (x : Nat) : Nat := 1 <<< x
/-- tools_rounded_square_root, src/libdar/tools.cpp:2407-2410 -/
def root2 (x : Nat) : Nat := exp2 (bits x / 2)
/-- tools_rounded_cube_root, src/libdar/tools.cpp:2412-2415 -/
def root3 (x : Nat) : Nat := exp2 (bits x / 3)

/-- operator *= of the integers: unbounded, or limited to `lim` (limitint: Elimitint when the result is larger) -/
def mul (lim : Option Nat) (a b : Nat) : Res Nat := match lim with
  | none => .ok (a * b)
  | some m => if a * b > m then .error .limitint else .ok (a * b)

/-- unstack to a U_I (a size_t of 64 bits) that was zero: the most it can carry -/
def unstackUI (v : Nat) : Nat := min v (2 ^ 64 - 1)

/-- what the multiplier is multiplied by, src/libdar/delta_sig_block_size.cpp:72-90; none: nothing -/
def Sig.factor (s : Sig) (filesize : Nat) : Option Nat := match s.fn with
  | .fixed => none
  | .linear => some filesize
  | .log2 => some (bits filesize)
  | .root2 => some (root2 filesize)
  | .root3 => some (root3 filesize)

/-- calculate, src/libdar/delta_sig_block_size.cpp:67-109 -/
def Sig.calculate (lim : Option Nat) (s : Sig) (filesize : Nat) : Res Nat := do
  let val ← match s.factor filesize with
    | none => .ok s.mult
    | some f => mul lim s.mult f
  if s.dvs = 0 then .error .infinint
  else
    let ret := unstackUI (val / s.dvs)
    let ret := if ret < s.lo then s.lo else ret
    let ret := if s.hi > 0 ∧ ret > s.hi then s.hi else ret
    .ok ret

/-! ### the option of dar -/

/-- the texts of the names -/
def asc (s : String) : Bytes := s.toList.map (fun c => UInt8.ofNat c.toNat)
/-- line_tools_string_to_sig_block_size_function, src/dar_suite/line_tools.cpp:1748-1761 -/
def fnOfText (t : Bytes) : Res Fn :=
  if t = asc "fixed" then .ok .fixed
  else if t = asc "linear" then .ok .linear
  else if t = asc "log2" then .ok .log2
  else if t = asc "square2" ∨ t = asc "root2" then .ok .root2
  else if t = asc "square3" ∨ t = asc "root3" then .ok .root3
  else .error .range

/-- rsync_sig_magic, without `none` -/
inductive Magic | blake2 | rkBlake2 | md4
  deriving DecidableEq, Repr
/-- default_sig_magic, src/libdar/archive_options.hpp:52 -/
def Magic.dflt : Magic := .rkBlake2

/-- a size of block, src/dar_suite/command_line.cpp:2119-2125 and 2130-2136: what is too large is refused -/
def lenOfText (base : Nat) (t : Bytes) : Res Nat := do
  let v ← extendedSize t base
  if v - unstackUI v ≠ 0 then .error .range else .ok (unstackUI v)

/-- the hash, and nothing more: src/dar_suite/command_line.cpp:2140-2151; `magic`: string_to_rsync_sig_magic -/
def parseHash (magic : Bytes → Option Magic) (s : Sig) : List Bytes → Res (Sig × Magic)
  | [] => .ok (s, Magic.dflt)
  | h :: l => match magic h with
    | none => .error .range
    | some m => if l = [] then .ok (s, m) else .error .range
/-- max, src/dar_suite/command_line.cpp:2128-2137 -/
def parseHi (magic : Bytes → Option Magic) (base : Nat) (s : Sig) : List Bytes → Res (Sig × Magic)
  | [] => parseHash magic s []
  | t :: l => do parseHash magic { s with hi := ← lenOfText base t } l
/-- min, src/dar_suite/command_line.cpp:2117-2126 -/
def parseLo (magic : Bytes → Option Magic) (base : Nat) (s : Sig) : List Bytes → Res (Sig × Magic)
  | [] => parseHi magic base s []
  | t :: l => do parseHi magic base { s with lo := ← lenOfText base t } l
/-- divisor, src/dar_suite/command_line.cpp:2111-2115 -/
def parseDiv (magic : Bytes → Option Magic) (base : Nat) (s : Sig) : List Bytes → Res (Sig × Magic)
  | [] => parseLo magic base s []
  | t :: l => do parseLo magic base { s with dvs := ← extendedSize t base } l
/-- the function and the multiplier, src/dar_suite/command_line.cpp:2098-2108 -/
def parseFn (magic : Bytes → Option Magic) (base : Nat) (s : Sig) : List Bytes → Res (Sig × Magic)
  | [] => .error .range
  | f :: l => do
    let fn ← fnOfText f
    match l with
    | [] => .error .range
    | t :: l => parseDiv magic base { s with fn := fn, mult := ← extendedSize t base } l
/-- "--delta sig:...", given once, then set_sig_block_len: src/dar_suite/command_line.cpp:2083-2154, src/libdar/archive_options.hpp:597; `arg` begins with "sig:" -/
def parseSig (magic : Bytes → Option Magic) (base : Nat) (arg : Bytes) : Res (Sig × Magic) := do
  let r ← parseFn magic base Sig.reset ((Mp.split 58 arg).drop 1)
  r.1.check
  .ok r

end Dar.Sb
