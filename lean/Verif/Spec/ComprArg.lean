import Verif.Model.ComprArg
import Verif.Spec.Decimal
import Verif.Spec.ToolsText
/- What the argument of -z means (C85), from the manual of dar (-z, --compression). -/
namespace Dar.Zc
open Dar

/-- the names of the algorithms (`lzop-1` … are also written `lzop1` …) -/
def names : List (String × Compr) :=
  [("gzip", .gzip), ("gz", .gzip), ("bzip2", .bzip2), ("bzip", .bzip2), ("bz", .bzip2), ("lzo", .lzo), ("lz", .lzo), ("l", .lzo), ("lzop-1", .lzo1x_1_15), ("lzop1", .lzo1x_1_15),
   ("lzop-3", .lzo1x_1), ("lzop3", .lzo1x_1), ("xz", .xz), ("lzma", .xz), ("zstd", .zstd), ("lz4", .lz4), ("none", .none)]

def Blank (c : UInt8) : Prop := c.toNat = 32 ∨ (9 ≤ c.toNat ∧ c.toNat ≤ 13)

/-- a number: digits, maybe with blanks around and a sign, less than 2^64; with `-`, what it is modulo 2^64 -/
def NumberSays (t : Bytes) (n : Nat) : Prop := ∃ before sg digits after, t = before ++ sg ++ digits ++ after ∧ (∀ c ∈ before, Blank c) ∧ (∀ c ∈ after, Blank c) ∧
  digits ≠ [] ∧ (∀ c ∈ digits, isDigitByte c) ∧ decVal digits < 2 ^ 64 ∧
  (((sg = [] ∨ sg = [43]) ∧ n = decVal digits) ∨ (sg = [45] ∧ n = (2 ^ 64 - decVal digits) % 2 ^ 64))

/-- the algorithm, gzip when it is not given -/
def AlgoSays (t : Bytes) (a : Compr) : Prop := (t = [] ∧ a = .gzip) ∨ ∃ s, (s, a) ∈ names ∧ t = asc s
/-- the level, 9 when it is not given, from 1 to 9 except for zstd -/
def LevelSays (a : Compr) (t : Bytes) (n : Nat) : Prop := (t = [] ∧ n = 9) ∨ (t ≠ [] ∧ NumberSays t n ∧ 1 ≤ n ∧ (a = .zstd ∨ n ≤ 9))
/-- the size of a block, with an optional unit, less than 2^64 -/
def SizeSays (base : Nat) (t : Bytes) (n : Nat) : Prop := n < 2 ^ 64 ∧ ((t = [] ∧ n = 0) ∨
  ∃ digits, digits ≠ [] ∧ (∀ c ∈ digits, isDigitByte c) ∧ ((t = digits ∧ n = decVal digits) ∨ ∃ u ∈ unitTable, t = digits ++ [chr u.1] ∧ n = base ^ u.2 * decVal digits))

/-- `t` is the field `z`, the last one, which may be followed by a colon -/
def Last (z t : Bytes) : Prop := 58 ∉ z ∧ ((t = z ∧ z ≠ []) ∨ t = z ++ [58])

/-- { algo | level | algo:level | algo:level:block-size } -/
def ZSays (base : Nat) (t : Bytes) (c : Comp) : Prop :=
  (t ≠ [] ∧ AlgoSays t c.algo ∧ c.level = 9 ∧ c.block = 0) ∨
  (c.algo = .gzip ∧ NumberSays t c.level ∧ c.block = 0) ∨
  (∃ x y e, t = x ++ [58] ++ e ∧ Last y e ∧ AlgoSays x c.algo ∧ LevelSays c.algo y c.level ∧ c.block = 0) ∨
  (∃ x y z e, t = x ++ [58] ++ y ++ [58] ++ e ∧ Last z e ∧ AlgoSays x c.algo ∧ LevelSays c.algo y c.level ∧ SizeSays base z c.block)

end Dar.Zc
