import Verif.Model.Basic
/- PBKDF2 as RFC 8018 (PKCS #5 v2.1), section 5.2, defines it; `prf`: the pseudo random function keyed by the password, of `hLen` bytes. -/
namespace Dar

/-- INT (i): the four bytes of i, most significant first -/
def rfcInt (i : Nat) : Bytes := [24, 16, 8, 0].map fun s => UInt8.ofNat (i >>> s)
/-- `rfcU prf salt i c` is U_(c+1): U_1 = PRF (S || INT (i)), U_(c+1) = PRF (U_c) -/
def rfcU (prf : Bytes → Bytes) (salt : Bytes) (i : Nat) : Nat → Bytes
  | 0 => prf (salt ++ rfcInt i)
  | c + 1 => prf (rfcU prf salt i c)
/-- `rfcF prf salt i c` is F (P, S, c+1, i) = U_1 xor U_2 xor ... xor U_(c+1) -/
def rfcF (prf : Bytes → Bytes) (salt : Bytes) (i : Nat) : Nat → Bytes
  | 0 => rfcU prf salt i 0
  | c + 1 => (rfcF prf salt i c).zipWith (· ^^^ ·) (rfcU prf salt i (c + 1))
/-- DK: the first `dkLen` bytes of T_1 || T_2 || ... || T_l, with l = CEIL (dkLen / hLen), T_i = F (P, S, c, i); `c` is the number of iterations, at least 1 -/
def rfcPbkdf2 (prf : Bytes → Bytes) (hLen : Nat) (salt : Bytes) (c dkLen : Nat) : Bytes :=
  ((List.range ((dkLen + hLen - 1) / hLen)).flatMap fun k => rfcF prf salt (k + 1) (c - 1)).take dkLen

end Dar
