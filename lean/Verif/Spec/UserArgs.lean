import Verif.Model.UserArgs
import Verif.Spec.Decimal
/- What the arguments made of several fields mean (C82), from the manual of dar. -/
namespace Dar.Ua
open Dar

/-! ### proto://[login[:password]@]hostname[:port]/path -/

/-- the text `t` tells the login `v`: a backslash gives the character that follows; `@`, `:` and `/` only this way -/
inductive Login : Bytes → Bytes → Prop
  | nil : Login [] []
  | esc (c : UInt8) (t v : Bytes) : Login t v → Login (92 :: c :: t) (c :: v)
  | plain (c : UInt8) (t v : Bytes) : c ≠ 64 → c ≠ 58 → c ≠ 47 → c ≠ 92 → Login t v → Login (c :: t) (c :: v)

/-- without `@`, `:` and `/` -/
def Clean (t : Bytes) : Prop := ∀ c ∈ t, c ≠ 64 ∧ c ≠ 58 ∧ c ≠ 47

/-- [:port]/path; a port that is not given is empty, a path that is not given is "/" -/
def Tail (port path t : Bytes) : Prop := ∃ rest, path = (if rest = [] then [47] else rest) ∧
  ((port = [] ∧ t = [47] ++ rest) ∨ (Clean port ∧ t = [58] ++ port ++ [47] ++ rest))

/-- the URL `t` says `u` -/
def UrlSays (t : Bytes) (u : Url) : Prop := Clean u.proto ∧ u.host ≠ [] ∧ ∃ l tail, t = u.proto ++ [58, 47, 47] ++ l ++ tail ∧ Tail u.port u.path tail ∧
  -- hostname
  ((u.login = [] ∧ u.pass = [] ∧ Login l u.host) ∨
  -- login@hostname
  (u.pass = [] ∧ Clean u.host ∧ ∃ e, Login e u.login ∧ l = e ++ [64] ++ u.host) ∨
  -- login:password@hostname
  (Clean u.pass ∧ Clean u.host ∧ ∃ e, Login e u.login ∧ l = e ++ [58] ++ u.pass ++ [64] ++ u.host))

/-! ### the others -/

/-- a number that may be left out -/
def Field (t : Bytes) (n : Nat) : Prop := (∀ c ∈ t, isDigitByte c) ∧ n = decVal t
/-- num[,num ref[,num aux]] -/
def DigitsSay (t : Bytes) (r : Nat × Nat × Nat) : Prop :=
  (Field t r.1 ∧ r.2 = (0, 0)) ∨
  (∃ a b, t = a ++ [44] ++ b ∧ Field a r.1 ∧ Field b r.2.1 ∧ r.2.2 = 0) ∨
  (∃ a b c, t = a ++ [44] ++ b ++ [44] ++ c ∧ Field a r.1 ∧ Field b r.2.1 ∧ Field c r.2.2)

/-- count[:max-byte] -/
def RetrySays (t : Bytes) (r : Nat × Nat) : Prop :=
  (t ≠ [] ∧ Field t r.1 ∧ r.2 = 0) ∨ (∃ a b, t = a ++ [58] ++ b ∧ a ≠ [] ∧ b ≠ [] ∧ Field a r.1 ∧ Field b r.2)

/-- perm[:user[:group]] -/
def ModeSays (t : Bytes) (r : Bytes × Bytes × Bytes) : Prop :=
  58 ∉ r.1 ∧ ((t = r.1 ∧ r.2 = ([], [])) ∨ (58 ∉ r.2.1 ∧ r.2.2 = [] ∧ t = r.1 ++ [58] ++ r.2.1) ∨ (58 ∉ r.2.1 ∧ t = r.1 ++ [58] ++ r.2.1 ++ [58] ++ r.2.2))

/-- the names of the ciphers -/
def cipherNames : List (String × CryptoAlgo) :=
  [("none", .none), ("scrambling", .scrambling), ("scram", .scrambling), ("blowfish", .blowfish), ("bf", .blowfish), ("aes", .aes256), ("aes256", .aes256), ("twofish", .twofish256),
   ("twofish256", .twofish256), ("serpent", .serpent256), ("serpent256", .serpent256), ("camellia", .camellia256), ("camellia256", .camellia256)]

/-- texts with a comma between -/
def joined : List Bytes → Bytes
  | [] => []
  | [r] => r
  | r :: rs => r ++ [44] ++ joined rs

end Dar.Ua
