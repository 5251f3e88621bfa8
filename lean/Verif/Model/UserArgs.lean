import Verif.Model.Deci
import Verif.Model.Database
import Verif.Model.MountPoints
/- Model of how dar reads the arguments made of several fields: the URL of a remote repository, --min-digits, --slice-mode, --retry-on-change and -K, -J, -$
(src/dar_suite/line_tools.cpp). -/
namespace Dar.Ua
open Dar

/-! ### the URL of a repository -/

/-- what line_tools_split_entrepot_path sets -/
structure Url where
  proto : Bytes := []
  login : Bytes := []
  pass : Bytes := []
  host : Bytes := []
  port : Bytes := []
  path : Bytes := []
  deriving DecidableEq, Repr

/-- s_path, to the end, and the checks that follow: src/dar_suite/line_tools.cpp:1122-1126 and 1136-1149 (what has been read last is the `/` when nothing is left) -/
def urlPath (u : Url) (l : Bytes) : Option Url := if u.host = [] then none else some { u with path := if l = [] then [47] else l }
/-- s_port, src/dar_suite/line_tools.cpp:1104-1121 -/
def urlPort (u : Url) : Bytes → Option Url
  | [] => none
  | c :: l => if c = 64 ∨ c = 58 then none else if c = 47 then urlPath u l else urlPort { u with port := u.port ++ [c] } l
/-- s_hote, src/dar_suite/line_tools.cpp:1083-1103 -/
def urlHost (u : Url) : Bytes → Option Url
  | [] => none
  | c :: l => if c = 64 then none else if c = 47 then urlPath u l else if c = 58 then urlPort u l else urlHost { u with host := u.host ++ [c] } l
/-- s_pass, src/dar_suite/line_tools.cpp:1056-1082; `w`: what is between ref_cur and cursor -/
def urlPass (u : Url) (w : Bytes) : Bytes → Option Url
  | [] => none
  | c :: l =>
    if c = 64 then urlHost { u with pass := w } l
    else if c = 47 then urlPath { u with host := u.login, port := w, login := [], pass := [] } l
    else if c = 58 then none
    else urlPass u (w ++ [c]) l
/-- s_login and s_login_escape, src/dar_suite/line_tools.cpp:1024-1055 -/
def urlLogin (u : Url) : Bytes → Option Url
  | [] => none
  | c :: l =>
    if c = 64 then urlHost u l
    else if c = 58 then urlPass u [] l
    else if c = 47 then urlPath { u with host := u.login, login := [] } l
    else if c = 92 then match l with
      | [] => none
      | d :: l => urlLogin { u with login := u.login ++ [d] } l
    else urlLogin { u with login := u.login ++ [c] } l
/-- s_proto, src/dar_suite/line_tools.cpp:990-1023; after the last character of the text c_str() has a zero -/
def urlProto (u : Url) : Bytes → Option Url
  | [] => none
  | c :: l =>
    if c = 58 then match l with
      | d :: e :: l => if d = 47 ∧ e = 47 then urlLogin u l else none
      | _ => none
    else if c = 47 ∨ c = 64 then none
    else urlProto { u with proto := u.proto ++ [c] } l
/-- line_tools_split_entrepot_path, src/dar_suite/line_tools.cpp:980-1153 (none: false is returned) -/
def parseUrl (all : Bytes) : Option Url := urlProto {} all

/-! ### numbers and names separated by a character -/

/-- a number: deci then computer; an Edeci becomes an Erange -/
def number (t : Bytes) : Res Nat := match deciOfText t with
  | .ok d => .ok (deciComputer d)
  | .error _ => .error .range
/-- what precedes the first `sep`, and what follows it when there is one: line_tools_find_first_char_of, src/dar_suite/line_tools.cpp:923-931, and the loops that do the same -/
def cutAt (sep : UInt8) : Bytes → Bytes × Option Bytes
  | [] => ([], none)
  | c :: l => if c = sep then ([], some l) else (c :: (cutAt sep l).1, (cutAt sep l).2)

/-- a number that may be left out, src/dar_suite/line_tools.cpp:543-551, 561-570, 578-586 -/
def orZero (t : Bytes) : Res Nat := if t = [] then .ok 0 else number t
/-- the second number and what follows, src/dar_suite/line_tools.cpp:555-587 -/
def minDigits2 (t : Bytes) : Res (Nat × Nat) :=
  if t = [] then .ok (0, 0) else match cutAt 44 t with
    | (a, none) => do .ok (← number a, 0)
    | (a, some l) => do
      let n ← orZero a
      .ok (n, ← orZero l)
/-- line_tools_get_min_digits, src/dar_suite/line_tools.cpp:523-594 -/
def minDigits (t : Bytes) : Res (Nat × Nat × Nat) :=
  if t = [] then .ok (0, 0, 0) else match cutAt 44 t with
    | (a, none) => do .ok (← number a, 0, 0)
    | (a, some l) => do
      let n ← orZero a
      .ok (n, ← minDigits2 l)

/-- line_tools_slice_ownership, src/dar_suite/line_tools.cpp:181-211: permission, user, group -/
def sliceMode (t : Bytes) : Bytes × Bytes × Bytes := match cutAt 58 t with
  | (p, none) => (p, [], [])
  | (p, some l) => match cutAt 58 l with
    | (u, none) => (p, u, [])
    | (u, some g) => (p, u, g)

/-- line_tools_repeat_param, src/dar_suite/line_tools.cpp:213-249: count, bytes -/
def retry (t : Bytes) : Res (Nat × Nat) := match cutAt 58 t with
  | (a, none) => do .ok (← number a, ← number [48])
  | (a, some l) => do
    let n ← number a
    .ok (n, ← number l)

/-! ### -K -/

def asc (s : String) : Bytes := s.toList.map (fun c => UInt8.ofNat c.toNat)
/-- line_tools_crypto_string_to_crypto_algo, src/dar_suite/line_tools.cpp:754-782 -/
def cipherOf (t : Bytes) : Res CryptoAlgo :=
  if t = asc "scrambling" ∨ t = asc "scram" then .ok .scrambling
  else if t = asc "none" then .ok .none
  else if t = asc "blowfish" ∨ t = asc "bf" then .ok .blowfish
  else if t = asc "aes" ∨ t = asc "aes256" then .ok .aes256
  else if t = asc "twofish" ∨ t = asc "twofish256" then .ok .twofish256
  else if t = asc "serpent" ∨ t = asc "serpent256" then .ok .serpent256
  else if t = asc "camellia" ∨ t = asc "camellia256" then .ok .camellia256
  else .error .range

/-- what line_tools_crypto_split_algo_pass sets (noCipher: not set when the argument is empty, here false) -/
structure Key where
  algo : CryptoAlgo
  pass : Bytes
  noCipher : Bool
  recipients : List Bytes
  deriving DecidableEq, Repr

/-- line_tools_crypto_split_algo_pass, src/dar_suite/line_tools.cpp:785-848; the first argument bounds the number of nested calls, each made on a shorter text -/
def keyLoop : Nat → Bytes → Res Key
  | 0, _ => .ok ⟨.none, [], false, []⟩
  | f + 1, all =>
    if all = [] then .ok ⟨.none, [], false, []⟩
    else match cutAt 58 all with
      | (_, none) => .ok ⟨.aes256, all, true, []⟩
      | (a, some l) =>
        if a = [] then .ok ⟨.aes256, l, true, []⟩
        else if a ≠ asc "gnupg" then do .ok ⟨← cipherOf a, l, false, []⟩
        else do
          let k ← keyLoop f l
          .ok { k with pass := [], recipients := Mp.split 44 k.pass }
def parseKey (all : Bytes) : Res Key := keyLoop all.length all

end Dar.Ua
