import Verif.Model.DbHeader
/- What is expected of the header of a database (C83). -/
namespace Dar.Dh
open Dar

/-- what the header tells is kept: the compression and its level, the encryption; and, when there is one, all that is needed to derive the key and to read the blocks.  The password is not
kept. -/
structure Same (h g : DbHead) : Prop where
  version : g.version = h.version
  algo : g.algo = h.algo
  level : g.level = h.level
  crypto : g.crypto = h.crypto
  hash : h.crypto ≠ .none → g.hash = h.hash
  count : h.crypto ≠ .none → g.count = h.count
  block : h.crypto ≠ .none → g.block = h.block
  salt : h.crypto ≠ .none → g.salt = h.salt
  format : g.format = supported

/-- values that fit in their machine type -/
structure Fits (h : DbHead) : Prop where
  version : 5 < h.version ∧ h.version ≤ 7
  level : h.level < 2 ^ 64
  block : h.block < 2 ^ 32

/-- the layers give back what they were given -/
structure Faithful (L : Layers) : Prop where
  comp : ∀ a n b, L.decomp a (L.comp a n b) = .ok b
  ciph : ∀ k b, L.deciph k (L.ciph k b) = .ok b

/-- a key derivation and a cipher that are not weak -/
structure Strong (h : DbHead) : Prop where
  crypto : h.crypto ≠ .scrambling
  hash : h.hash = .sha512 ∨ h.hash = .argon2 ∨ h.hash = .whirlpool
  count : 10000 ≤ h.count
  block : 10240 ≤ h.block

end Dar.Dh
