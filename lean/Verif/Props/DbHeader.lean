import Verif.Spec.DbHeader
import Verif.Props.Headers
import Verif.Props.DbStorage
import Verif.Props.ArchiveVersion
/- C83: the header of a database. -/
namespace Dar.Dh
open Dar

theorem rawByte_reads (b : UInt8) : ReadsAs rawByte [b] b := fun _ => rfl
theorem rawByte_safe : StreamSafe rawByte := by
  intro s v rest t h
  cases s with
  | nil => cases h
  | cons b s => cases h; rfl
theorem lift_safe {α : Type} (x : Res α) : StreamSafe (Reader.lift x) := by
  intro s v rest t h
  cases x with
  | error e => cases h
  | ok a => cases h; rfl
theorem strSize_reads (l : Bytes) : ReadsAs (getStrSize l.length) l l := by
  intro rest
  unfold getStrSize
  rw [if_pos (by simp), List.take_left, List.drop_left]
theorem strSize_safe (n : Nat) : StreamSafe (getStrSize n) := by
  intro s v rest t h
  unfold getStrSize at h ⊢
  split at h
  · rename_i hl
    cases h
    rw [if_pos (by simp; omega), List.take_append_of_le_length hl, List.drop_append_of_le_length hl]
  · cases h
theorem format_reads : ReadsAs (ArchVer.read supported) supported.dump supported := C21_roundtrip supported supported

/-- what is written is read -/
theorem head_reads (h : DbHead) (hf : Fits h) : ∃ g, Same h g ∧ ReadsAs readHead (writeHead h) g := by
  have hv : ¬ h.version > dbVersion := by
    have := hf.version.2
    exact UInt8.not_lt.2 this
  have hl : min h.level maxUI = h.level := by have := hf.level; unfold maxUI; omega
  have hcompr : ReadsAs (readCompr h.version (options h)) (if options h &&& 1 ≠ 0 then [h.algo.char] ++ putInt h.level else []) (h.algo, h.level) := by
    unfold readCompr
    by_cases h1 : options h &&& 1 ≠ 0
    · rw [if_pos h1, if_pos h1]
      refine ReadsAs.bind (rawByte_reads _) (ReadsAs.lift_bind (charCompr_char _) ?_)
      rw [if_pos hf.version.1]
      exact ReadsAs.bind_pure (getInt_putInt _) (by rw [hl])
    · rw [if_neg h1, if_neg h1]
      have : h.algo = .gzip ∧ h.level = 9 := by
        apply Classical.byContradiction
        intro hn
        apply h1
        unfold options
        rw [if_pos (by by_cases ha : h.algo = .gzip <;> simp [ha] at hn ⊢; exact hn)]
        by_cases hc : h.crypto ≠ .none
        · rw [if_pos hc]; decide
        · rw [if_neg hc]; decide
      rw [this.1, this.2]
      exact ReadsAs.pure _
  have h80 : ¬ options h &&& 0x80 ≠ 0 := by unfold options; split <;> split <;> decide
  have h2 : options h &&& 2 ≠ 0 ↔ h.crypto ≠ .none := by
    unfold options
    by_cases hc : h.crypto ≠ .none
    · rw [if_pos hc]; constructor
      · intro _; exact hc
      · intro _; split <;> decide
    · rw [if_neg hc]; constructor
      · intro hh; exfalso; revert hh; split <;> decide
      · intro hh; exact absurd hh hc
  by_cases hc : h.crypto ≠ .none
  · refine ⟨{ h with format := supported }, ⟨rfl, rfl, rfl, rfl, fun _ => rfl, fun _ => rfl, fun _ => rfl, fun _ => rfl, rfl⟩, ?_⟩
    unfold writeHead readHead
    have e : ∀ x y : Bytes, [h.version, options h] ++ x ++ y = [h.version] ++ ([options h] ++ (x ++ y)) := by intro x y; simp
    rw [e]
    refine ReadsAs.bind (rawByte_reads _) ?_
    rw [if_neg hv]
    refine ReadsAs.bind (rawByte_reads _) ?_
    rw [if_neg h80]
    refine ReadsAs.bind hcompr ?_
    rw [if_pos (h2.2 hc), if_pos hc]
    simp only [List.append_assoc]
    refine ReadsAs.bind format_reads ?_
    refine ReadsAs.bind (rawByte_reads _) (ReadsAs.lift_bind (charCrypto_char _) ?_)
    refine ReadsAs.bind (rawByte_reads _) (ReadsAs.lift_bind (charHash_char _) ?_)
    refine ReadsAs.bind (getInt_putInt _) (ReadsAs.bind (getInt_putInt _) ?_)
    rw [if_neg (by have := hf.block; omega)]
    refine ReadsAs.bind (getInt_putInt _) ?_
    exact ReadsAs.bind_pure (strSize_reads _) rfl
  · refine ⟨⟨h.version, h.algo, h.level, .none, .none, 0, 0, [], supported⟩, ⟨rfl, rfl, rfl, ?_, fun x => absurd x hc, fun x => absurd x hc, fun x => absurd x hc, fun x => absurd x hc, rfl⟩, ?_⟩
    · exact (Classical.not_not.1 hc).symm
    unfold writeHead readHead
    rw [if_neg hc, List.append_nil]
    have e : ∀ x : Bytes, [h.version, options h] ++ x = [h.version] ++ ([options h] ++ x) := by intro x; simp
    rw [e]
    refine ReadsAs.bind (rawByte_reads _) ?_
    rw [if_neg hv]
    refine ReadsAs.bind (rawByte_reads _) ?_
    rw [if_neg h80]
    refine ReadsAs.bind_pure hcompr ?_
    rw [if_neg (fun x => hc (h2.1 x))]

theorem head_safe : StreamSafe readHead := by
  unfold readHead
  refine StreamSafe.bind rawByte_safe fun v => ?_
  refine StreamSafe.ite (StreamSafe.fail _) ?_
  refine StreamSafe.bind rawByte_safe fun o => ?_
  refine StreamSafe.ite (StreamSafe.fail _) ?_
  refine StreamSafe.bind ?_ fun p => ?_
  · unfold readCompr
    refine StreamSafe.ite ?_ (StreamSafe.pure _)
    refine StreamSafe.bind rawByte_safe fun c => StreamSafe.bind (lift_safe _) fun a => ?_
    exact StreamSafe.ite (StreamSafe.bind getInt_safe fun n => StreamSafe.pure _) (StreamSafe.pure _)
  refine StreamSafe.ite ?_ (StreamSafe.pure _)
  refine StreamSafe.bind ?_ fun f => ?_
  · unfold ArchVer.read
    refine StreamSafe.bind (StreamSafe.readExact 3) fun t => ?_
    refine StreamSafe.ite (StreamSafe.ite (StreamSafe.fail _) (StreamSafe.pure _)) ?_
    exact StreamSafe.bind StreamSafe.readByte fun c => StreamSafe.ite (StreamSafe.fail _) (StreamSafe.pure _)
  refine StreamSafe.bind rawByte_safe fun c => StreamSafe.bind (lift_safe _) fun cr => ?_
  refine StreamSafe.bind rawByte_safe fun c => StreamSafe.bind (lift_safe _) fun k => ?_
  refine StreamSafe.bind getInt_safe fun n => StreamSafe.bind getInt_safe fun b => ?_
  refine StreamSafe.ite (StreamSafe.fail _) ?_
  exact StreamSafe.bind getInt_safe fun n => StreamSafe.bind (strSize_safe n) fun s => StreamSafe.pure _

/-- C83: a header written is read back the same, with all that is needed to read what follows, whatever follows. -/
theorem C83_roundtrip (h : DbHead) (hf : Fits h) : ∃ g, Same h g ∧ ∀ rest, readHead (writeHead h ++ rest) = .ok (g, rest) := head_reads h hf

/-- C83: a header that is cut is never read. -/
theorem C83_cut (h : DbHead) (hf : Fits h) (p q : Bytes) (hpq : writeHead h = p ++ q) (hq : q ≠ []) : ∃ e, readHead p = .error e := by
  obtain ⟨g, _, hr⟩ := head_reads h hf
  exact strict_prefix_error _ head_safe _ g hr p q hpq hq

/-- C83: a database made by a later version, or with an option of a later version, is refused. -/
theorem C83_later (v o : UInt8) (rest : Bytes) : (7 < v → readHead (v :: rest) = .error .range) ∧ (128 ≤ o → readHead (v :: o :: rest) = .error .range) := by
  have h1 : ∀ s, 7 < v → readHead (v :: s) = .error .range := by
    intro s hv
    unfold readHead
    rw [bind_run]
    simp only [rawByte]
    rw [if_pos (show v > dbVersion from hv)]; rfl
  refine ⟨h1 rest, fun ho => ?_⟩
  by_cases hv : 7 < v
  · exact h1 _ hv
  · unfold readHead
    rw [bind_run]
    simp only [rawByte]
    rw [if_neg (show ¬ v > dbVersion from hv), bind_run]
    show (if o &&& 0x80 ≠ 0 then (_ : Reader DbHead) else _) rest = _
    rw [if_pos]
    · rfl
    · intro h0
      have h2 : (o &&& 128).toNat = o.toNat &&& 128 := by simp
      rw [h0] at h2
      have h3 : 128 ≤ o.toNat := ho
      have h4 : o.toNat < 256 := o.toNat_lt
      have h5 : (o.toNat &&& 128) = 128 := by
        have : ∀ n < 256, 128 ≤ n → n &&& 128 = 128 := by decide +kernel
        exact this _ h4 h3
      rw [h5] at h2; simp at h2

/-- C83: whatever is asked, and in whatever order, the cipher and the derivation of the key of a new database are not weak. -/
theorem C83_strong (l : List Ask) : Strong (setAll .clear l) := by
  have key : ∀ (l : List Ask) (h : DbHead), Strong h → Strong (setAll h l) := by
    intro l
    induction l with
    | nil => intro h hs; exact hs
    | cons a l ih =>
      intro h hs
      unfold setAll
      cases hx : set h a with
      | error e => exact ih h hs
      | ok g =>
        refine ih g ?_
        cases a with
        | compression a => cases hx; exact ⟨hs.crypto, hs.hash, hs.count, hs.block⟩
        | level n => cases hx; exact ⟨hs.crypto, hs.hash, hs.count, hs.block⟩
        | crypto c =>
          simp only [set] at hx
          split at hx
          · cases hx
          · rename_i hc; cases hx; exact ⟨hc, hs.hash, hs.count, hs.block⟩
        | hash k =>
          cases k <;> simp only [set] at hx <;> cases hx
          · exact ⟨hs.crypto, .inl rfl, hs.count, hs.block⟩
          · exact ⟨hs.crypto, .inr (.inl rfl), hs.count, hs.block⟩
          · exact ⟨hs.crypto, .inr (.inr rfl), hs.count, hs.block⟩
        | count n =>
          simp only [set] at hx
          split at hx
          · cases hx
          · rename_i hc; cases hx; exact ⟨hs.crypto, hs.hash, by unfold minCount at hc; simp only; omega, hs.block⟩
        | block n =>
          simp only [set] at hx
          split at hx
          · cases hx
          · rename_i hc; cases hx; exact ⟨hs.crypto, hs.hash, hs.count, by unfold minBlock at hc; simp only; omega⟩
  exact key l .clear ⟨by decide, .inr (.inl rfl), by decide, by decide⟩

/-- C83: a database file is opened with the layers it has been made with: what was written is read, and the header tells the same. -/
theorem C83_file (L : Layers) (hL : Faithful L) (h : DbHead) (hf : Fits h) (hs : h.format = supported) (salt body : Bytes) :
    ∃ g, Same (salted h salt) g ∧ openFile L (createFile L h salt body) = .ok (g, body) := by
  obtain ⟨g, hg, hr⟩ := head_reads (salted h salt) ⟨hf.version, hf.level, hf.block⟩
  refine ⟨g, hg, ?_⟩
  unfold openFile createFile
  simp only
  rw [hr]
  have hc : g.crypto = h.crypto := hg.crypto
  have ha : g.algo = h.algo := hg.algo
  by_cases hn : h.crypto ≠ .none
  · have hk : g.key (writeHead (salted h salt)).length = (salted h salt).key (writeHead (salted h salt)).length := by
      unfold DbHead.key
      rw [hg.format, hg.crypto, hg.hash hn, hg.count hn, hg.block hn, hg.salt hn]
      have : (salted h salt).format = supported := hs
      rw [this]
    simp only [bind, Except.bind]
    rw [if_pos (show g.crypto ≠ .none by rw [hc]; exact hn), if_pos (show (salted h salt).crypto ≠ .none from hn)]
    simp only [List.length_append, Nat.add_sub_cancel]
    rw [hk, hL.ciph]
    simp only
    rw [ha]
    have : (salted h salt).algo = h.algo := rfl
    rw [this, hL.comp]
  · simp only [bind, Except.bind]
    rw [if_neg (show ¬ g.crypto ≠ .none by rw [hc]; exact hn), if_neg (show ¬ (salted h salt).crypto ≠ .none from hn)]
    rw [ha]
    have : (salted h salt).algo = h.algo := rfl
    rw [this, hL.comp]

/-- C83: a database of the current version, saved in a file and opened again, is the same. -/
theorem C83_database (L : Layers) (hL : Faithful L) (h : DbHead) (hf : Fits h) (hs : h.format = supported) (salt : Bytes) (db : Database) (depth : Nat) (hv : db.version = 7)
    (hh : h.version = 7) (hcr : db.crypto = h.crypto)
    (hc : db.coord ≠ []) (ha : ∀ a ∈ db.coord, a.Stored db.crypto) (ho : ∀ s ∈ db.options, (0 : UInt8) ∉ s) (hp : (0 : UInt8) ∉ db.darPath)
    (hr : ∃ m c s, db.files = .node pseudoRoot true m c s) (ht : db.files.Stored depth) :
    ∃ body g b, db.dump = .ok body ∧ openFile L (createFile L h salt body) = .ok (g, b) ∧ Same (salted h salt) g ∧
      dbRead (fun _ => true) g.version.toNat g.crypto depth b = .ok (db, []) := by
  obtain ⟨body, h1, h2⟩ := C31_round_trip db depth hv hc ha ho hp hr ht
  obtain ⟨g, h3, h4⟩ := C83_file L hL h hf hs salt body
  refine ⟨body, g, body, h1, h4, h3, ?_⟩
  have e1 : g.version.toNat = db.version := by rw [h3.version, hv]; show h.version.toNat = 7; rw [hh]; rfl
  have e2 : g.crypto = db.crypto := by rw [h3.crypto, hcr]; rfl
  rw [e1, e2]
  simpa using h2 []

/-! ### examples -/

def plain : Layers := ⟨fun _ _ b => b, fun _ b => .ok b, fun _ b => b, fun _ b => .ok b⟩
theorem plain_faithful : Faithful plain := ⟨fun _ _ _ => rfl, fun _ _ => rfl⟩
/-- twofish, a salt, bzip2 at level 6 -/
def example1 : DbHead := { setAll .clear [.compression .bzip2, .level 6, .crypto .twofish256, .hash .sha512, .count 20000, .crypto .scrambling, .hash .md5] with salt := [1, 2, 3] }
example : Fits example1 := ⟨by decide, by decide, by decide⟩
example : example1 = ⟨7, .bzip2, 6, .twofish256, .sha512, 20000, 10240, [1, 2, 3], supported⟩ := by decide
example : writeHead example1 = [7, 3, 121] ++ putInt 6 ++ [48, 60, 48, 0, 116, 53] ++ putInt 20000 ++ putInt 10240 ++ putInt 3 ++ [1, 2, 3] := by decide +kernel
example : readHead (writeHead example1) = .ok (example1, []) := by decide +kernel
example : (openFile plain (createFile plain example1 [7] [9, 9])) = .ok ({ example1 with salt := [7] }, [9, 9]) := by decide +kernel
/-- an empty file -/
theorem C83_empty_counterexample : readHead [] = .error .ub := rfl

/-! ### where the code departs from this -/

/-- The end of the file in the fixed part of the header is not seen: the options, or the characters of the algorithms, are then undefined. -/
theorem C83_undefined_counterexample : readHead [7] = .error .ub ∧ readHead [7, 1] = .error .ub := ⟨rfl, rfl⟩
/-- An option that does not exist is ignored, while the extension bit is refused. -/
theorem C83_option_counterexample : readHead [7, 0x40] = readHead [7, 0] := rfl
/-- Once an unencrypted database has been read, asking for a cipher alone gives a database with no key derivation and with blocks of no byte (refused when it is written). -/
theorem C83_reopened_counterexample : ∃ g, readHead (writeHead .clear) = .ok (g, []) ∧ ∃ g', set g (.crypto .aes256) = .ok g' ∧ g'.hash = .none ∧ g'.count = 0 ∧ g'.block = 0 := by
  refine ⟨_, rfl, _, rfl, rfl, rfl, rfl⟩
/-- The header of a database of version 5 or less that has been read is written with a level that is not read back: what follows is shifted. -/
theorem C83_upgrade_counterexample : ∃ h g rest, readHead [5, 1, 121] = .ok (h, []) ∧ h.version = 5 ∧ readHead (writeHead h) = .ok (g, rest) ∧ rest ≠ [] :=
  ⟨_, _, _, rfl, rfl, rfl, by decide⟩
/-- A cipher that can no longer be asked for is still accepted from a file. -/
theorem C83_weak_counterexample : ∃ g, readHead (writeHead { DbHead.clear with crypto := .scrambling, hash := .md5, count := 1, block := 1 }) = .ok (g, []) ∧ g.crypto = .scrambling := by
  refine ⟨_, rfl, rfl⟩

end Dar.Dh
