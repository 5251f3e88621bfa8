import Verif.Props.DbOrder
import Verif.Props.Database
/- Cases for C53, and what the code does not do. -/
namespace Dar

def dt (n : Nat) : DateT := ⟨n, .s⟩
def exDbInode (mtime ctime : Nat) (ea : EaStatus) : InodeB :=
  ⟨0, 0, 0o644, dt mtime, dt mtime, dt ctime, ea, none, none, none, .none, none, none, none, none⟩
def exDbCrc (b : UInt8) : Crc := ⟨.n, ⟨[b, 1], 0⟩⟩
def exDbFile (base check : Option Crc) (sig : Option Crc) : FileB :=
  ⟨5, 100, 5, 0, 0, false, .none, base, check, sig.map (fun c => ⟨.none, 0, 0, some c⟩)⟩
def exDbNode (name : UInt8) (st : SavedStatus) (i : InodeB) (f : FileB) : Entry := .node ⟨[name], st, i, .file f⟩
def exDbStars : Nat → Star := fun _ => ⟨⟨[], .saved, exDbInode 0 0 .none, .pipe⟩, 0, false⟩
def exDbArch (root : List Entry) (rootMod : Nat) : ArchIn × Bytes × Bytes := (⟨root, exDbStars, dt rootMod, .none, [], 0⟩, [47], [97])

/-- a full archive: the file 102 and the directory 100 holding the file 103 -/
def exDbA1 : ArchIn × Bytes × Bytes := exDbArch
  [exDbNode 102 .saved (exDbInode 10 11 .full) (exDbFile none (some (exDbCrc 1)) none),
   .dir [100] .saved (exDbInode 10 10 .none) [exDbNode 103 .saved (exDbInode 9 9 .none) (exDbFile none (some (exDbCrc 3)) none)]] 10
/-- a differential one: a patch of the first file, the directory unchanged, the second file deleted -/
def exDbA2 : ArchIn × Bytes × Bytes := exDbArch
  [exDbNode 102 .delta (exDbInode 20 20 .part) (exDbFile (some (exDbCrc 1)) none (some (exDbCrc 2))),
   .dir [100] .notSaved (exDbInode 21 21 .none) [.detruit [103] 102 (dt 21)]] 15
/-- a third one: a patch made on other data, the directory is missing -/
def exDbA3 : ArchIn × Bytes × Bytes := exDbArch
  [exDbNode 102 .delta (exDbInode 30 30 .none) (exDbFile (some (exDbCrc 7)) none (some (exDbCrc 8)))] 35

def lookupIn (db : Res Database) (x : Bytes) (p : List Bytes) : Option (List Nat × Lookup) :=
  match db with
  | .error _ => none
  | .ok db => match getData (recordsAt db.files.sub x p).1 ⟨0, .s⟩ false with
    | .ok r => some r
    | .error _ => none
def recordsIn (db : Res Database) (x : Bytes) (p : List Bytes) : Option (SMap StatP × SMap Stat) :=
  match db with
  | .error _ => none
  | .ok db => some (recordsAt db.files.sub x p)

/-- The hypotheses of C53_add, C53_history and C53_lookup are met: three archives, the dates being in order. -/
example : (∀ q ∈ [exDbA1, exDbA2, exDbA3], (q.1.root.map Entry.label).Nodup ∧ Entry.DistinctL q.1.root) ∧
    ∃ db, (newDatabase 7 .none).addAll [exDbA1, exDbA2, exDbA3] = .ok db ∧ db.checkOrder true = .ok true ∧
      Unrevived 1 [102] [] [exDbA1.1, exDbA2.1, exDbA3.1] (.unseen, none) := by
  refine ⟨?_, ?_⟩
  · intro q hq
    simp only [List.mem_cons, List.not_mem_nil, or_false] at hq
    rcases hq with rfl | rfl | rfl <;>
      simp [exDbA1, exDbA2, exDbA3, exDbArch, exDbNode, Entry.label, Entry.DistinctL, Entry.Distinct]
  · have h : (match (newDatabase 7 .none).addAll [exDbA1, exDbA2, exDbA3] with
        | .ok db => (match db.checkOrder true with | .ok b => b | .error _ => false)
        | .error _ => false) = true := by decide +kernel
    cases hd : (newDatabase 7 .none).addAll [exDbA1, exDbA2, exDbA3] with
    | error e => rw [hd] at h; cases h
    | ok db =>
      rw [hd] at h
      refine ⟨db, rfl, ?_, ?_⟩
      · dsimp only at h
        cases hc : db.checkOrder true with
        | error e => rw [hc] at h; cases h
        | ok b => rw [hc] at h; dsimp only at h; rw [h]
      · refine ⟨?_, ?_, ?_, trivial⟩ <;> (intro i f h; simp [exDbA1, exDbA2, exDbA3, exDbArch, exDbNode, ArchIn.told, Told.of, entryAt, Entry.label] at h)
/-- what is recorded, and found -/
example : recordsIn ((newDatabase 7 .none).addAll [exDbA1, exDbA2, exDbA3]) [102] [] =
    some ([(1, ⟨dt 11, .saved, none, some (exDbCrc 1)⟩), (2, ⟨dt 20, .patch, some (exDbCrc 1), some (exDbCrc 2)⟩),
           (3, ⟨dt 30, .patchUnusable, some (exDbCrc 7), some (exDbCrc 8)⟩)],
          [(1, ⟨dt 11, .saved⟩), (2, ⟨dt 20, .present⟩), (3, ⟨dt 35, .absent⟩)]) := by decide +kernel
example : recordsIn ((newDatabase 7 .none).addAll [exDbA1, exDbA2, exDbA3]) [100] [[103]] =
    some ([(1, ⟨dt 9, .saved, none, some (exDbCrc 3)⟩), (2, ⟨dt 21, .removed, none, none⟩)], []) := by decide +kernel
example : recordsIn ((newDatabase 7 .none).addAll [exDbA1, exDbA2, exDbA3]) [100] [] =
    some ([(1, ⟨dt 10, .saved, none, none⟩), (2, ⟨dt 21, .present, none, none⟩), (3, ⟨dt 35, .absent, none, none⟩)], []) := by decide +kernel
example : lookupIn ((newDatabase 7 .none).addAll [exDbA1, exDbA2]) [102] [] = some ([1, 2], .foundPresent) := by decide +kernel
example : lookupIn ((newDatabase 7 .none).addAll [exDbA1, exDbA2, exDbA3]) [102] [] = some ([3], .notRestorable) := by decide +kernel
example : lookupIn ((newDatabase 7 .none).addAll [exDbA1, exDbA2, exDbA3]) [100] [[103]] = some ([2], .foundRemoved) := by decide +kernel

/-! ### Findings -/

/-- a full archive with one file of that date, and an empty one -/
def exDbOne (mtime rootMod : Nat) : ArchIn × Bytes × Bytes := exDbArch [exDbNode 102 .saved (exDbInode mtime mtime .none) (exDbFile none (some (exDbCrc 1)) none)] rootMod
def exDbNone (rootMod : Nat) : ArchIn × Bytes × Bytes := exDbArch [] rootMod

/-- Finding: removing an archive drops its "absent" records and does not complete the following archives.  A file is in the first archive, not in the second
and third ones; it is found removed.  Once the second archive is removed from the database, it is found in the first archive although the last archive does not
hold it. -/
theorem C53_remove_counterexample :
    lookupIn ((newDatabase 7 .none).addAll [exDbOne 10 10, exDbNone 20, exDbNone 30]) [102] [] = some ([2], .foundRemoved) ∧
    lookupIn ((newDatabase 7 .none).addAll [exDbOne 10 10, exDbNone 20, exDbNone 30] >>= fun db => db.removeArchive 2 2) [102] [] = some ([1], .foundPresent) ∧
    lookupIn ((newDatabase 7 .none).addAll [exDbOne 10 10, exDbNone 30]) [102] [] = some ([2], .foundRemoved) := by
  refine ⟨?_, ?_, ?_⟩ <;> decide +kernel

/-- Finding: completing an archive again (set_permutation, "to let the user have the possibility to ask dates recompilation") erases its "absent" records, as
the record to be replaced is taken for the last known state.  A file is in the first archive, not in the second one; moving the second archive to its own place
makes it found in the first one; doing it once more restores the record. -/
theorem C53_permute_counterexample :
    lookupIn ((newDatabase 7 .none).addAll [exDbOne 10 10, exDbNone 20]) [102] [] = some ([2], .foundRemoved) ∧
    lookupIn ((newDatabase 7 .none).addAll [exDbOne 10 10, exDbNone 20] >>= fun db => db.setPermutation 2 2) [102] [] = some ([1], .foundPresent) ∧
    lookupIn ((newDatabase 7 .none).addAll [exDbOne 10 10, exDbNone 20] >>= fun db => db.setPermutation 2 2 >>= fun db => db.setPermutation 2 2) [102] [] =
      some ([2], .foundRemoved) := by
  refine ⟨?_, ?_, ?_⟩ <;> decide +kernel

/-- Finding: the date given to an absence is that of the parent directory; a file excluded from one backup only is then found removed for ever, as its own date,
unchanged, is older.  check_order tells it. -/
theorem C53_date_counterexample :
    lookupIn ((newDatabase 7 .none).addAll [exDbOne 10 10, exDbNone 20, exDbOne 10 20]) [102] [] = some ([2], .foundRemoved) ∧
    (toldFrom 1 [102] [] [(exDbOne 10 10).1, (exDbNone 20).1, (exDbOne 10 20).1] (.unseen, none)).1 = .ok [3] 3 ∧
    ((newDatabase 7 .none).addAll [exDbOne 10 10, exDbNone 20, exDbOne 10 20] >>= fun db => db.checkOrder true) = .ok false := by
  refine ⟨?_, ?_, ?_⟩ <;> decide +kernel

end Dar
