import Verif.Props.DbRestoreCmd
import Verif.Props.DbAddEx
/- Cases for C54, and what the code does not do. -/
namespace Dar

mutual
def DTree.properNames (t : DTree) : Bool :=
  match t with
  | .node n _ _ _ s => decide (n ≠ pDot ∧ n ≠ pDotDot) && DTree.properNamesL s
def DTree.properNamesL (l : List DTree) : Bool :=
  match l with
  | [] => true
  | t :: l => t.properNames && DTree.properNamesL l
end

theorem proper_mem (l : List DTree) (h : DTree.properNamesL l = true) (c : DTree) (hc : c ∈ l) : c.properNames = true := by
  induction l with
  | nil => cases hc
  | cons a l ih =>
    rw [DTree.properNamesL, Bool.and_eq_true] at h
    rcases List.mem_cons.mp hc with rfl | hc
    · exact h.1
    · exact ih h.2 hc

theorem proper_at (q : List Bytes) : ∀ (t u : DTree), DTree.properNamesL t.sub = true → t.at_ q = some u → ∀ x ∈ q, x ≠ pDot ∧ x ≠ pDotDot := by
  induction q with
  | nil => intro t u _ _ x hx; cases hx
  | cons y q ih =>
    intro t u h h1 x hx
    rw [dat_cons] at h1
    cases hf : t.sub.find? (fun c => c.name = y) with
    | none => rw [hf] at h1; cases h1
    | some c =>
      rw [hf] at h1
      have hp := proper_mem _ h c (List.mem_of_find?_eq_some hf)
      have hn : c.name = y := by simpa using List.find?_some hf
      obtain ⟨n, d, m, e, s⟩ := c
      rw [DTree.properNames, Bool.and_eq_true, decide_eq_true_iff] at hp
      simp only [DTree.name] at hn
      subst hn
      rcases List.mem_cons.mp hx with rfl | hx
      · exact hp.1
      · exact ih (.node n d m e s) u hp.2 h1 x hx

/-- the directory /r -/
def exRoot : PathT := ⟨[[114]], false, false⟩

/-- The hypotheses of C54_complete are met by the archives of C53. -/
example : exRoot.Absolute ∧ ∃ db, (newDatabase 7 .none).addAll [exDbA1, exDbA2] = .ok db ∧ db.checkOrder true = .ok true ∧
    (∀ q u, db.files.at_ q = some u → ∀ x ∈ q, x ≠ pDot ∧ x ≠ pDotDot) ∧ Reached (fun _ => true) exRoot [[102]] := by
  refine ⟨⟨rfl, by decide⟩, ?_⟩
  have h : (match (newDatabase 7 .none).addAll [exDbA1, exDbA2] with
        | .ok db => (match db.checkOrder true with | .ok b => b && DTree.properNamesL db.files.sub | .error _ => false)
        | .error _ => false) = true := by decide +kernel
  cases hd : (newDatabase 7 .none).addAll [exDbA1, exDbA2] with
  | error e => rw [hd] at h; cases h
  | ok db =>
    rw [hd] at h
    dsimp only at h
    cases hc : db.checkOrder true with
    | error e => rw [hc] at h; cases h
    | ok b =>
      rw [hc] at h
      dsimp only at h
      rw [Bool.and_eq_true] at h
      refine ⟨db, rfl, by rw [hc, h.1], fun q u hq => proper_at q _ u h.2 hq, fun k _ _ => rfl⟩

def coversIn (db : Res Database) (root : PathT) (mask : PathT → Bool) (date : DateT) (n : Nat) (q : List Bytes) : Option (Res Bool) :=
  match db with
  | .error _ => none
  | .ok db => match db.restoreApi root mask date with
    | .error _ => none
    | .ok r => some (r.covers n (root.below q))
def archivesIn (db : Res Database) (root : PathT) (mask : PathT → Bool) (date : DateT) : Option (List Nat) :=
  match db with
  | .error _ => none
  | .ok db => match db.restoreApi root mask date with
    | .error _ => none
    | .ok r => some (r.archives.map Prod.fst)
def cmdIn (db : Res Database) (files : List (List Bytes)) (date : DateT) : Option (SMap (List (List Bytes))) :=
  match db with
  | .error _ => none
  | .ok db => match db.restoreCmd files date false with
    | .error _ => none
    | .ok m => some m

/-- The file 102 is restored from both archives, the patch being the second one; the directory 100 from the first one (it is unchanged in the second one);
the deleted file from none. -/
example :
    archivesIn ((newDatabase 7 .none).addAll [exDbA1, exDbA2]) exRoot (fun _ => true) (dt 0) = some [1, 2] ∧
    coversIn ((newDatabase 7 .none).addAll [exDbA1, exDbA2]) exRoot (fun _ => true) (dt 0) 1 [[102]] = some (.ok true) ∧
    coversIn ((newDatabase 7 .none).addAll [exDbA1, exDbA2]) exRoot (fun _ => true) (dt 0) 2 [[102]] = some (.ok true) ∧
    coversIn ((newDatabase 7 .none).addAll [exDbA1, exDbA2]) exRoot (fun _ => true) (dt 0) 1 [[100]] = some (.ok true) ∧
    coversIn ((newDatabase 7 .none).addAll [exDbA1, exDbA2]) exRoot (fun _ => true) (dt 0) 2 [[100]] = some (.ok false) ∧
    coversIn ((newDatabase 7 .none).addAll [exDbA1, exDbA2]) exRoot (fun _ => true) (dt 0) 1 [[100], [103]] = some (.ok false) ∧
    cmdIn ((newDatabase 7 .none).addAll [exDbA1, exDbA2]) [[[102]], [[100]]] (dt 0) = some [(1, [[[102]], [[100]]]), (2, [[[102]]])] := by
  refine ⟨?_, ?_, ?_, ?_, ?_, ?_, ?_⟩ <;> decide +kernel

/-! ### Findings -/

/-- Finding: under a relative directory, nothing can be restored through the API: op_extract makes the path absolute (src/libdar/i_archive.cpp:1071), the
database mask does not, and any path the mask of the user covers raises an internal error. -/
theorem C54_relative_counterexample (root : PathT) (hroot : root.relative = true) (mask : PathT → Bool) (tree : RTree) (n : Nat) (e : PathT)
    (he : e.relative = false) (hm : mask e = true) : maskDbCovers root mask tree n e = .error .bug := by
  unfold maskDbCovers
  rw [if_neg (by rw [hm]; simp)]
  by_cases h : e.degre < root.degre
  · rw [if_pos h]
  · rw [if_neg h, if_pos (by rw [he, hroot]; simp)]

/-- a file unchanged whose EA have been saved again -/
def exDbEaOnly : ArchIn × Bytes × Bytes := exDbArch [exDbNode 102 .notSaved (exDbInode 10 20 .full) (exDbFile none (some (exDbCrc 1)) none)] 10
/-- a full archive of that file -/
def exDbEaFirst : ArchIn × Bytes × Bytes := exDbArch [exDbNode 102 .saved (exDbInode 10 11 .full) (exDbFile none (some (exDbCrc 1)) none)] 10

/-- Finding: dar is never called for the EA of a file: the archive number found for the EA is set to zero even when they are found
(src/libdar/i_database.cpp:693-707), and the test that follows (line 727) is inverted.  EA saved in an archive that does not hold the data are not restored; the API
restores them. -/
theorem C54_cmd_ea_counterexample :
    (match (newDatabase 7 .none).addAll [exDbEaFirst, exDbEaOnly] with
     | .ok db => (match getEA (recordsAt db.files.sub [102] []).2 (dt 0) false with | .ok r => some r | .error _ => none)
     | .error _ => none) = some (2, .foundPresent) ∧
    cmdIn ((newDatabase 7 .none).addAll [exDbEaFirst, exDbEaOnly]) [[[102]]] (dt 0) = some [(1, [[[102]]])] ∧
    archivesIn ((newDatabase 7 .none).addAll [exDbEaFirst, exDbEaOnly]) exRoot (fun _ => true) (dt 0) = some [1, 2] := by
  refine ⟨?_, ?_, ?_⟩ <;> decide +kernel

/-- a directory holding a file, and the same directory unchanged, the file being excluded -/
def exDbDirFull : ArchIn × Bytes × Bytes := exDbArch
  [.dir [100] .saved (exDbInode 10 10 .none) [exDbNode 103 .saved (exDbInode 9 9 .none) (exDbFile none (some (exDbCrc 3)) none)]] 10
def exDbDirBare : ArchIn × Bytes × Bytes := exDbArch [.dir [100] .notSaved (exDbInode 10 10 .none) []] 10

/-- Finding: asking for a directory gives -g with the directory itself, which covers all that is below: a file recorded as removed is restored from the archive of
the directory.  The API does not restore it. -/
theorem C54_cmd_removed_counterexample :
    lookupIn ((newDatabase 7 .none).addAll [exDbDirFull, exDbDirBare]) [100] [[103]] = some ([2], .foundRemoved) ∧
    cmdIn ((newDatabase 7 .none).addAll [exDbDirFull, exDbDirBare]) [[[100]]] (dt 0) = some [(1, [[[100]]])] ∧
    (match cmdIn ((newDatabase 7 .none).addAll [exDbDirFull, exDbDirBare]) [[[100]]] (dt 0), recordsIn ((newDatabase 7 .none).addAll [exDbDirFull, exDbDirBare]) [100] [[103]] with
     | some m, some r => some (replay (givenFrom StatP.present r.1 m [[100], [103]]))
     | _, _ => none) = some (.ok [1] 1) ∧
    coversIn ((newDatabase 7 .none).addAll [exDbDirFull, exDbDirBare]) exRoot (fun _ => true) (dt 0) 1 [[100], [103]] = some (.ok false) := by
  refine ⟨?_, ?_, ?_, ?_⟩ <;> decide +kernel

/-- an archive that tells the deletion of a file no archive of the database holds -/
def exDbStrange : ArchIn × Bytes × Bytes := exDbArch
  [exDbNode 102 .saved (exDbInode 10 10 .none) (exDbFile none (some (exDbCrc 1)) none), .detruit [104] 102 (dt 10)] 10

/-- Finding: a path of an archive that the database does not know raises an internal error, which stops the restoration (restore_tree::lookup).  An archive
tells the deletion of a file unknown to the database; once another archive has been removed from the database, the path has no record left and is dropped:
restoring the first archive fails on it. -/
theorem C54_unknown_counterexample :
    coversIn ((newDatabase 7 .none).addAll [exDbStrange, exDbNone 20]) exRoot (fun _ => true) (dt 0) 1 [[104]] = some (.ok false) ∧
    coversIn ((newDatabase 7 .none).addAll [exDbStrange, exDbNone 20] >>= fun db => db.removeArchive 2 2) exRoot (fun _ => true) (dt 0) 1 [[104]] =
      some (.error .bug) ∧
    archivesIn ((newDatabase 7 .none).addAll [exDbStrange, exDbNone 20] >>= fun db => db.removeArchive 2 2) exRoot (fun _ => true) (dt 0) = some [1] := by
  refine ⟨?_, ?_, ?_⟩ <;> decide +kernel

/-- the directory changed at the date 20, and a file in it changed at the date 12 -/
def exDbDirLate : ArchIn × Bytes × Bytes := exDbArch
  [.dir [100] .saved (exDbInode 20 20 .none) [exDbNode 103 .saved (exDbInode 12 12 .none) (exDbFile none (some (exDbCrc 3)) none)]] 10

/-- Finding: asked for a date, the restoration gives a directory the attributes of a later archive when something below it needs that archive: the directory had,
at the date 15, those of the first archive, it is restored from the second one as well. -/
theorem C54_late_counterexample :
    (match (newDatabase 7 .none).addAll [exDbDirFull, exDbDirLate] with
     | .ok db => (match getData (recordsAt db.files.sub [100] []).1 (dt 15) false with | .ok r => some r | .error _ => none)
     | .error _ => none) = some ([1], .foundPresent) ∧
    coversIn ((newDatabase 7 .none).addAll [exDbDirFull, exDbDirLate]) exRoot (fun _ => true) (dt 15) 2 [[100]] = some (.ok true) := by
  refine ⟨?_, ?_⟩ <;> decide +kernel

end Dar
