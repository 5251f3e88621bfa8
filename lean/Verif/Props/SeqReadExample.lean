import Verif.Props.SeqReading
/- C59: concrete cases, and cases where sequential reading goes wrong. -/
namespace Dar

@[reducible] def seqExFile : FileB := { exFile with dirty := false }
/-- a file, a directory holding one of the two names of inode 7 and a deletion record, a deletion record, the other name of inode 7 -/
def seqExTree : List Entry := [
  .node ⟨[102], .saved, exInode, .file seqExFile⟩,
  .dir [115] .saved exInode [.mirage [110] 7, .detruit [100] 102 exDate],
  .detruit [101] 102 exDate,
  .mirage [109] 7]
/-- what is saved with the file -/
def seqExData : SavedRest := ⟨[1, 2, 3], [(.fileCrc, [9]), (.ea, [1, 2])]⟩
def seqExNo : SavedRest := ⟨[], []⟩
def seqExEvs : List SeqEv := [
  .saved (.node ⟨[102], .saved, exInode, .file seqExFile⟩) seqExData,
  .failed (.node ⟨[98], .saved, exInode, .file seqExFile⟩) seqExNo,
  .saved (.dir [115] .saved exInode []) seqExNo,
  .saved (.mirage [110] 7) seqExData,
  .eod seqExNo,
  .saved (.mirage [109] 7) seqExNo]
def seqExEnv (lax : Bool) : SeqEnv :=
  { lax := lax, fits := fun _ => true, ver := ⟨12, 0⟩, dalgo := .none, fuel := 5, inBuf := fun _ => false, goOn := true, isSigned := true, sameSig := true,
    readCat := fun _ => .ok (Entry.keptList exStars .none seqExTree), subset := fun _ _ => true }

theorem seqExFile_writable : seqExFile.Writable true .saved :=
  ⟨.inr rfl, fun _ => rfl, (by intro h; cases h), (by intro _ h; cases h), (by intro h; cases h)⟩
theorem seqExNode_ok (n : Bytes) (hn : (0 : UInt8) ∉ n) : Entry.InlineOk exStars (.node ⟨n, .saved, exInode, .file seqExFile⟩) :=
  ⟨hn, exInode_writable true, seqExFile_writable⟩
theorem seqExLink_ok (n : Bytes) (hn : (0 : UInt8) ∉ n) : Entry.InlineOk exStars (.mirage n 7) :=
  ⟨hn, by simp [exStars], exInode_writable true, by simp [exStars, Special.Writable]⟩

section
attribute [local instance] escNormal

theorem seqExNo_ok : SavedRest.Ok seqExNo := ⟨by simp [seqExNo], by simp [seqExNo, escPattern]⟩
theorem seqExData_ok : SavedRest.Ok seqExData := ⟨by simp [seqExData], by simp [seqExData, escPattern]⟩
theorem seqEx_leaves : LeavesIn exStars false [seqExTree] seqExEvs := by
  unfold seqExTree seqExEvs
  refine .leaf (seqExNode_ok _ (by simp)) rfl seqExData_ok ?_
  refine .failed (seqExNode_ok _ (by simp)) (by intro n k h; cases h) rfl seqExNo_ok ?_
  refine .dir ⟨by simp, exInode_writable true⟩ seqExNo_ok ?_
  refine .leaf (seqExLink_ok _ (by simp)) rfl seqExData_ok ?_
  refine .hidden rfl ?_
  refine .eod seqExNo_ok ?_
  refine .hidden rfl ?_
  exact .leaf (seqExLink_ok _ (by simp)) rfl seqExNo_ok .done
theorem seqEx_distinct : DistinctNames seqExTree := by
  simp [seqExTree, DistinctNames, Entry.title]
theorem seqEx_fit (lax : Bool) : (seqExEnv lax).Fit := ⟨rfl, (show ArchVer.lt ⟨12, 0⟩ ⟨9, 0⟩ = false by decide), (show 3 ≤ 5 by decide)⟩
theorem seqEx_complete (lax : Bool) (d : Bytes) (rest : List (SeqT × Bytes)) : (seqExEnv lax).Complete exStars exStars seqExTree d rest := ⟨rfl, rfl, fun _ => rfl⟩

/-- a reading with a step back, data skipped, the directory skipped at the first chance: the file, the directory, the other name, then the deletion
records (in the directory first) -/
def seqExCalls : List SeqCall := [⟨.stay, false⟩, ⟨.ahead 1 1, true⟩, ⟨.back, false⟩, ⟨.stay, false⟩, ⟨.stay, false⟩, ⟨.stay, false⟩, ⟨.stay, false⟩, ⟨.stay, false⟩]
example : ∃ as m', memCalls [seenTree exStars .none seqExTree ++ deletionTree seqExTree] seqExCalls = .ok (as, m') ∧ none ∉ as.dropLast ∧ none ∈ as := by
  refine ⟨[some (.entry (Entry.inline exStars .none (.node ⟨[102], .saved, exInode, .file seqExFile⟩))),
    some (.entry (.dir [115] .saved (exInode.kept true) [.mirage [110] 7])), some (.entry (.mirage [109] 7)),
    some (.entry (.dir [115] .saved (exInode.kept false).unsaved [.detruit [100] 102 exDate])), some (.entry (.detruit [100] 102 exDate)), some .eod,
    some (.entry (.detruit [101] 102 exDate)), none], [[]], ?_, by simp, by simp⟩
  have h1 : seenTree exStars .none seqExTree = [Entry.inline exStars .none (.node ⟨[102], .saved, exInode, .file seqExFile⟩),
      .dir [115] .saved (exInode.kept true) [.mirage [110] 7], .mirage [109] 7] := by
    simp [seqExTree, seenTree, Entry.inline, shared, exStars]
  have h2 : deletionTree seqExTree = [.dir [115] .saved (exInode.kept false).unsaved [.detruit [100] 102 exDate], .detruit [101] 102 exDate] := by
    simp [seqExTree, deletionTree]
  rw [h1, h2]
  rfl
example : ∃ ms as' st', evMarks exStars [] seqExEvs = .ok ms ∧ seqRun (seqExEnv false) (EC.start ([7], ms ++ [(.catalogue, [])])) seqExCalls = .ok (as', st') ∧
    as'.length = 8 := by
  obtain ⟨ms, hm⟩ := C59_can_be_written exStars false _ _ seqEx_leaves []
  obtain ⟨as, m', h1, h2⟩ : ∃ as m', memCalls [seenTree exStars .none seqExTree ++ deletionTree seqExTree] seqExCalls = .ok (as, m') ∧ none ∉ as.dropLast := by
    refine ⟨[some (.entry (Entry.inline exStars .none (.node ⟨[102], .saved, exInode, .file seqExFile⟩))),
      some (.entry (.dir [115] .saved (exInode.kept true) [.mirage [110] 7])), some (.entry (.mirage [109] 7)),
      some (.entry (.dir [115] .saved (exInode.kept false).unsaved [.detruit [100] 102 exDate])), some (.entry (.detruit [100] 102 exDate)), some .eod,
      some (.entry (.detruit [101] 102 exDate)), none], [[]], ?_, by simp⟩
    have h1 : seenTree exStars .none seqExTree = [Entry.inline exStars .none (.node ⟨[102], .saved, exInode, .file seqExFile⟩),
        .dir [115] .saved (exInode.kept true) [.mirage [110] 7], .mirage [109] 7] := by
      simp [seqExTree, seenTree, Entry.inline, shared, exStars]
    have h2 : deletionTree seqExTree = [.dir [115] .saved (exInode.kept false).unsaved [.detruit [100] 102 exDate], .detruit [101] 102 exDate] := by
      simp [seqExTree, deletionTree]
    rw [h1, h2]
    rfl
  obtain ⟨as', st', g1, g2, _⟩ := C59_same_as_direct exStars exStars (seqExEnv false) (seqEx_fit false) seqExTree seqExEvs [7] [] ms [] (seqEx_complete false [] []) seqEx_distinct
    seqEx_leaves hm seqExCalls as m' h1 h2
  refine ⟨ms, as', st', hm, g1, ?_⟩
  have := congrArg List.length g2
  simp only [bareAnswers, List.length_map] at this
  rw [this, memCalls_length _ _ _ _ h1]
  rfl

/-- the archive ends inside the directory, in the middle of what was saved for its first object -/
example : ∃ part, CutAt part seqExTree ∧ ∃ ms, evMarks exStars [] (seqExEvs.take 3 ++ [.saved (.mirage [110] 7) ⟨[1], []⟩]) = .ok ms ∧
    ∀ (calls : List SeqCall) as m', (∀ c ∈ calls, c.skip = false) → memCalls [seenTree exStars .none part] calls = .ok (as, m') → none ∉ as.dropLast →
      ∃ st', seqRun (seqExEnv true) (EC.start ([7], ms)) calls = .ok (bareAnswers as, st') := by
  have hok : SavedRest.Ok ⟨[1], []⟩ := ⟨by simp, by simp [escPattern]⟩
  have hsame : List.Forall₂ SameObject (seqExEvs.take 4) (seqExEvs.take 3 ++ [.saved (.mirage [110] 7) ⟨[1], []⟩]) :=
    .cons (.saved _ _ _) (.cons (.failed _ _ _) (.cons (.saved _ _ _) (.cons (.saved _ _ _) .nil)))
  have hafter : ∀ ev ∈ seqExEvs.take 3 ++ [SeqEv.saved (.mirage [110] 7) ⟨[1], []⟩], ev.after.Ok := by
    simp only [seqExEvs, List.take, List.cons_append, List.nil_append, List.mem_cons, List.not_mem_nil, or_false]
    rintro ev (rfl | rfl | rfl | rfl)
    exacts [seqExData_ok, seqExNo_ok, seqExNo_ok, hok]
  obtain ⟨rs', hr1, hr2⟩ := leaves_prefix seqEx_leaves (seqExEvs.take 4) _ (seqExEvs.drop 4) rfl hsame hafter
  obtain ⟨ms, hm⟩ := C59_can_be_written exStars true _ _ hr2 []
  obtain ⟨part, h1, h2⟩ := C59_interrupted exStars (seqExEnv true) (seqEx_fit true) seqExTree seqEx_distinct (seqExEvs.take 4) _ (seqExEvs.drop 4) seqEx_leaves hsame hafter [7] ms hm
  refine ⟨part, h1, ms, hm, fun calls as m' hs hr hn => ?_⟩
  obtain ⟨st', g1, _⟩ := (h2 calls as m' hs hr hn).1 (.inr rfl)
  exact ⟨st', g1⟩

/-! ### cases where it goes wrong -/

/-- the answers to some calls after some events, in a few words: 1 a directory, 2 another entry, 3 the end of a directory, 4 the end, or the error -/
def seqBrief (evs : List SeqEv) (lax : Bool) (calls : List SeqCall) : Res (List Nat) := do
  let ms ← evMarks exStars [] evs
  let (as, _) ← seqRun (seqExEnv lax) (EC.start ([], ms)) calls
  .ok (as.map fun a => match a with
    | none => 4
    | some .eod => 3
    | some (.entry e) => if e.isFolder then 1 else 2)
def briefIs (r : Res (List Nat)) (l : List Nat) : Bool := match r with | .ok x => x == l | _ => false
def briefFails (r : Res (List Nat)) (e : Err) : Bool := match r with | .error x => x == e | _ => false

/-- A directory is skipped and the archive ends inside it: the end of the skipped directory is answered all the same, the caller receives an end of
directory more than it received directories (a catalogue in memory would answer the end of the reading). -/
theorem C59_skip_then_interrupted_counterexample :
    briefIs (seqBrief [.saved (.dir [115] .saved exInode []) seqExNo] true [⟨.stay, true⟩, ⟨.stay, false⟩]) [1, 3] = true ∧
    (memCalls [[.dir [115] .saved exInode []]] [⟨.stay, true⟩, ⟨.stay, false⟩]).map (fun x => x.1.map Option.isNone) = .ok [false, true] := by
  refine ⟨by decide +kernel, rfl⟩
/-- The saving of a file that has several names fails for its first name and succeeds for the second one: both in-line copies hold the inode, the
archive cannot be read sequentially. -/
theorem C59_failed_link_counterexample :
    briefFails (seqBrief [.failed (.mirage [109] 7) seqExNo, .saved (.mirage [110] 7) seqExNo] false [⟨.stay, false⟩]) .range = true := by
  decide +kernel
/-- Two directories of the same name (a damaged or hostile archive): use of freed memory. -/
theorem C59_same_directory_twice_counterexample :
    briefFails (seqBrief [.saved (.dir [115] .saved exInode []) seqExNo, .eod seqExNo, .saved (.dir [115] .saved exInode []) seqExNo] false
      [⟨.stay, false⟩, ⟨.stay, false⟩, ⟨.stay, false⟩]) .ub = true := by
  decide +kernel
/-- two skips in a row leave one directory only -/
theorem C59_two_skips_counterexample :
    (do let st ← EC.skip { EC.start ([], []) with status := .marks, depth := 2 }; let st ← st.skip; .ok st.wait : Res Nat) = .ok 2 := rfl

end

end Dar
