import Verif.Lemmas.TestSeq
import Verif.Props.Checksum
import Mathlib.Data.List.Induction
/- C70: testing an archive. -/
namespace Dar

/-- Without an error and without an exception, everything selected is intact; and conversely.  The entries are then counted. -/
theorem C70_test (o : TOpts) (h : o.dryRun = false) (hr : o.repairing = false) (l : List TEntry) (st : TStat) :
    (filtreTest o l = (st, none) ∧ st.errored = 0) ↔
      ((∀ p e, Seen o.subtree [] l p e → TestSelected o p e → e.Intact o.seq o.inos) ∧ ListReadable l ∧ st = ⟨(tTally o [] l).1, (tTally o [] l).2, 0⟩) := by
  have hout : ∀ r, outer o r = r := by
    rintro ⟨s, e⟩
    cases e with
    | none => rfl
    | some e => simp [outer, hr]
  unfold filtreTest
  rw [hout]
  constructor
  · rintro ⟨ht, he⟩
    have hf := tLoop_start_inv o h _ l st ht he
    have := tLoop_start o h l hf
    rw [ht] at this
    injection this with this _
    exact ⟨hf.1, hf.2, this⟩
  · rintro ⟨h1, h2, h3⟩
    rw [tLoop_start o h l ⟨h1, h2⟩, h3]
    exact ⟨rfl, rfl⟩

/-- "dar -t" in direct access succeeds if and only if everything selected is intact. -/
theorem C70_dar_test (o : TOpts) (h : o.dryRun = false) (hr : o.repairing = false) (hs : o.seq = false) (l : List TEntry) (hl : ListReadable l) :
    darTest o false l = .ok () ↔ ∀ p e, Seen o.subtree [] l p e → TestSelected o p e → e.Intact o.seq o.inos := by
  have hC := C70_test o h hr l
  have hraise := tLoop_raise o hs (tSize l + 1) (TSt.start l) (start_readable hl)
  cases hf : filtreTest o l with
  | mk st r =>
    rw [hf] at hC
    cases r with
    | none =>
      have hd : darTest o false l = if st.errored > 0 then .error .data else .ok () := by
        unfold darTest opTest
        rw [hf]
        simp [bind, Except.bind]
      rw [hd]
      constructor
      · intro hx
        by_cases he : st.errored > 0
        · rw [if_pos he] at hx; cases hx
        · exact ((hC st).1 ⟨rfl, by omega⟩).1
      · intro hx
        have := (hC _).2 ⟨hx, hl, rfl⟩
        have he : st.errored = 0 := by
          have h1 := this.1
          injection h1 with h1 _
          rw [h1]
        rw [if_neg (by omega)]
    | some e =>
      have hu : uncounted o e = true := by
        apply hraise
        unfold filtreTest outer at hf
        cases ht : tLoop o (tSize l + 1) (TSt.start l) with
        | mk s x =>
          rw [ht] at hf
          cases x with
          | none => cases hf
          | some y =>
            simp only [hr, Bool.false_eq_true, false_and, if_false] at hf
            injection hf with _ hf
      have hne : e ≠ .range := by intro he; subst he; cases hu
      have hd : darTest o false l = .error e := by
        unfold darTest opTest
        rw [hf]
        simp [hne, bind, Except.bind]
      rw [hd]
      constructor
      · intro hx; cases hx
      · intro hx
        have := (hC _).2 ⟨hx, hl, rfl⟩
        have h1 := this.1
        injection h1 with _ h1
        cases h1

/-- A file that has been modified after its checksum was recorded, inside a window not larger than the checksum, makes "dar -t" fail wherever it is among the selected
entries. -/
theorem C70_damage_detected (o : TOpts) (h : o.dryRun = false) (hr : o.repairing = false) (hs : o.seq = false) (l : List TEntry) (hl : ListReadable l)
    (p : List Bytes) (n : Bytes) (i : TIno) (hseen : Seen o.subtree [] l p (.plain n i)) (hsel : TestSelected o p (.plain n i))
    (old new : Bytes) (c : Crc) (copies : List DataPiece) (hi : i.data = some copies) (hin : ⟨.ok new, .ok (some c)⟩ ∈ copies)
    (hfit : c.Fits old) (hlen : old.length = new.length) (start : Nat)
    (hwin : ∀ k, old.getD k 0 ≠ new.getD k 0 → start ≤ k ∧ k < start + c.st.cyc.length) (hne : old ≠ new) :
    darTest o false l ≠ .ok () := by
  intro hx
  have := (C70_dar_test o h hr hs l hl).1 hx p _ hseen hsel
  have hd := ((TIno.Intact.data this) copies hi).2 _ hin
  obtain ⟨d, r, h1, h2, h3⟩ := hd
  injection h1 with h1; injection h2 with h2
  subst h1
  have hf := (h3 c h2.symm).2.1
  have := C08_detects_window c.st.cyc.length old new hlen start hwin hne
  unfold Crc.Fits at hf hfit
  rw [← hfit, ← hf] at this
  exact this rfl

/-- In sequential reading, damages of the inodes (but directories and hard-linked ones) are all counted: one error for each damaged entry, and all the other entries are tested. -/
theorem C70_all_counted (o : TOpts) (h : o.dryRun = false) (hs : o.seq = true) (l : List TEntry) (hl : ListReadable l)
    (hd : ∀ p e, Seen o.subtree [] l p e → TestSelected o p e → e.LocalDamage) :
    ∃ st, filtreTest o l = (st, none) ∧ st.errored = damages o [] l ∧ st.treated + st.errored = (tTally o [] l).1 ∧ st.skipped = (tTally o [] l).2 := by
  obtain ⟨k, c', b', hk, h1, h2, h3, h4, h5⟩ := tLoop_seq o h hs (tSize l) l (Nat.le_refl _) false [] (TSt.start l) rfl ⟨hd, hl⟩ (start_sure o l)
  have he : tSize l + 1 = (tSize l - k + 1) + k := by omega
  refine ⟨c'.stat, ?_, ?_⟩
  · unfold filtreTest
    rw [he, h1, tLoop, h2]
    simp [tRead, outer]
  · obtain ⟨a1, a2, a3⟩ := h5
    have e0 : (TSt.start l).stat = ⟨0, 0, 0⟩ := rfl
    have e1 : (TSt.start l).file.place = [] := rfl
    rw [e0, e1] at a1 a2 a3
    simp only [List.reverse_nil, Nat.zero_add] at a1 a2 a3
    exact ⟨a3, by rw [a3]; exact a1, a2⟩

/-- C70: **An interruption is not a damage**: when the user gives up, a user command fails, the thread is cancelled or an internal error is met while a file is tested, the test stops there and ends with
that very exception, with no error counted; what was tested before is accounted for. -/
theorem C70_abort (o : TOpts) (h : o.dryRun = false) (hr : o.repairing = false) (l₁ l₂ : List TEntry) (n : Bytes) (i : TIno)
    (hf : ∀ p e, Seen o.subtree [] l₁ p e → TestSelected o p e → e.Intact o.seq o.inos) (hl : ListReadable l₁) (hsel : TestSelected o [n] (.plain n i))
    (x : Err) (c : Option Crc) (more : List DataPiece) (hx : x = .userAbort ∨ x = .script ∨ x = .cancel ∨ x = .bug) (hi : i.data = some (⟨.error x, .ok c⟩ :: more)) :
    filtreTest o (l₁ ++ .plain n i :: l₂) = (⟨(tTally o [] l₁).1, (tTally o [] l₁).2, 0⟩, some x) ∧ darTest o false (l₁ ++ .plain n i :: l₂) = .error x := by
  have hsz : ∀ (a b : List TEntry), tSize (a ++ b) = tSize a + tSize b := by
    intro a b
    induction a with
    | nil => simp [tSize]
    | cons x a ih => cases x <;> simp only [List.cons_append, tSize, ih] <;> omega
  obtain ⟨k, c', b', hk, h1, h2, h3, h4, h5⟩ := tLoop_fine o h (tSize l₁) l₁ (Nat.le_refl _) false (.plain n i :: l₂) [] (TSt.start (l₁ ++ .plain n i :: l₂)) (by simp [TSt.start])
    ⟨hf, hl⟩ (start_sure o _)
  have he : tSize (l₁ ++ .plain n i :: l₂) + 1 = (tSize l₁ - k + tSize l₂ + 1 + 1) + k := by rw [hsz]; simp only [tSize]; omega
  have hp : c'.file.place = [] := h3
  have hc : chosen o [n] (.plain n i) = true := (chosen_iff o _ _).2 hsel
  have hun : uncounted o x = true := by rcases hx with hx | hx | hx | hx <;> subst hx <;> simp [uncounted, hr]
  have hdat : testData o i = .error x := by
    obtain ⟨w, hw⟩ : ∃ w, dataWidth o i.size ⟨.error x, .ok c⟩ = .ok w := by
      unfold dataWidth
      rw [crcSizeFor_eq]
      simp only
      split
      · exact ⟨_, rfl⟩
      · split <;> exact ⟨_, rfl⟩
    unfold testData
    simp only [hi, h, Bool.false_eq_true, if_false, testCopies, testCopy, bind, Except.bind, hw]
  have hstep : ∃ c'', tEntry o (.plain n i) { c' with frames := [⟨true, l₂⟩] } = (c'', some x) ∧ c''.stat = c'.stat := by
    unfold tEntry
    simp only [TEntry.name, TEntry.isDir, push_path, hp, List.reverse_nil, List.nil_append, hc, if_true, testEntry, testIno, hdat, hun]
    exact ⟨_, rfl, rfl⟩
  have hloop : tLoop o (tSize (l₁ ++ .plain n i :: l₂) + 1) (TSt.start (l₁ ++ .plain n i :: l₂)) = (⟨(tTally o [] l₁).1, (tTally o [] l₁).2, 0⟩, some x) := by
    obtain ⟨c'', e1, e2⟩ := hstep
    rw [he, h1, tLoop, h2]
    simp only [tRead, e1]
    rw [e2, h5]
    simp [TSt.start, Defile.place, TStat.plus]
  have hft : filtreTest o (l₁ ++ .plain n i :: l₂) = (⟨(tTally o [] l₁).1, (tTally o [] l₁).2, 0⟩, some x) := by
    unfold filtreTest
    rw [hloop]
    simp [outer, hr]
  refine ⟨hft, ?_⟩
  unfold darTest opTest
  rw [hft]
  simp only [Bool.false_eq_true, if_false]
  rw [if_neg (by rcases hx with hx | hx | hx | hx <;> subst hx <;> decide)]
  rfl

/-! ### what the test does not see -/

/-- In direct access the first damaged file of a directory hides all that follows in that directory: the result is the same whatever comes next. -/
theorem C70_rest_of_directory_counterexample (o : TOpts) (h : o.dryRun = false) (hs : o.seq = false) (l₁ l₂ : List TEntry) (n : Bytes) (i : TIno)
    (hf : ∀ p e, Seen o.subtree [] l₁ p e → TestSelected o p e → e.Intact o.seq o.inos) (hl : ListReadable l₁) (hsel : TestSelected o [n] (.plain n i))
    (d : Bytes) (c : Crc) (hi : i.data = some [⟨.ok d, .ok (some c)⟩]) (hg : c.Good) (hbad : ¬ c.Fits d) :
    filtreTest o (l₁ ++ .plain n i :: l₂) = (⟨(tTally o [] l₁).1, (tTally o [] l₁).2, 1⟩, none) := by
  have hsz : ∀ (a b : List TEntry), tSize (a ++ b) = tSize a + tSize b := by
    intro a b
    induction a with
    | nil => simp [tSize]
    | cons x a ih => cases x <;> simp only [List.cons_append, tSize, ih] <;> omega
  obtain ⟨k, c', b', hk, h1, h2, h3, h4, h5⟩ := tLoop_fine o h (tSize l₁) l₁ (Nat.le_refl _) false (.plain n i :: l₂) [] (TSt.start (l₁ ++ .plain n i :: l₂)) (by simp [TSt.start])
    ⟨hf, hl⟩ (start_sure o _)
  have he : tSize (l₁ ++ .plain n i :: l₂) + 1 = (tSize l₁ - k + tSize l₂ + 1 + 1) + k := by rw [hsz]; simp only [tSize]; omega
  have hp : c'.file.place = [] := h3
  have hc : chosen o [n] (.plain n i) = true := (chosen_iff o _ _).2 hsel
  have hstep : tEntry o (.plain n i) { c' with frames := [⟨true, l₂⟩] } =
      ({ c' with frames := [⟨true, []⟩], file := c'.file.push n false, stat := { c'.stat with errored := c'.stat.errored + 1 } }, none) := by
    unfold tEntry
    simp only [TEntry.name, TEntry.isDir, push_path, hp, List.reverse_nil, List.nil_append, hc, if_true, testEntry,
      testIno_damaged o h hs none i d c hi hg hbad, uncounted, tForget, hs]
    simp
  have hloop : tLoop o (tSize (l₁ ++ .plain n i :: l₂) + 1) (TSt.start (l₁ ++ .plain n i :: l₂)) = (⟨(tTally o [] l₁).1, (tTally o [] l₁).2, 1⟩, none) := by
    rw [he, h1, tLoop_entry o _ (by rw [h2]; rfl) hstep, tLoop]
    simp only [tRead, h5, TStat.plus]
    simp [TSt.start, Defile.place]
  unfold filtreTest
  rw [hloop]
  rfl

/-- An archive read sequentially whose list of entries ends too soon (an interrupted backup, a truncated archive) passes the test when nothing else is wrong. -/
theorem C70_truncated_counterexample (o : TOpts) (h : o.dryRun = false) (l rest : List TEntry)
    (hf : ∀ p e, Seen o.subtree [] l p e → TestSelected o p e → e.Intact o.seq o.inos) (hl : ListReadable l) :
    darTest o false (l ++ .broken .range :: rest) = .ok () := by
  have hsz : ∀ (a b : List TEntry), tSize (a ++ b) = tSize a + tSize b := by
    intro a b
    induction a with
    | nil => simp [tSize]
    | cons x a ih => cases x <;> simp only [List.cons_append, tSize, ih] <;> omega
  obtain ⟨k, c', b', hk, h1, h2, h3, h4, h5⟩ := tLoop_fine o h (tSize l) l (Nat.le_refl _) false (.broken .range :: rest) [] (TSt.start (l ++ .broken .range :: rest)) (by simp [TSt.start])
    ⟨hf, hl⟩ (start_sure o _)
  have he : tSize (l ++ .broken .range :: rest) + 1 = (tSize l - k + tSize rest + 1 + 1) + k := by rw [hsz]; simp only [tSize]; omega
  have hloop : tLoop o (tSize (l ++ .broken .range :: rest) + 1) (TSt.start (l ++ .broken .range :: rest)) = (⟨(tTally o [] l).1, (tTally o [] l).2, 0⟩, some .range) := by
    rw [he, h1, tLoop, h2]
    simp only [tRead, h5, TStat.plus]
    simp [TSt.start, Defile.place]
  unfold darTest opTest filtreTest
  rw [hloop]
  cases hr : o.repairing <;> simp [outer, hr, bind, Except.bind]

/-- An isolated catalogue always passes the test. -/
theorem C70_isolated (o : TOpts) (l : List TEntry) : darTest o true l = .ok () := rfl

/-! ### examples -/

/-- all is selected, direct access -/
def tAll : TOpts := ⟨fun _ => true, fun _ => true, fun _ => ⟨0, none, none, none, none⟩, false, false, false, 0⟩
/-- a file of three bytes with a checksum of four bytes -/
def tFile (d sum : Bytes) : TIno := ⟨3, some [⟨.ok d, .ok (some ⟨.n, ⟨sum, 0⟩⟩)⟩], none, none, none⟩
def tGoodFile : TIno := tFile [1, 2, 3] [1, 2, 3, 0]
def tBadFile : TIno := tFile [1, 2, 3] [1, 9, 3, 0]
/-- attributes with a wrong checksum -/
def tBadEa : AttrPiece := ⟨.ok (), .ok [7], .ok ⟨.n, ⟨[8, 0, 0, 0], 0⟩⟩, 1⟩

-- two good files, one of them in a directory
example : darTest tAll false [.dir [100] ⟨0, none, none, none, none⟩ [.plain [102] tGoodFile], .plain [103] tGoodFile] = .ok () := by
  unfold darTest opTest filtreTest
  simp only [tSize]
  decide +kernel
example : opTest tAll false [.dir [100] ⟨0, none, none, none, none⟩ [.plain [102] tGoodFile], .plain [103] tGoodFile] = .ok ⟨3, 0, 0⟩ := by
  unfold opTest filtreTest
  simp only [tSize]
  decide +kernel
-- a damaged file in a directory
example : darTest tAll false [.dir [100] ⟨0, none, none, none, none⟩ [.plain [102] tBadFile], .plain [103] tGoodFile] = .error .data := by
  unfold darTest opTest filtreTest
  simp only [tSize]
  decide +kernel
example : opTest tAll false [.dir [100] ⟨0, none, none, none, none⟩ [.plain [102] tBadFile], .plain [103] tGoodFile] = .ok ⟨2, 0, 1⟩ := by
  unfold opTest filtreTest
  simp only [tSize]
  decide +kernel
-- the hypotheses of C70_test are met
example : TIno.Intact false tGoodFile := by
  refine ⟨fun l hl => ?_, (fun s hs => by cases hs), (fun s hs => by cases hs), (fun s hs => by cases hs)⟩
  injection hl with hl; subst hl
  refine ⟨by simp, fun p hp => ?_⟩
  rw [List.mem_singleton] at hp; subst hp
  refine ⟨[1, 2, 3], some ⟨.n, ⟨[1, 2, 3, 0], 0⟩⟩, rfl, rfl, fun c hc => ?_⟩
  injection hc with hc; subst hc
  exact ⟨⟨by decide, by decide⟩, (by unfold Crc.Fits; decide +kernel), (fun h => by cases h)⟩
-- in sequential reading both damaged files are counted, in direct access only the first one
example : opTest { tAll with seq := true } false [.plain [102] tBadFile, .plain [103] tBadFile, .plain [104] tGoodFile] = .ok ⟨1, 0, 2⟩ := by
  unfold opTest filtreTest
  simp only [tSize]
  decide +kernel
theorem C70_second_damage_not_reported_counterexample : opTest tAll false [.plain [102] tBadFile, .plain [103] tBadFile, .plain [104] tGoodFile] = .ok ⟨0, 0, 1⟩ := by
  unfold opTest filtreTest
  simp only [tSize]
  decide +kernel

/-- A wrong checksum on the attributes of a directory: its content is not tested, and what follows it is given a wrong path: here the file that should be tested is said to be
excluded by the filter on paths (which is about the content of that directory). -/
theorem C70_directory_damage_counterexample : opTest { tAll with subtree := fun p => !decide (p = [[100], [103]]) } false
      [.dir [100] ⟨0, none, none, some tBadEa, none⟩ [.plain [102] tBadFile], .plain [103] tBadFile] = .ok ⟨0, 1, 1⟩ := by
  unfold opTest filtreTest
  simp only [tSize]
  decide +kernel

/-- The second name of an inode whose attributes are damaged is said to be correct: the attributes read the first time are still in memory. -/
theorem C70_second_name_counterexample : opTest { tAll with inos := fun _ => ⟨0, none, none, some tBadEa, none⟩ } false
      [.dir [100] ⟨0, none, none, none, none⟩ [.link [97] 0], .dir [101] ⟨0, none, none, none, none⟩ [.link [98] 0]] = .ok ⟨3, 0, 1⟩ := by
  unfold opTest filtreTest
  simp only [tSize]
  decide +kernel

/-- In sequential reading, damaged attributes of a directory put an end to the test: what follows, damaged or not, is not read. -/
theorem C70_directory_sequential_counterexample : opTest { tAll with seq := true } false
      [.dir [100] ⟨0, none, none, some tBadEa, none⟩ [], .plain [103] tBadFile, .plain [104] tGoodFile] = .ok ⟨0, 0, 1⟩ := by
  unfold opTest filtreTest
  simp only [tSize]
  decide +kernel

end Dar
