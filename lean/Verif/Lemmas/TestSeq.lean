import Verif.Spec.TestSeq
import Verif.Lemmas.TestRaise
namespace Dar

/-! ### the failures of an inode -/

theorem ordinary_range : Err.Ordinary .range := by unfold Err.Ordinary; decide
theorem attrErr_ordinary {e : Err} (h : e.Ordinary) : (attrErr e).Ordinary := by
  obtain ⟨h1, h2, h3, h4, h5, h6⟩ := h
  cases e <;> first | exact ordinary_range | exact absurd rfl h1 | exact absurd rfl h3 | exact absurd rfl h4 | exact absurd rfl h5 | exact absurd rfl h6
theorem unlessRange_err {b : Bool} {x : Err} (h : unlessRange b = .error x) : x = .range := by
  cases b
  · injection h with h; exact h.symm
  · cases h

theorem sameCrc_err {a b : Crc} {x : Err} (hi : a.impl = b.impl) (h : sameCrc a b = .error x) : x = .range := by
  unfold sameCrc Crc.eqv at h
  rw [if_neg (by simpa using hi)] at h
  by_cases h2 : a.st.cyc.length ≠ b.st.cyc.length
  · rw [if_pos h2] at h; exact unlessRange_err (b := false) h
  · rw [if_neg h2] at h; exact unlessRange_err h

theorem testCopy_tame (o : TOpts) (hs : o.seq = true) (size : Nat) (p : DataPiece) (h1 : ∀ e, p.bytes = .error e → e.Ordinary) (h2 : ∀ e, p.crc = .error e → e.Ordinary)
    (h3 : ∀ c, p.crc = .ok (some c) → c.OfSize size) {x : Err} (h : testCopy o size p = .error x) : x.Ordinary := by
  unfold testCopy dataWidth at h
  simp only [hs, if_true, crcSizeFor_eq, bind, Except.bind] at h
  cases hb : p.bytes with
  | error e =>
    rw [hb] at h
    cases hc : p.crc with
    | error e' => simp only [hc] at h; injection h with h; subst h; exact h2 e' hc
    | ok r => simp only [hc] at h; injection h with h; subst h; exact h1 e hb
  | ok d =>
    rw [hb] at h
    simp only [copyCrc_eq o.addr d (widthFor_pos size), checkCrc] at h
    cases hc : p.crc with
    | error e' => simp only [hc, bind, Except.bind] at h; injection h with h; subst h; exact h2 e' hc
    | ok r =>
      simp only [hc, bind, Except.bind] at h
      cases r with
      | none => cases h
      | some c =>
        rw [sameCrc_err (h3 c hc).symm h]
        exact ordinary_range
theorem testCopies_tame (o : TOpts) (hs : o.seq = true) (size : Nat) (l : List DataPiece)
    (h : ∀ p ∈ l, (∀ e, p.bytes = .error e → e.Ordinary) ∧ (∀ e, p.crc = .error e → e.Ordinary) ∧ ∀ c, p.crc = .ok (some c) → c.OfSize size)
    {x : Err} (hx : testCopies o size l = .error x) : x.Ordinary := by
  induction l with
  | nil => cases hx
  | cons p l ih =>
    rw [testCopies] at hx
    cases hp : testCopy o size p with
    | error e =>
      rw [hp] at hx
      injection hx with hx; subst hx
      have := h p (List.mem_cons_self ..)
      exact testCopy_tame o hs size p this.1 this.2.1 this.2.2 hp
    | ok u => rw [hp] at hx; exact ih (fun q hq => h q (List.mem_cons_of_mem _ hq)) hx
theorem readAttr_tame (addr : Nat) {w : Nat} (hw : 0 < w) (a : AttrPiece) (h1 : ∀ e, a.seek = .error e → e.Ordinary) (h2 : ∀ e, a.bytes = .error e → e.Ordinary)
    (h3 : ∀ e, a.crc = .error e → e.Ordinary) {x : Err} (h : (readAttr addr (.ok w) a).1 = .error x) : x.Ordinary := by
  unfold readAttr at h
  cases hs : a.seek with
  | error e => rw [hs] at h; injection h with h; subst h; exact h1 e hs
  | ok u =>
    cases u
    rw [hs] at h
    simp only [crcCreate_pos hw] at h
    cases hb : a.bytes with
    | error e => rw [hb] at h; injection h with h; subst h; exact attrErr_ordinary (h2 e hb)
    | ok d =>
      rw [hb] at h
      simp only [Crc.compute_eq _ (startOk hw) addr d] at h
      cases hc : a.crc with
      | error e => rw [hc] at h; injection h with h; subst h; exact h3 e hc
      | ok c =>
        rw [hc] at h
        simp only [attrCrcOk] at h
        by_cases hi : crcImplFor w = c.impl
        · rw [if_neg (by simpa using hi)] at h
          rw [sameCrc_err hi h]; exact ordinary_range
        · rw [if_pos hi] at h
          injection h with h; subst h; exact ordinary_range

/-- an inode that is not hard-linked: the memory is left alone -/
theorem testSig_mem (o : TOpts) (i : TIno) (m : TMem) : (testSig o none i m).2 = m := by
  unfold testSig
  cases i.sig with
  | none => rfl
  | some s =>
    simp only [holds, Bool.false_eq_true, if_false]
    cases s.head with
    | error e => rfl
    | ok u => cases u; cases s.here <;> rfl
theorem testEa_mem (o : TOpts) (i : TIno) (m : TMem) : (testEa o none i m).2 = m := by
  unfold testEa
  cases i.ea with
  | none => rfl
  | some a =>
    simp only [holds, Bool.false_eq_true, if_false]
    by_cases hd : o.dryRun = true
    · rw [if_pos hd]
    · rw [if_neg hd]
      cases readAttr o.addr (eaWidth a.size) a with
      | mk r b => cases r with
        | ok u => rfl
        | error e => cases b <;> rfl
theorem testFsa_mem (o : TOpts) (i : TIno) (m : TMem) : (testFsa o none i m).2 = m := by
  unfold testFsa
  cases i.fsa with
  | none => rfl
  | some a =>
    simp only [holds, Bool.false_eq_true, if_false]
    by_cases hd : o.dryRun = true
    · rw [if_pos hd]
    · rw [if_neg hd]
      cases readAttr o.addr (crcSizeFor a.size) a with
      | mk r b => cases r with
        | ok u => rfl
        | error e => cases b <;> rfl
theorem testIno_mem (o : TOpts) (i : TIno) (m : TMem) : (testIno o none i m).2 = m := by
  unfold testIno
  cases testData o i with
  | error e => rfl
  | ok u =>
    cases u
    have h1 := testSig_mem o i m
    simp only
    cases hs : testSig o none i m with
    | mk r m1 =>
      rw [hs] at h1
      simp only at h1; subst h1
      cases r with
      | error e => rfl
      | ok u =>
        cases u
        have h2 := testEa_mem o i m1
        simp only
        cases he : testEa o none i m1 with
        | mk r m2 =>
          rw [he] at h2
          simp only at h2; subst h2
          cases r with
          | error e => rfl
          | ok u => cases u; exact testFsa_mem o i m2

theorem testIno_tame (o : TOpts) (hd : o.dryRun = false) (hs : o.seq = true) (i : TIno) (m : TMem) (hi : i.Tame) {x : Err} (h : (testIno o none i m).1 = .error x) : x.Ordinary := by
  unfold testIno at h
  cases hda : testData o i with
  | error e =>
    rw [hda] at h
    injection h with h; subst h
    unfold testData at hda
    cases hl : i.data with
    | none => rw [hl] at hda; cases hda
    | some l =>
      simp only [hl, hd, Bool.false_eq_true, if_false] at hda
      cases l with
      | nil => injection hda with hda; subst hda; exact ordinary_range
      | cons p l => exact testCopies_tame o hs i.size (p :: l) (hi.data _ hl) hda
  | ok u =>
    cases u
    rw [hda] at h
    simp only at h
    have h1 := testSig_mem o i m
    cases hsg : testSig o none i m with
    | mk r m1 =>
      rw [hsg] at h h1
      simp only at h1; subst h1
      cases r with
      | error e =>
        injection h with h; subst h
        unfold testSig at hsg
        cases hl : i.sig with
        | none => rw [hl] at hsg; cases hsg
        | some s =>
          have ht := hi.sig s hl
          simp only [hl, holds, Bool.false_eq_true, if_false] at hsg
          cases hh : s.head with
          | error e' => rw [hh] at hsg; injection hsg with hsg _; injection hsg with hsg; subst hsg; exact ht.1 _ hh
          | ok u =>
            cases u
            rw [hh] at hsg
            simp only at hsg
            by_cases hp : s.here = true
            · rw [if_pos hp] at hsg
              injection hsg with hsg _
              unfold fetchSig at hsg
              cases hb : s.bytes with
              | error e' => rw [hb] at hsg; injection hsg with hsg; subst hsg; exact ht.2.1 _ hb
              | ok d =>
                rw [hb] at hsg
                simp only [bind, Except.bind, crcSizeFor_eq, copyCrc_eq o.addr d (widthFor_pos s.size)] at hsg
                cases hc : s.crc with
                | error e' => rw [hc] at hsg; injection hsg with hsg; subst hsg; exact ht.2.2.1 _ hc
                | ok c => rw [hc] at hsg; rw [sameCrc_err (by exact ht.2.2.2 c hc) hsg]; exact ordinary_range
            · rw [if_neg hp] at hsg; cases hsg
      | ok u =>
        cases u
        simp only at h
        have h2 := testEa_mem o i m1
        cases he : testEa o none i m1 with
        | mk r m2 =>
          rw [he] at h h2
          simp only at h2; subst h2
          cases r with
          | error e =>
            injection h with h; subst h
            unfold testEa at he
            cases hl : i.ea with
            | none => rw [hl] at he; cases he
            | some a =>
              have ht := hi.ea a hl
              simp only [hl, hd, holds, Bool.false_eq_true, if_false, eaWidth_eq] at he
              have hw : 0 < (if a.size = 0 then 2 else widthFor a.size) := by split <;> [omega; exact widthFor_pos _]
              have hr := fun x => readAttr_tame o.addr hw a ht.1 ht.2.1 ht.2.2 (x := x)
              cases hra : readAttr o.addr (.ok (if a.size = 0 then 2 else widthFor a.size)) a with
              | mk r b =>
                rw [hra] at he hr
                cases r with
                | ok u => cases u; cases he
                | error e' => injection he with he _; injection he with he; subst he; exact hr _ rfl
          | ok u =>
            cases u
            simp only at h
            unfold testFsa at h
            cases hl : i.fsa with
            | none => rw [hl] at h; cases h
            | some a =>
              have ht := hi.fsa a hl
              simp only [hl, hd, holds, Bool.false_eq_true, if_false, crcSizeFor_eq] at h
              have hr := fun x => readAttr_tame o.addr (widthFor_pos a.size) a ht.1 ht.2.1 ht.2.2 (x := x)
              cases hra : readAttr o.addr (.ok (widthFor a.size)) a with
              | mk r b =>
                rw [hra] at h hr
                cases r with
                | ok u => cases u; cases h
                | error e' => injection h with h; subst h; exact hr _ rfl

theorem ordinary_counted (o : TOpts) {x : Err} (h : x.Ordinary) : uncounted o x = false := by
  obtain ⟨h1, h2, h3, h4, h5, h6⟩ := h
  cases x <;> first | rfl | exact absurd rfl h1 | exact absurd rfl h2 | exact absurd rfl h3 | exact absurd rfl h4 | exact absurd rfl h5 | exact absurd rfl h6

/-! ### going through a directory -/

/-- a property of all the selected entries, and the list of entries can be read -/
def AllIn (P : TEntry → Prop) (o : TOpts) (pre : List Bytes) (l : List TEntry) : Prop :=
  (∀ p e, Seen o.subtree pre l p e → TestSelected o p e → P e) ∧ ListReadable l
theorem allIn_dir (P : TEntry → Prop) (o : TOpts) (pre : List Bytes) (n : Bytes) (i : TIno) (ch l : List TEntry) (h : AllIn P o pre (.dir n i ch :: l)) :
    (o.subtree (pre ++ [n]) = true → P (.dir n i ch) ∧ AllIn P o (pre ++ [n]) ch) ∧ ListReadable ch ∧ AllIn P o pre l := by
  obtain ⟨h1, h2⟩ := h
  have hr : ListReadable ch := fun e h => h2 e (tbelow_cons.2 (Or.inr (Or.inl ⟨n, i, ch, rfl, h⟩)))
  exact ⟨fun hs => ⟨h1 _ _ (seen_cons.2 (Or.inl ⟨rfl, rfl⟩)) ⟨hs, Or.inl rfl⟩,
      fun p e h => h1 p e (seen_cons.2 (Or.inr (Or.inl ⟨n, i, ch, rfl, hs, h⟩))), hr⟩, hr,
    fun p e h => h1 p e (seen_cons.2 (Or.inr (Or.inr h))), fun e h => h2 e (tbelow_cons.2 (Or.inr (Or.inr h)))⟩
theorem allIn_leaf (P : TEntry → Prop) (o : TOpts) (pre : List Bytes) (x : TEntry) (l : List TEntry) (h : AllIn P o pre (x :: l)) :
    (TestSelected o (pre ++ [x.name]) x → P x) ∧ (∀ e, x ≠ .broken e) ∧ AllIn P o pre l := by
  obtain ⟨h1, h2⟩ := h
  exact ⟨h1 _ _ (seen_cons.2 (Or.inl ⟨rfl, rfl⟩)), fun e he => h2 e (tbelow_cons.2 (Or.inl he.symm)),
    fun p e h => h1 p e (seen_cons.2 (Or.inr (Or.inr h))), fun e h => h2 e (tbelow_cons.2 (Or.inr (Or.inr h)))⟩

/-- what the counters become after a directory having `e` damages -/
def TStat.Adds (s s' : TStat) (t : Nat × Nat) (e : Nat) : Prop := s'.treated + e = s.treated + t.1 ∧ s'.skipped = s.skipped + t.2 ∧ s'.errored = s.errored + e

/-- one entry of an archive read sequentially, other than a directory -/
theorem tEntry_seq (o : TOpts) (h : o.dryRun = false) (hs : o.seq = true) (e : TEntry) (l : List TEntry) (f : Frame) (up : List Frame) (c : TSt) (hf : c.frames = f :: up)
    (hd : e.isDir = false) (hnb : ∀ x, e ≠ .broken x) (hm : c.mem.Sure o) (hsel : TestSelected o (c.file.place.reverse ++ [e.name]) e → e.LocalDamage) :
    ∃ c', tEntry o e c = (c', none) ∧ c'.frames = f :: up ∧ c'.file.place = c.file.place ∧ c'.mem.Sure o ∧
      ∃ t d, tTally o c.file.place.reverse (e :: l) = ((tTally o c.file.place.reverse l).1 + t.1, (tTally o c.file.place.reverse l).2 + t.2) ∧
        damages o c.file.place.reverse (e :: l) = d + damages o c.file.place.reverse l ∧ c.stat.Adds c'.stat t d := by
  have hp1 : (c.file.push e.name e.isDir).place = c.file.place := by rw [push_place, hd]; rfl
  have htal : tTally o c.file.place.reverse (e :: l) = if chosen o (c.file.place.reverse ++ [e.name]) e = true then
      ((tTally o c.file.place.reverse l).1 + 1, (tTally o c.file.place.reverse l).2) else ((tTally o c.file.place.reverse l).1, (tTally o c.file.place.reverse l).2 + 1) := by
    rw [tTally]
    · simp only [chosen, hd, Bool.false_or]
    · intro n i ch hx; subst hx; cases hd
  cases hc : chosen o (c.file.place.reverse ++ [e.name]) e with
  | false =>
    refine ⟨{ c with file := c.file.push e.name e.isDir, stat := { c.stat with skipped := c.stat.skipped + 1 } },
      by unfold tEntry; simp [push_path, hc, hd], hf, hp1, hm, (0, 1), 0, by rw [htal, hc]; rfl, ?_, by simp [TStat.Adds]⟩
    cases e with
    | dir n i ch => cases hd
    | plain n i =>
      rw [damages, if_neg]
      rintro ⟨a, b, _⟩
      have := (chosen_iff o (c.file.place.reverse ++ [n]) (.plain n i)).2 ⟨a, Or.inr b⟩
      rw [show chosen o (c.file.place.reverse ++ [n]) (.plain n i) = false from hc] at this
      cases this
    | _ => simp [damages]
  | true =>
    have hx := (chosen_iff o _ _).1 hc
    have hl := hsel hx
    by_cases hi : e.Intact o.seq o.inos
    · rcases tEntry_fine o h e c hm hnb (fun _ => hi) with ⟨_, _, he⟩ | ⟨hc', _, _⟩ | ⟨hc', _, _⟩
      · refine ⟨_, he, hf, hp1, done_sure o e c.mem hm hi, (1, 0), 0, by rw [htal, hc]; rfl, ?_, by simp [TStat.Adds]⟩
        cases e with
        | dir n i ch => cases hd
        | plain n i => rw [damages, if_neg (fun ⟨_, _, g⟩ => g hi)]
        | _ => simp [damages]
      · rw [hc] at hc'; cases hc'
      · rw [hc] at hc'; cases hc'
    · cases e with
      | dir n i ch => cases hd
      | broken x => exact absurd rfl (hnb x)
      | link n k => exact absurd hl id
      | gone n => exact absurd trivial hi
      | plain n i =>
        have hsp := testIno_spec o h none i c.mem hm.1
        have hmm := testIno_mem o i c.mem
        cases hr : testIno o none i c.mem with
        | mk r m =>
          rw [hr] at hsp hmm
          simp only at hmm; subst hmm
          cases r with
          | ok u => exact absurd (hsp.1.1 rfl) hi
          | error x =>
            have hx' := ordinary_counted o (testIno_tame o h hs i c.mem hl (by rw [hr]))
            refine ⟨{ c with file := c.file.push n false, stat := { c.stat with errored := c.stat.errored + 1 } }, ?_, hf, hp1, hm, (1, 0), 1, by rw [htal, hc]; rfl, ?_, by simp [TStat.Adds]⟩
            · unfold tEntry
              have hc2 : chosen o (c.file.place.reverse ++ [n]) (.plain n i) = true := hc
              simp only [push_path, if_true, testEntry, hr, hx', hf, tForget, hs, TEntry.isDir, TEntry.name, hc2]
              simp
            · rw [damages, if_pos ⟨hx.1, by simpa [TEntry.isDir, TEntry.name] using hx.2, hi⟩]

theorem tLoop_seq (o : TOpts) (h : o.dryRun = false) (hseq : o.seq = true) : ∀ (s : Nat) (l : List TEntry), tSize l ≤ s → ∀ (b : Bool) (up : List Frame) (c : TSt),
    c.frames = ⟨b, l⟩ :: up → AllIn TEntry.LocalDamage o c.file.place.reverse l → c.mem.Sure o →
    ∃ k c' b', k ≤ tSize l ∧ (∀ n, tLoop o (n + k) c = tLoop o n c') ∧ c'.frames = ⟨b', []⟩ :: up ∧ c'.file.place = c.file.place ∧ c'.mem.Sure o ∧
      c.stat.Adds c'.stat (tTally o c.file.place.reverse l) (damages o c.file.place.reverse l) := by
  intro s
  induction s with
  | zero =>
    intro l hl b up c hf hi hm
    cases l with
    | nil => exact ⟨0, c, b, Nat.zero_le _, fun _ => rfl, hf, rfl, hm, by simp [tTally, damages, TStat.Adds]⟩
    | cons e l => exfalso; cases e <;> simp [tSize] at hl
  | succ s ih =>
    intro l hl b up c hf hi hm
    cases l with
    | nil => exact ⟨0, c, b, Nat.zero_le _, fun _ => rfl, hf, rfl, hm, by simp [tTally, damages, TStat.Adds]⟩
    | cons e l =>
      by_cases hd : e.isDir = true
      · cases e with
        | dir nm i ch =>
          simp only [tSize] at hl
          obtain ⟨hsub, hr, hi'⟩ := allIn_dir _ o _ nm i ch l hi
          have hread : tRead c.frames = (.entry (.dir nm i ch), ⟨false, ch⟩ :: ⟨true, l⟩ :: up) := by rw [hf]; rfl
          rcases tEntry_fine o h (.dir nm i ch) { c with frames := ⟨false, ch⟩ :: ⟨true, l⟩ :: up } hm (fun x hx => by cases hx)
            (fun hc => by have := (hsub hc.1).1; simp only [TEntry.Intact, hseq]; exact this) with ⟨hc, hin, he⟩ | ⟨hc, _, he⟩ | ⟨_, hh, _⟩
          · have hs : o.subtree (c.file.place.reverse ++ [nm]) = true := ((chosen_iff o _ _).1 hc).1
            obtain ⟨q1, c1, b1, gq, g1, g2, g3, g4, g5⟩ := ih ch (by omega) false (⟨true, l⟩ :: up)
              { frames := ⟨false, ch⟩ :: ⟨true, l⟩ :: up, file := c.file.push nm true, mem := c.mem, stat := { c.stat with treated := c.stat.treated + 1 } }
              rfl (by simpa [push_place] using (hsub hs).2) hm
            have hread1 : tRead c1.frames = (.eod, ⟨true, l⟩ :: up) := by rw [g2]; rfl
            have hp1 : c1.file.close.place = c.file.place := by rw [close_place, g3]; simp [push_place]
            obtain ⟨q2, c2, b2, kq, k1, k2, k3, k4, k5⟩ := ih l (by omega) true up { c1 with frames := ⟨true, l⟩ :: up, file := c1.file.close }
              rfl (by simpa [hp1] using hi') g4
            refine ⟨q2 + 1 + q1 + 1, c2, b2, by simp only [tSize]; omega, fun n => ?_, k2, ?_, k4, ?_⟩
            · have : n + (q2 + 1 + q1 + 1) = (n + q2 + 1 + q1) + 1 := by omega
              rw [this, tLoop_entry o _ hread he]
              refine (g1 (n + q2 + 1)).trans ?_
              rw [tLoop]; simp only [hread1]
              exact k1 n
            · rw [k3]; exact hp1
            · simp only [hp1] at k5
              simp only [push_place, if_true, List.reverse_cons] at g5
              rw [tTally, if_pos hs, damages, if_pos hs]
              obtain ⟨a1, a2, a3⟩ := g5
              obtain ⟨b1, b2, b3⟩ := k5
              refine ⟨?_, ?_, ?_⟩ <;> simp only at * <;> omega
          · have hs : ¬ o.subtree (c.file.place.reverse ++ [nm]) = true := by
              intro hs
              exact absurd ((chosen_iff o (c.file.place.reverse ++ [nm]) (.dir nm i ch)).2 ⟨hs, Or.inl rfl⟩)
                (by rw [show chosen o (c.file.place.reverse ++ [nm]) (.dir nm i ch) = false from hc]; decide)
            have hsk : tSkip (⟨false, ch⟩ :: ⟨true, l⟩ :: up) = ⟨true, l⟩ :: up := by simp only [tSkip, (brokenIn_none ch).2 hr]
            have hp1 : (c.file.push nm true).close.place = c.file.place := by simp [close_place, push_place]
            obtain ⟨q2, c2, b2, kq, k1, k2, k3, k4, k5⟩ := ih l (by omega) true up
              { frames := ⟨true, l⟩ :: up, file := (c.file.push nm true).close, mem := c.mem, stat := { c.stat with skipped := c.stat.skipped + 1 } }
              rfl (by simpa [hp1] using hi') hm
            refine ⟨q2 + 1, c2, b2, by simp only [tSize]; omega, fun n => ?_, k2, by rw [k3]; exact hp1, k4, ?_⟩
            · rw [← Nat.add_assoc, tLoop_entry o _ hread he]
              simp only [TEntry.name, TEntry.isDir, hsk]
              exact k1 n
            · simp only [hp1] at k5
              rw [tTally, if_neg hs, damages, if_neg hs]
              obtain ⟨b1, b2, b3⟩ := k5
              refine ⟨?_, ?_, ?_⟩ <;> simp only at * <;> omega
          · cases hh
        | _ => cases hd
      · have hd' : e.isDir = false := by simpa using hd
        obtain ⟨hsel, hnb, hi'⟩ := allIn_leaf _ o _ e l hi
        have hsz : tSize (e :: l) = 1 + tSize l := by cases e <;> simp [tSize, TEntry.isDir] at hd ⊢
        have hread : tRead c.frames = (.entry e, ⟨true, l⟩ :: up) := by rw [hf]; exact tRead_leaf e b _ up hd' hnb
        obtain ⟨c1, he, g2, g3, g4, t, d, ht, hdm, ha⟩ := tEntry_seq o h hseq e l ⟨true, l⟩ up { c with frames := ⟨true, l⟩ :: up } rfl hd' hnb hm hsel
        simp only at g3 ht hdm ha
        obtain ⟨q2, c2, b2, kq, k1, k2, k3, k4, k5⟩ := ih l (by omega) true up c1 g2 (by rw [g3]; exact hi') g4
        refine ⟨q2 + 1, c2, b2, by omega, fun n => ?_, k2, by rw [k3]; exact g3, k4, ?_⟩
        · rw [← Nat.add_assoc, tLoop_entry o _ hread he]
          exact k1 n
        · rw [g3] at k5
          rw [ht, hdm]
          obtain ⟨a1, a2, a3⟩ := ha
          obtain ⟨b1, b2, b3⟩ := k5
          refine ⟨?_, ?_, ?_⟩  <;> (try simp only) <;> omega

end Dar
