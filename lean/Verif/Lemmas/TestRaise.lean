import Verif.Lemmas.TestConv
namespace Dar

/-! ### the exceptions that leave the loop -/

theorem readable_tail {e : TEntry} {l : List TEntry} (h : ListReadable (e :: l)) : ListReadable l := fun x hx => h x (tbelow_cons.2 (Or.inr (Or.inr hx)))
theorem readable_in {n : Bytes} {i : TIno} {ch l : List TEntry} (h : ListReadable (.dir n i ch :: l)) : ListReadable ch :=
  fun x hx => h x (tbelow_cons.2 (Or.inr (Or.inl ⟨_, _, _, rfl, hx⟩)))
theorem readable_nil : ListReadable [] := fun _ h => absurd h tbelow_nil

def FramesReadable (fs : List Frame) : Prop := ∀ f ∈ fs, ListReadable f.rest

theorem tRead_readable (fs : List Frame) (h : FramesReadable fs) : (∀ e, (tRead fs).1 ≠ .failed e) ∧ FramesReadable (tRead fs).2 := by
  cases fs with
  | nil => exact ⟨(fun e h => by cases h), h⟩
  | cons f up =>
    obtain ⟨b, l⟩ := f
    have hl := h ⟨b, l⟩ (List.mem_cons_self ..)
    have hu : ∀ f ∈ up, ListReadable f.rest := fun f hf => h f (List.mem_cons_of_mem _ hf)
    cases l with
    | nil => cases up with
      | nil => exact ⟨(fun e h => by cases h), h⟩
      | cons p up => exact ⟨(fun e h => by cases h), hu⟩
    | cons e l =>
      have hl' : ListReadable l := readable_tail hl
      have hfs : FramesReadable (⟨true, l⟩ :: up) := by
        intro f hf
        rcases List.mem_cons.1 hf with hf | hf
        · subst hf; exact hl'
        · exact hu f hf
      cases e with
      | broken x => exact absurd (tbelow_cons.2 (Or.inl rfl)) (hl x)
      | dir n i ch =>
        refine ⟨(fun e h => by cases h), fun f hf => ?_⟩
        rcases List.mem_cons.1 hf with hf | hf
        · subst hf; exact readable_in hl
        · exact hfs f hf
      | plain a i => exact ⟨(fun e h => by cases h), hfs⟩
      | link a i => exact ⟨(fun e h => by cases h), hfs⟩
      | gone a => exact ⟨(fun e h => by cases h), hfs⟩
theorem tSkip_readable (fs : List Frame) (h : FramesReadable fs) : FramesReadable (tSkip fs) := by
  cases fs with
  | nil => exact h
  | cons f up => cases up with
    | nil => exact h
    | cons p up =>
      obtain ⟨b, l⟩ := f
      have hl := h ⟨b, l⟩ (List.mem_cons_self ..)
      simp only [tSkip, (brokenIn_none l).2 hl]
      exact fun f hf => h f (List.mem_cons_of_mem _ hf)
theorem tForget_readable (isDir : Bool) (fs fs' : List Frame) (h : FramesReadable fs) (hf : tForget false isDir fs = .ok fs') : FramesReadable fs' := by
  cases fs with
  | nil => injection hf with hf; subst hf; exact h
  | cons f up =>
    simp only [tForget, Bool.false_eq_true, if_false] at hf
    have hu : ∀ f ∈ up, ListReadable f.rest := fun f hf => h f (List.mem_cons_of_mem _ hf)
    by_cases hb : f.begun = true
    · rw [if_pos hb] at hf
      injection hf with hf; subst hf
      intro g hg
      rcases List.mem_cons.1 hg with hg | hg
      · subst hg; exact readable_nil
      · exact hu g hg
    · rw [if_neg hb] at hf
      cases up with
      | nil => injection hf with hf; subst hf; exact h
      | cons p up => injection hf with hf; subst hf; exact hu
theorem tForget_ok (isDir : Bool) (fs : List Frame) : ∃ fs', tForget false isDir fs = .ok fs' := by
  cases fs with
  | nil => exact ⟨_, rfl⟩
  | cons f up =>
    simp only [tForget, Bool.false_eq_true, if_false]
    by_cases hb : f.begun = true
    · rw [if_pos hb]; exact ⟨_, rfl⟩
    · rw [if_neg hb]; cases up <;> exact ⟨_, rfl⟩

/-- in direct access an entry lets out the uncounted exceptions only -/
theorem tEntry_raise (o : TOpts) (hs : o.seq = false) (e : TEntry) (c : TSt) (h : FramesReadable c.frames) :
    (∀ x, (tEntry o e c).2 = some x → uncounted o x = true) ∧ FramesReadable (tEntry o e c).1.frames := by
  unfold tEntry
  simp only
  by_cases hc : chosen o (c.file.push e.name e.isDir).path e = true
  · rw [if_pos hc]
    cases testEntry o e c.mem with
    | mk r m =>
      cases r with
      | ok u => exact ⟨(fun x hx => by cases hx), h⟩
      | error x =>
        simp only
        by_cases hu : uncounted o x = true
        · rw [if_pos hu]; exact ⟨(fun y hy => by injection hy with hy; rw [← hy]; exact hu), h⟩
        · rw [if_neg hu, hs]
          obtain ⟨fs', hf⟩ := tForget_ok e.isDir c.frames
          simp only [hf]
          exact ⟨(fun y hy => by cases hy), tForget_readable e.isDir c.frames fs' h hf⟩
  · rw [if_neg hc]
    by_cases hd : e.isDir = true
    · rw [if_pos hd]; exact ⟨(fun y hy => by cases hy), tSkip_readable _ h⟩
    · rw [if_neg hd]; exact ⟨(fun y hy => by cases hy), h⟩
theorem tLoop_raise (o : TOpts) (hs : o.seq = false) : ∀ (n : Nat) (c : TSt), FramesReadable c.frames → ∀ x, (tLoop o n c).2 = some x → uncounted o x = true := by
  intro n
  induction n with
  | zero => intro c _ x hx; injection hx with hx; subst hx; rfl
  | succ n ih =>
    intro c hf x hx
    have hr := tRead_readable c.frames hf
    rw [tLoop] at hx
    cases hrd : tRead c.frames with
    | mk it fs =>
      rw [hrd] at hx hr
      cases it with
      | theEnd => cases hx
      | failed e => exact absurd rfl (hr.1 e)
      | eod => exact ih ⟨fs, c.file.close, c.mem, c.stat⟩ hr.2 x hx
      | entry e =>
        simp only at hx
        have h1 := tEntry_raise o hs e { c with frames := fs } hr.2
        cases ht : tEntry o e { c with frames := fs } with
        | mk c' r =>
          rw [ht] at h1 hx
          cases r with
          | some y => exact h1.1 x hx
          | none => exact ih c' h1.2 x hx

theorem start_readable {l : List TEntry} (h : ListReadable l) : FramesReadable (TSt.start l).frames := by
  intro f hf
  simp only [TSt.start, List.mem_singleton] at hf
  subst hf; exact h

/-! ### a damaged file -/

/-- the recorded checksum is not the one of the data read: Erange -/
theorem testIno_damaged (o : TOpts) (hd : o.dryRun = false) (hs : o.seq = false) (k : Option Nat) (i : TIno) (d : Bytes) (c : Crc)
    (h : i.data = some [⟨.ok d, .ok (some c)⟩]) (hg : c.Good) (hf : ¬ c.Fits d) (m : TMem) : testIno o k i m = (.error .range, m) := by
  have hr : testData o i = .error .range := by
    unfold testData
    simp only [h, hd, Bool.false_eq_true, if_false, testCopies, testCopy, dataWidth, hs, bind, Except.bind, copyCrc_eq o.addr d hg.1, checkCrc, sameCrc]
    obtain ⟨b, hb, hb'⟩ := eqv_fits c c.st.cyc.length d hg.1 hg.2 rfl
    unfold Crc.eqv
    simp only [crcFold_start c.st.cyc.length hg.1 d, crcSpec_length, hg.2]
    rw [if_neg (by simp), if_neg (by simp)]
    have : tCompare (crcSpec c.st.cyc.length d) c.st.cyc = false := by
      cases ht : tCompare (crcSpec c.st.cyc.length d) c.st.cyc with
      | false => rfl
      | true => exact absurd ((tCompare_iff _ _).1 ht).symm hf
    rw [this]
    rfl
  unfold testIno
  rw [hr]

end Dar
