import Verif.Lemmas.TestWalk
namespace Dar

/-- the number of errors never decreases -/
theorem tEntry_errored (o : TOpts) (e : TEntry) (c : TSt) : c.stat.errored ≤ (tEntry o e c).1.stat.errored := by
  unfold tEntry
  simp only
  by_cases hc : chosen o (c.file.push e.name e.isDir).path e = true
  · rw [if_pos hc]
    cases testEntry o e c.mem with
    | mk r m =>
      cases r with
      | ok u => exact Nat.le_refl _
      | error x =>
        simp only
        by_cases hu : uncounted o x = true
        · rw [if_pos hu]
        · rw [if_neg hu]
          cases tForget o.seq e.isDir c.frames <;> simp
  · rw [if_neg hc]
    by_cases hd : e.isDir = true
    · rw [if_pos hd]
    · rw [if_neg hd]
theorem tLoop_errored (o : TOpts) : ∀ (n : Nat) (c : TSt), c.stat.errored ≤ (tLoop o n c).1.errored := by
  intro n
  induction n with
  | zero => exact fun c => Nat.le_refl _
  | succ n ih =>
    intro c
    rw [tLoop]
    cases hr : tRead c.frames with
    | mk it fs =>
      cases it with
      | theEnd => exact Nat.le_refl _
      | failed e => exact Nat.le_refl _
      | eod => simp only; exact ih ⟨fs, c.file.close, c.mem, c.stat⟩
      | entry e =>
        simp only
        have h1 := tEntry_errored o e { c with frames := fs }
        cases ht : tEntry o e { c with frames := fs } with
        | mk c' r =>
          rw [ht] at h1
          cases r with
          | some x => exact h1
          | none => exact Nat.le_trans h1 (ih c')

/-- an entry without error -/
theorem tEntry_quiet (o : TOpts) (h : o.dryRun = false) (e : TEntry) (c c' : TSt) (hm : c.mem.Sure o) (hb : ∀ x, e ≠ .broken x)
    (ht : tEntry o e c = (c', none)) (hq : c'.stat.errored = c.stat.errored) : TestSelected o (c.file.place.reverse ++ [e.name]) e → e.Intact o.seq o.inos := by
  intro hs
  have hc := (chosen_iff o _ _).2 hs
  have hsp := testEntry_spec o h e c.mem hm hb
  unfold tEntry at ht
  simp only [push_path, hc, if_true] at ht
  cases hr : testEntry o e c.mem with
  | mk r m =>
    rw [hr] at ht hsp
    cases r with
    | ok u => exact hsp.1.1 rfl
    | error x =>
      exfalso
      simp only at ht
      by_cases hu : uncounted o x = true
      · rw [if_pos hu] at ht; cases ht
      · rw [if_neg hu] at ht
        cases hf : tForget o.seq e.isDir c.frames with
        | error y => rw [hf] at ht; cases ht
        | ok fs =>
          rw [hf] at ht
          injection ht with ht _
          rw [← ht] at hq
          simp at hq

/-- all is fine in the directories being read -/
def AllFine (o : TOpts) : List Bytes → List Frame → Prop
  | _, [] => True
  | pl, f :: up => FineIn o pl.reverse f.rest ∧ AllFine o pl.tail up

theorem tLoop_quiet (o : TOpts) (h : o.dryRun = false) : ∀ (n : Nat) (c : TSt) (st : TStat), tLoop o n c = (st, none) → st.errored = c.stat.errored → c.mem.Sure o →
    AllFine o c.file.place c.frames := by
  intro n
  induction n with
  | zero => intro c st ht; cases ht
  | succ n ih =>
    intro c st ht hq hm
    -- an entry read
    have entry : ∀ (e : TEntry) (fs : List Frame), (∀ x, e ≠ .broken x) → tRead c.frames = (.entry e, fs) →
        (TestSelected o (c.file.place.reverse ++ [e.name]) e → e.Intact o.seq o.inos) ∧
        ((chosen o (c.file.place.reverse ++ [e.name]) e = true ∧ AllFine o (if e.isDir then e.name :: c.file.place else c.file.place) fs) ∨
         (chosen o (c.file.place.reverse ++ [e.name]) e = false ∧ e.isDir = true ∧ AllFine o c.file.place (tSkip fs)) ∨
         (chosen o (c.file.place.reverse ++ [e.name]) e = false ∧ e.isDir = false ∧ AllFine o c.file.place fs)) := by
      intro e fs hb hr
      rw [tLoop] at ht
      simp only [hr] at ht
      have hmono := tEntry_errored o e { c with frames := fs }
      cases he : tEntry o e { c with frames := fs } with
      | mk c' r =>
        rw [he] at ht hmono
        cases r with
        | some x => cases ht
        | none =>
          simp only at ht hmono
          have hm' := tLoop_errored o n c'
          rw [ht] at hm'
          have hq' : c'.stat.errored = c.stat.errored := by simp only at hm'; omega
          have hi := tEntry_quiet o h e { c with frames := fs } c' hm hb he hq'
          refine ⟨hi, ?_⟩
          rcases tEntry_fine o h e { c with frames := fs } hm hb hi with ⟨hc, hin, he'⟩ | ⟨hc, hd, he'⟩ | ⟨hc, hd, he'⟩
          · rw [he] at he'
            injection he' with he' _
            have := ih c' st ht (by rw [hq', hq]) (by rw [he']; exact done_sure o e c.mem hm hin)
            rw [he'] at this
            simp only [push_place] at this
            exact Or.inl ⟨hc, this⟩
          · rw [he] at he'
            injection he' with he' _
            have := ih c' st ht (by rw [hq', hq]) (by rw [he']; exact hm)
            rw [he'] at this
            simp only [close_place, push_place, hd, if_true, List.tail_cons] at this
            exact Or.inr (Or.inl ⟨hc, hd, this⟩)
          · rw [he] at he'
            injection he' with he' _
            have := ih c' st ht (by rw [hq', hq]) (by rw [he']; exact hm)
            rw [he'] at this
            simp only [push_place, hd, Bool.false_eq_true, if_false] at this
            exact Or.inr (Or.inr ⟨hc, hd, this⟩)
    cases hf : c.frames with
    | nil => trivial
    | cons f up =>
      obtain ⟨b, l⟩ := f
      rw [hf] at entry
      cases l with
      | nil =>
        cases up with
        | nil => exact ⟨fineIn_nil o _, trivial⟩
        | cons p up =>
          rw [tLoop] at ht
          have hr : tRead c.frames = (.eod, p :: up) := by rw [hf]; rfl
          simp only [hr] at ht
          have := ih _ st ht hq hm
          rw [close_place] at this
          exact ⟨fineIn_nil o _, this⟩
      | cons e l =>
        by_cases hd : e.isDir = true
        · cases e with
          | dir nm i ch =>
            obtain ⟨hi, hA⟩ := entry (.dir nm i ch) (⟨false, ch⟩ :: ⟨true, l⟩ :: up) (fun x hx => by cases hx) rfl
            rcases hA with ⟨hc, hA⟩ | ⟨hc, _, hA⟩ | ⟨_, hh, _⟩
            · simp only [TEntry.isDir, if_true, TEntry.name] at hA
              obtain ⟨a1, a2, a3⟩ := hA
              have hs := (chosen_iff o _ _).1 hc
              refine ⟨(fineIn_dir o _ nm i ch l).2 ⟨fun _ => ⟨hi hs, by simpa using a1⟩, a1.2, a2⟩, a3⟩
            · have hs : ¬ o.subtree (c.file.place.reverse ++ [nm]) = true := by
                intro hs
                exact absurd ((chosen_iff o (c.file.place.reverse ++ [nm]) (.dir nm i ch)).2 ⟨hs, Or.inl rfl⟩)
                  (by rw [show chosen o (c.file.place.reverse ++ [nm]) (.dir nm i ch) = false from hc]; decide)
              cases hbr : brokenIn ch with
              | some x =>
                simp only [tSkip, hbr] at hA
                exact absurd rfl (((fineIn_leaf o _ (.broken x) l rfl).1 hA.1).2.1 x)
              | none =>
                simp only [tSkip, hbr] at hA
                exact ⟨(fineIn_dir o _ nm i ch l).2 ⟨fun hs' => absurd hs' hs, (brokenIn_none ch).1 hbr, hA.1⟩, hA.2⟩
            · cases hh
          | _ => cases hd
        · have hd' : e.isDir = false := by simpa using hd
          by_cases hb : ∃ x, e = .broken x
          · obtain ⟨x, hx⟩ := hb
            subst hx
            rw [tLoop, hf] at ht
            simp only [tRead] at ht
            cases ht
          · have hb' : ∀ x, e ≠ .broken x := fun x hx => hb ⟨x, hx⟩
            obtain ⟨hi, hA⟩ := entry e (⟨true, l⟩ :: up) hb' (tRead_leaf e b l up hd' hb')
            have key : AllFine o c.file.place (⟨true, l⟩ :: up) → AllFine o c.file.place (⟨b, e :: l⟩ :: up) :=
              fun hA => ⟨(fineIn_leaf o _ e l hd').2 ⟨hi, hb', hA.1⟩, hA.2⟩
            rcases hA with ⟨_, hA⟩ | ⟨_, hh, _⟩ | ⟨_, _, hA⟩
            · rw [hd'] at hA; exact key hA
            · exact absurd hh hd
            · exact key hA

theorem start_sure (o : TOpts) (l : List TEntry) : (TSt.start l).mem.Sure o := ⟨⟨rfl, rfl, rfl⟩, fun k hk => by cases hk⟩

/-- the whole test: no error is the same as all is fine -/
theorem tLoop_start (o : TOpts) (h : o.dryRun = false) (l : List TEntry) (hf : FineIn o [] l) :
    tLoop o (tSize l + 1) (TSt.start l) = (⟨(tTally o [] l).1, (tTally o [] l).2, 0⟩, none) := by
  obtain ⟨k, c', b', hk, h1, h2, h3, h4, h5⟩ := tLoop_fine o h (tSize l) l (Nat.le_refl _) false [] [] (TSt.start l) (by simp [TSt.start]) hf (start_sure o l)
  have : tSize l + 1 = (tSize l - k + 1) + k := by omega
  rw [this, h1, tLoop, h2]
  simp only [tRead, h5, TStat.plus, TSt.start, Nat.zero_add]
  rfl
theorem tLoop_start_inv (o : TOpts) (h : o.dryRun = false) (n : Nat) (l : List TEntry) (st : TStat) (ht : tLoop o n (TSt.start l) = (st, none)) (he : st.errored = 0) :
    FineIn o [] l :=
  (tLoop_quiet o h n (TSt.start l) st ht he (start_sure o l)).1

end Dar
