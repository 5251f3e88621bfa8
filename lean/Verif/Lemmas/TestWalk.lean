import Verif.Lemmas.TestIno
namespace Dar

/-! ### what "all is fine in a directory" gives -/

/-- everything selected in this directory is intact and the list of entries can be read -/
def FineIn (o : TOpts) (pre : List Bytes) (l : List TEntry) : Prop :=
  (∀ p e, Seen o.subtree pre l p e → TestSelected o p e → e.Intact o.seq o.inos) ∧ ListReadable l

theorem tseen_nil {s pre p e} : ¬ Seen s pre [] p e := by
  intro h; cases h with
  | here h => cases h
  | under h _ _ => cases h
theorem tbelow_nil {e} : ¬ TBelow [] e := by
  intro h; cases h with
  | here h => cases h
  | under h _ => cases h
theorem fineIn_nil (o : TOpts) (pre : List Bytes) : FineIn o pre [] := ⟨fun _ _ h => absurd h tseen_nil, fun _ h => absurd h tbelow_nil⟩

theorem seen_cons {s pre x l p e} : Seen s pre (x :: l) p e ↔
    (p = pre ++ [x.name] ∧ e = x) ∨ (∃ n i ch, x = .dir n i ch ∧ s (pre ++ [n]) = true ∧ Seen s (pre ++ [n]) ch p e) ∨ Seen s pre l p e := by
  constructor
  · intro h
    cases h with
    | here h =>
      rcases List.mem_cons.1 h with h | h
      · subst h; exact Or.inl ⟨rfl, rfl⟩
      · exact Or.inr (Or.inr (.here h))
    | under h h1 h2 =>
      rcases List.mem_cons.1 h with h | h
      · exact Or.inr (Or.inl ⟨_, _, _, h.symm, h1, h2⟩)
      · exact Or.inr (Or.inr (.under h h1 h2))
  · rintro (⟨h1, h2⟩ | ⟨n, i, ch, h, h1, h2⟩ | h)
    · subst h1; subst h2; exact .here (List.mem_cons_self ..)
    · subst h; exact .under (List.mem_cons_self ..) h1 h2
    · cases h with
      | here h => exact .here (List.mem_cons_of_mem _ h)
      | under h h1 h2 => exact .under (List.mem_cons_of_mem _ h) h1 h2
theorem tbelow_cons {x l e} : TBelow (x :: l) e ↔ e = x ∨ (∃ n i ch, x = .dir n i ch ∧ TBelow ch e) ∨ TBelow l e := by
  constructor
  · intro h
    cases h with
    | here h =>
      rcases List.mem_cons.1 h with h | h
      · exact Or.inl h
      · exact Or.inr (Or.inr (.here h))
    | under h h2 =>
      rcases List.mem_cons.1 h with h | h
      · exact Or.inr (Or.inl ⟨_, _, _, h.symm, h2⟩)
      · exact Or.inr (Or.inr (.under h h2))
  · rintro (h2 | ⟨n, i, ch, h, h2⟩ | h)
    · subst h2; exact .here (List.mem_cons_self ..)
    · subst h; exact .under (List.mem_cons_self ..) h2
    · cases h with
      | here h => exact .here (List.mem_cons_of_mem _ h)
      | under h h2 => exact .under (List.mem_cons_of_mem _ h) h2

theorem fineIn_dir (o : TOpts) (pre : List Bytes) (n : Bytes) (i : TIno) (ch l : List TEntry) :
    FineIn o pre (.dir n i ch :: l) ↔ ((o.subtree (pre ++ [n]) = true → i.Intact o.seq ∧ FineIn o (pre ++ [n]) ch) ∧ ListReadable ch ∧ FineIn o pre l) := by
  constructor
  · rintro ⟨h1, h2⟩
    have hr : ListReadable ch := fun e h => h2 e (tbelow_cons.2 (Or.inr (Or.inl ⟨n, i, ch, rfl, h⟩)))
    exact ⟨fun hs => ⟨h1 _ _ (seen_cons.2 (Or.inl ⟨rfl, rfl⟩)) ⟨hs, Or.inl rfl⟩,
        fun p e h => h1 p e (seen_cons.2 (Or.inr (Or.inl ⟨n, i, ch, rfl, hs, h⟩))), hr⟩, hr,
      fun p e h => h1 p e (seen_cons.2 (Or.inr (Or.inr h))), fun e h => h2 e (tbelow_cons.2 (Or.inr (Or.inr h)))⟩
  · rintro ⟨h1, hr, h2⟩
    refine ⟨fun p e h hc => ?_, fun e h => ?_⟩
    · rcases seen_cons.1 h with ⟨hp, he⟩ | ⟨n', i', ch', he, hs, h⟩ | h
      · subst hp; subst he; exact (h1 hc.1).1
      · injection he with e1 e2 e3; subst e1; subst e2; subst e3
        exact (h1 hs).2.1 p e h hc
      · exact h2.1 p e h hc
    · rcases tbelow_cons.1 h with he | ⟨n', i', ch', he, h⟩ | h
      · cases he
      · injection he with e1 e2 e3; subst e1; subst e2; subst e3
        exact hr e h
      · exact h2.2 e h
theorem fineIn_leaf (o : TOpts) (pre : List Bytes) (x : TEntry) (l : List TEntry) (hx : x.isDir = false) :
    FineIn o pre (x :: l) ↔ ((TestSelected o (pre ++ [x.name]) x → x.Intact o.seq o.inos) ∧ (∀ e, x ≠ .broken e) ∧ FineIn o pre l) := by
  have hnd : ∀ n i ch, x ≠ .dir n i ch := by intro n i ch h; subst h; cases hx
  constructor
  · rintro ⟨h1, h2⟩
    exact ⟨h1 _ _ (seen_cons.2 (Or.inl ⟨rfl, rfl⟩)), fun e he => h2 e (tbelow_cons.2 (Or.inl he.symm)),
      fun p e h => h1 p e (seen_cons.2 (Or.inr (Or.inr h))), fun e h => h2 e (tbelow_cons.2 (Or.inr (Or.inr h)))⟩
  · rintro ⟨h1, hb, h2⟩
    refine ⟨fun p e h hc => ?_, fun e h => ?_⟩
    · rcases seen_cons.1 h with ⟨hp, he⟩ | ⟨n', i', ch', he, hs, h⟩ | h
      · subst hp; subst he; exact h1 hc
      · exact absurd he (hnd _ _ _)
      · exact h2.1 p e h hc
    · rcases tbelow_cons.1 h with he | ⟨n', i', ch', he, h⟩ | h
      · exact hb e he.symm
      · exact absurd he (hnd _ _ _)
      · exact h2.2 e h

/-- no failure of reading below -/
theorem brokenIn_none (l : List TEntry) : brokenIn l = none ↔ ListReadable l := by
  suffices H : ∀ n, ∀ l, tSize l ≤ n → (brokenIn l = none ↔ ListReadable l) from H _ l (Nat.le_refl _)
  intro n
  induction n with
  | zero =>
    intro l hl
    cases l with
    | nil => exact ⟨fun _ _ h => absurd h tbelow_nil, fun _ => by rw [brokenIn]⟩
    | cons e l => exfalso; cases e <;> simp [tSize] at hl
  | succ n ih =>
    intro l hl
    cases l with
    | nil => exact ⟨fun _ _ h => absurd h tbelow_nil, fun _ => by rw [brokenIn]⟩
    | cons x l =>
      have key : ∀ (hx : x.isDir = false) (hb : ∀ e, x ≠ .broken e), brokenIn l = none ↔ ListReadable (x :: l) := by
        intro hx hb
        have hl' : tSize l ≤ n := by cases x <;> simp [tSize, TEntry.isDir] at hl hx <;> omega
        rw [ih l hl']
        constructor
        · intro h e hh
          rcases tbelow_cons.1 hh with he | ⟨n', i', ch', he, _⟩ | hh
          · exact hb e he.symm
          · subst he; cases hx
          · exact h e hh
        · exact fun h e hh => h e (tbelow_cons.2 (Or.inr (Or.inr hh)))
      cases x with
      | plain a b => rw [brokenIn]; exact key rfl (fun e h => by cases h); all_goals (intros; rename_i hh; cases hh)
      | link a b => rw [brokenIn]; exact key rfl (fun e h => by cases h); all_goals (intros; rename_i hh; cases hh)
      | gone a => rw [brokenIn]; exact key rfl (fun e h => by cases h); all_goals (intros; rename_i hh; cases hh)
      | broken e =>
        rw [brokenIn]
        exact ⟨(fun h => by cases h), fun h => absurd (tbelow_cons.2 (Or.inl rfl)) (h e)⟩
      | dir a i ch =>
        simp only [tSize] at hl
        have h1 := ih ch (by omega)
        have h2 := ih l (by omega)
        have hd : ListReadable (.dir a i ch :: l) ↔ ListReadable ch ∧ ListReadable l := by
          constructor
          · exact fun h => ⟨fun e hh => h e (tbelow_cons.2 (Or.inr (Or.inl ⟨_, _, _, rfl, hh⟩))), fun e hh => h e (tbelow_cons.2 (Or.inr (Or.inr hh)))⟩
          · rintro ⟨ha, hb⟩ e hh
            rcases tbelow_cons.1 hh with he | ⟨n', i', ch', he, hh⟩ | hh
            · cases he
            · injection he with e1 e2 e3; subst e3; exact ha e hh
            · exact hb e hh
        rw [brokenIn, hd, ← h1, ← h2]
        cases brokenIn ch <;> simp

/-! ### the path -/

theorem push_place (d : Defile) (n : Bytes) (b : Bool) : (d.push n b).place = if b then n :: d.place else d.place := by
  cases b <;> simp [Defile.push, Defile.place]
theorem close_place (d : Defile) : d.close.place = d.place.tail := by simp [Defile.close, Defile.place]
theorem push_path (d : Defile) (n : Bytes) (b : Bool) : (d.push n b).path = d.place.reverse ++ [n] := by simp [Defile.push, Defile.path]

/-! ### one entry -/

theorem chosen_iff (o : TOpts) (p : List Bytes) (e : TEntry) : chosen o p e = true ↔ TestSelected o p e := by
  simp [chosen, TestSelected]

/-- the hard-linked inodes already inspected are intact, nothing is held in memory -/
def TMem.Sure (o : TOpts) (m : TMem) : Prop := m.Clean ∧ ∀ k ∈ m.wrote, (o.inos k).Intact o.seq

theorem testEntry_spec (o : TOpts) (h : o.dryRun = false) (e : TEntry) (m : TMem) (hm : m.Sure o) (hb : ∀ x, e ≠ .broken x) :
    ((testEntry o e m).1 = .ok () ↔ e.Intact o.seq o.inos) ∧ ((testEntry o e m).1 = .ok () → (testEntry o e m).2 = m) := by
  unfold testEntry TEntry.Intact
  cases e with
  | plain n i => exact testIno_spec o h none i m hm.1
  | dir n i ch => exact testIno_spec o h none i m hm.1
  | gone n => exact ⟨⟨fun _ => trivial, fun _ => rfl⟩, fun _ => rfl⟩
  | broken x => exact absurd rfl (hb x)
  | link n k =>
    simp only
    by_cases hk : m.wrote.contains k = true
    · rw [if_pos hk]
      exact ⟨⟨fun _ => hm.2 k (by simpa using hk), fun _ => rfl⟩, fun _ => rfl⟩
    · rw [if_neg hk]
      exact testIno_spec o h (some k) (o.inos k) m hm.1
theorem done_sure (o : TOpts) (e : TEntry) (m : TMem) (hm : m.Sure o) (he : e.Intact o.seq o.inos) : (e.done m).Sure o := by
  cases e with
  | link n k =>
    refine ⟨hm.1, fun j hj => ?_⟩
    simp only [TEntry.done, List.mem_cons] at hj
    rcases hj with hj | hj
    · subst hj; exact he
    · exact hm.2 j hj
  | _ => exact hm

/-- an entry that is not selected, or intact: no error -/
theorem tEntry_fine (o : TOpts) (h : o.dryRun = false) (e : TEntry) (c : TSt) (hm : c.mem.Sure o) (hb : ∀ x, e ≠ .broken x)
    (he : TestSelected o (c.file.place.reverse ++ [e.name]) e → e.Intact o.seq o.inos) :
    (chosen o (c.file.place.reverse ++ [e.name]) e = true ∧ e.Intact o.seq o.inos ∧
      tEntry o e c = ({ c with file := c.file.push e.name e.isDir, mem := e.done c.mem, stat := { c.stat with treated := c.stat.treated + 1 } }, none)) ∨
    (chosen o (c.file.place.reverse ++ [e.name]) e = false ∧ e.isDir = true ∧
      tEntry o e c = ({ c with file := (c.file.push e.name e.isDir).close, frames := tSkip c.frames, stat := { c.stat with skipped := c.stat.skipped + 1 } }, none)) ∨
    (chosen o (c.file.place.reverse ++ [e.name]) e = false ∧ e.isDir = false ∧
      tEntry o e c = ({ c with file := c.file.push e.name e.isDir, stat := { c.stat with skipped := c.stat.skipped + 1 } }, none)) := by
  cases hc : chosen o (c.file.place.reverse ++ [e.name]) e with
  | true =>
    have hi := he ((chosen_iff o _ e).1 hc)
    have ht := testEntry_spec o h e c.mem hm hb
    have h1 := ht.1.2 hi
    have h2 := ht.2 h1
    refine Or.inl ⟨rfl, hi, ?_⟩
    unfold tEntry
    simp only [push_path, hc, if_true]
    have : testEntry o e c.mem = (.ok (), c.mem) := Prod.ext h1 h2
    rw [this]
  | false =>
    cases hd : e.isDir with
    | true => exact Or.inr (Or.inl ⟨rfl, rfl, by unfold tEntry; simp [push_path, hc, hd]⟩)
    | false => exact Or.inr (Or.inr ⟨rfl, rfl, by unfold tEntry; simp [push_path, hc, hd]⟩)

/-! ### going through a directory where all is fine -/

def TStat.plus (s : TStat) (t : Nat × Nat) : TStat := ⟨s.treated + t.1, s.skipped + t.2, s.errored⟩

theorem tRead_leaf (e : TEntry) (b : Bool) (l : List TEntry) (up : List Frame) (hd : e.isDir = false) (hb : ∀ x, e ≠ .broken x) :
    tRead (⟨b, e :: l⟩ :: up) = (.entry e, ⟨true, l⟩ :: up) := by
  cases e with
  | dir n i ch => cases hd
  | broken x => exact absurd rfl (hb x)
  | _ => rfl

theorem TStat.same {a b : TStat} (h1 : a.treated = b.treated) (h2 : a.skipped = b.skipped) (h3 : a.errored = b.errored) : a = b := by
  cases a; cases b; simp_all
theorem tLoop_entry (o : TOpts) (k : Nat) {c c' : TSt} {e : TEntry} {fs : List Frame} (hr : tRead c.frames = (.entry e, fs))
    (he : tEntry o e { c with frames := fs } = (c', none)) : tLoop o (k + 1) c = tLoop o k c' := by
  rw [tLoop]; simp only [hr, he]

/-- a directory where all is fine is read entirely and left at the place where it was -/
theorem tLoop_fine (o : TOpts) (h : o.dryRun = false) : ∀ (s : Nat) (l : List TEntry), tSize l ≤ s → ∀ (b : Bool) (rest : List TEntry) (up : List Frame) (c : TSt),
    c.frames = ⟨b, l ++ rest⟩ :: up → FineIn o c.file.place.reverse l → c.mem.Sure o →
    ∃ k c' b', k ≤ tSize l ∧ (∀ n, tLoop o (n + k) c = tLoop o n c') ∧ c'.frames = ⟨b', rest⟩ :: up ∧ c'.file.place = c.file.place ∧ c'.mem.Sure o ∧
      c'.stat = c.stat.plus (tTally o c.file.place.reverse l) := by
  intro s
  induction s with
  | zero =>
    intro l hl b rest up c hf hi hm
    cases l with
    | nil => exact ⟨0, c, b, Nat.zero_le _, fun _ => rfl, by simpa using hf, rfl, hm, by simp [tTally, TStat.plus]⟩
    | cons e l => exfalso; cases e <;> simp [tSize] at hl
  | succ s ih =>
    intro l hl b rest up c hf hi hm
    cases l with
    | nil => exact ⟨0, c, b, Nat.zero_le _, fun _ => rfl, by simpa using hf, rfl, hm, by simp [tTally, TStat.plus]⟩
    | cons e l =>
      rw [List.cons_append] at hf
      by_cases hd : e.isDir = true
      · -- a directory
        cases e with
        | dir nm i ch =>
          simp only [tSize] at hl
          obtain ⟨hsub, hr, hi'⟩ := (fineIn_dir o _ nm i ch l).1 hi
          have hread : tRead c.frames = (.entry (.dir nm i ch), ⟨false, ch⟩ :: ⟨true, l ++ rest⟩ :: up) := by rw [hf]; rfl
          rcases tEntry_fine o h (.dir nm i ch) { c with frames := ⟨false, ch⟩ :: ⟨true, l ++ rest⟩ :: up } hm (fun x hx => by cases hx)
            (fun hc => (hsub hc.1).1) with ⟨hc, hin, he⟩ | ⟨hc, _, he⟩ | ⟨_, hh, _⟩
          · -- selected: its entries, its end, what follows
            have hs : o.subtree (c.file.place.reverse ++ [nm]) = true := ((chosen_iff o _ _).1 hc).1
            obtain ⟨q1, c1, b1, gq, g1, g2, g3, g4, g5⟩ := ih ch (by omega) false [] (⟨true, l ++ rest⟩ :: up)
              { frames := ⟨false, ch⟩ :: ⟨true, l ++ rest⟩ :: up, file := c.file.push nm true, mem := c.mem, stat := { c.stat with treated := c.stat.treated + 1 } }
              (by simp) (by simpa [push_place] using (hsub hs).2) hm
            have hread1 : tRead c1.frames = (.eod, ⟨true, l ++ rest⟩ :: up) := by rw [g2]; rfl
            have hp1 : c1.file.close.place = c.file.place := by rw [close_place, g3]; simp [push_place]
            obtain ⟨q2, c2, b2, kq, k1, k2, k3, k4, k5⟩ := ih l (by omega) true rest up { c1 with frames := ⟨true, l ++ rest⟩ :: up, file := c1.file.close }
              rfl (by simpa [hp1] using hi') g4
            refine ⟨q2 + 1 + q1 + 1, c2, b2, by simp only [tSize]; omega, fun n => ?_, k2, ?_, k4, ?_⟩
            · have : n + (q2 + 1 + q1 + 1) = (n + q2 + 1 + q1) + 1 := by omega
              rw [this, tLoop_entry o _ hread he]
              refine (g1 (n + q2 + 1)).trans ?_
              rw [tLoop]; simp only [hread1]
              exact k1 n
            · rw [k3]; exact hp1
            · rw [k5, g5]
              simp only [hp1, push_place, if_true, List.reverse_cons]
              rw [tTally, if_pos hs]
              exact TStat.same (by simp only [TStat.plus] <;> omega) (by simp only [TStat.plus] <;> omega) rfl
          · -- not selected
            have hs : ¬ o.subtree (c.file.place.reverse ++ [nm]) = true := by
              intro hs; exact absurd ((chosen_iff o (c.file.place.reverse ++ [nm]) (.dir nm i ch)).2 ⟨hs, Or.inl rfl⟩) (by rw [show chosen o (c.file.place.reverse ++ [nm]) (.dir nm i ch) = false from hc]; decide)
            have hsk : tSkip (⟨false, ch⟩ :: ⟨true, l ++ rest⟩ :: up) = ⟨true, l ++ rest⟩ :: up := by
              simp only [tSkip, (brokenIn_none ch).2 hr]
            have hp1 : (c.file.push nm true).close.place = c.file.place := by simp [close_place, push_place]
            obtain ⟨q2, c2, b2, kq, k1, k2, k3, k4, k5⟩ := ih l (by omega) true rest up
              { frames := ⟨true, l ++ rest⟩ :: up, file := (c.file.push nm true).close, mem := c.mem, stat := { c.stat with skipped := c.stat.skipped + 1 } }
              rfl (by simpa [hp1] using hi') hm
            refine ⟨q2 + 1, c2, b2, by simp only [tSize]; omega, fun n => ?_, k2, by rw [k3]; exact hp1, k4, ?_⟩
            · rw [← Nat.add_assoc, tLoop_entry o _ hread he]
              simp only [TEntry.name, TEntry.isDir, hsk]
              exact k1 n
            · rw [k5]
              simp only [hp1]
              rw [tTally, if_neg hs]
              exact TStat.same (by simp only [TStat.plus] <;> omega) (by simp only [TStat.plus] <;> omega) rfl
          · cases hh
        | _ => cases hd
      · -- another entry
        have hd' : e.isDir = false := by simpa using hd
        obtain ⟨hsel, hnb, hi'⟩ := (fineIn_leaf o _ e l hd').1 hi
        have hsz : tSize (e :: l) = 1 + tSize l := by cases e <;> simp [tSize, TEntry.isDir] at hd ⊢
        have hread : tRead c.frames = (.entry e, ⟨true, l ++ rest⟩ :: up) := by rw [hf]; exact tRead_leaf e b _ up hd' hnb
        have hp1 : (c.file.push e.name e.isDir).place = c.file.place := by rw [push_place, hd']; rfl
        have htal : tTally o c.file.place.reverse (e :: l) = if chosen o (c.file.place.reverse ++ [e.name]) e = true then
            ((tTally o c.file.place.reverse l).1 + 1, (tTally o c.file.place.reverse l).2) else ((tTally o c.file.place.reverse l).1, (tTally o c.file.place.reverse l).2 + 1) := by
          rw [tTally]
          · simp only [chosen, hd', Bool.false_or]
          · intro n i ch hx; subst hx; cases hd'
        rcases tEntry_fine o h e { c with frames := ⟨true, l ++ rest⟩ :: up } hm hnb hsel with ⟨hc, hin, he⟩ | ⟨_, hh, _⟩ | ⟨hc, _, he⟩
        · obtain ⟨q2, c2, b2, kq, k1, k2, k3, k4, k5⟩ := ih l (by omega) true rest up
            { frames := ⟨true, l ++ rest⟩ :: up, file := c.file.push e.name e.isDir, mem := e.done c.mem, stat := { c.stat with treated := c.stat.treated + 1 } }
            rfl (by simpa [hp1] using hi') (done_sure o e c.mem hm hin)
          refine ⟨q2 + 1, c2, b2, by omega, fun n => ?_, k2, by rw [k3]; exact hp1, k4, ?_⟩
          · rw [← Nat.add_assoc, tLoop_entry o _ hread he]
            exact k1 n
          · rw [k5, htal, if_pos hc]
            simp only [hp1]
            exact TStat.same (by simp only [TStat.plus] <;> omega) (by simp only [TStat.plus] <;> omega) rfl
        · rw [hd'] at hh; cases hh
        · obtain ⟨q2, c2, b2, kq, k1, k2, k3, k4, k5⟩ := ih l (by omega) true rest up
            { frames := ⟨true, l ++ rest⟩ :: up, file := c.file.push e.name e.isDir, mem := c.mem, stat := { c.stat with skipped := c.stat.skipped + 1 } }
            rfl (by simpa [hp1] using hi') hm
          refine ⟨q2 + 1, c2, b2, by omega, fun n => ?_, k2, by rw [k3]; exact hp1, k4, ?_⟩
          · rw [← Nat.add_assoc, tLoop_entry o _ hread he]
            exact k1 n
          · rw [k5, htal, if_neg (by rw [hc]; decide)]
            simp only [hp1]
            exact TStat.same (by simp only [TStat.plus] <;> omega) (by simp only [TStat.plus] <;> omega) rfl

end Dar
