import Verif.Lemmas.XformRead
namespace Dar

/-! ### the bounds put on the loops are never met, and the slices that are not opened do not matter -/

/-- one step of a reading, the rest being given -/
def setStep (goOn : Nat → Bool) (files : List Bytes) (s : SliceHdr) (k : SarR → Nat → Res (Bytes × SarR)) (r : SarR) (sz : Nat) : Res (Bytes × SarR) :=
  let f := files.getD (r.num - 1) []
  let got := (f.drop r.fd).take sz
  let fd' := r.fd + got.length
  let data := if s.old = false ∧ fd' = f.length ∧ 0 < got.length then got.dropLast else got
  if data.length = 0 then
    if r.flag = flagTerminal ∨ r.lastReached = true then
      .ok ([], { r with fd := fd' })
    else if r.off ≥ s.rd.size r.num - s.rd.delta then do
      let (_, r) ← setOpen goOn files (some s) r.last (r.num + 1)
      k r sz
    else do
      let place := min (s.rd.size r.num - r.off - s.rd.delta) sz
      let (rest, r') ← k { r with fd := fd', off := r.off + place } (sz - place)
      .ok (List.replicate place 0 ++ rest, r')
  else do
    let (rest, r') ← k { r with fd := fd', off := r.off + data.length } (sz - data.length)
    .ok (data ++ rest, r')

theorem setRead_step (goOn : Nat → Bool) (files : List Bytes) (s : SliceHdr) (fuel : Nat) (r : SarR) (sz : Nat) :
    setRead goOn files s (fuel + 1) r (sz + 1) = setStep goOn files s (fun r sz => setRead goOn files s fuel r sz) r (sz + 1) := by
  rw [setRead]; rfl

theorem setRead_zero (goOn : Nat → Bool) (files : List Bytes) (s : SliceHdr) (fuel : Nat) (r : SarR) : setRead goOn files s fuel r 0 = .ok ([], r) := by
  cases fuel <;> rfl

theorem setOpen_num {goOn : Nat → Bool} {files : List Bytes} {s0 : Option SliceHdr} {last : Option Nat} {num : Nat} {s : SliceHdr} {r : SarR}
    (h : setOpen goOn files s0 last num = .ok (s, r)) : r.num = num ∧ (num - 1 < files.length) ∧ (∀ x, s0 = some x → s = x) ∧ r.off = s.rd.hlen num ∧
      ∃ f hd, files[num - 1]? = some f ∧ openHdr goOn f = .ok (hd, r.fd) ∧ openFlag hd f = .ok r.flag ∧ openLast last num r.flag = .ok r.last ∧ s = s0.getD hd ∧ s.iname = hd.iname := by
  unfold setOpen at h
  cases hf : files[num - 1]? with
  | none => rw [hf] at h; cases h
  | some f =>
    rw [hf] at h
    simp only [Bind.bind, Except.bind] at h
    cases ho : openHdr goOn f with
    | error e => rw [ho] at h; cases h
    | ok p =>
      obtain ⟨hd, pos⟩ := p
      rw [ho] at h
      simp only at h
      by_cases hi : (s0.getD hd).iname ≠ hd.iname
      · rw [if_pos hi] at h; cases h
      · rw [if_neg hi] at h
        cases hfl : openFlag hd f with
        | error e => rw [hfl] at h; cases h
        | ok fl =>
          rw [hfl] at h
          simp only at h
          cases hl : openLast last num fl with
          | error e => rw [hl] at h; cases h
          | ok la =>
            rw [hl] at h
            simp only [Except.ok.injEq, Prod.mk.injEq] at h
            obtain ⟨h1, h2⟩ := h
            have hlt : num - 1 < files.length := by
              by_contra hc
              rw [List.getElem?_eq_none (by omega)] at hf; cases hf
            subst h2
            subst h1
            exact ⟨rfl, hlt, fun x hx => by rw [hx]; rfl, rfl, f, hd, rfl, ho, hfl, hl, rfl, by push Not at hi; exact hi⟩

/-- the outcome of a read does not depend on the bound put on the number of turns -/
theorem setRead_fuel {goOn : Nat → Bool} {files : List Bytes} {s : SliceHdr} : ∀ (n m : Nat) (r : SarR) (sz : Nat), sz + (files.length - r.num) < n → sz + (files.length - r.num) < m →
    setRead goOn files s n r sz = setRead goOn files s m r sz := by
  intro n
  induction n with
  | zero => intro m r sz h; omega
  | succ n ih =>
    intro m r sz hn hm
    cases sz with
    | zero => rw [setRead_zero, setRead_zero]
    | succ sz =>
      cases m with
      | zero => omega
      | succ m =>
        rw [setRead_step, setRead_step]
        unfold setStep
        simp only
        generalize ((files.getD (r.num - 1) []).drop r.fd).take (sz + 1) = got
        generalize (if s.old = false ∧ r.fd + got.length = (files.getD (r.num - 1) []).length ∧ 0 < got.length then got.dropLast else got) = data
        by_cases h0 : data.length = 0
        · rw [if_pos h0, if_pos h0]
          by_cases h1 : r.flag = flagTerminal ∨ r.lastReached = true
          · rw [if_pos h1, if_pos h1]
          · rw [if_neg h1, if_neg h1]
            by_cases h2 : r.off ≥ s.rd.size r.num - s.rd.delta
            · rw [if_pos h2, if_pos h2]
              cases ho : setOpen goOn files (some s) r.last (r.num + 1) with
              | error e => rfl
              | ok p =>
                obtain ⟨s', r'⟩ := p
                have hx := setOpen_num ho
                simp only [Bind.bind, Except.bind]
                exact ih m r' (sz + 1) (by rw [hx.1]; omega) (by rw [hx.1]; omega)
            · rw [if_neg h2, if_neg h2]
              rw [ih m _ _ (by simp only; omega) (by simp only; omega)]
        · rw [if_neg h0, if_neg h0]
          rw [ih m _ _ (by simp only; omega) (by simp only; omega)]

/-- what may still be read: the bytes of the files, and what replaces those that miss -/
def sliceLeft (files : List Bytes) (s : SliceHdr) (r : SarR) : Nat :=
  ((files.getD (r.num - 1) []).length - r.fd) + (s.rd.size r.num - s.rd.delta - r.off) + ((files.drop r.num).map List.length).sum + (files.length - r.num) * (s.firstSize + s.otherSize)

theorem size_le (s : SliceHdr) (n : Nat) : s.rd.size n ≤ s.firstSize + s.otherSize := by
  unfold SarCfg.size SliceHdr.rd SliceHdr.lay
  simp only
  split <;> omega

theorem sliceLeft_open {goOn : Nat → Bool} {files : List Bytes} {s s' : SliceHdr} {r r' : SarR} (h : setOpen goOn files (some s) r.last (r.num + 1) = .ok (s', r')) :
    sliceLeft files s r' ≤ sliceLeft files s r := by
  obtain ⟨h1, h2, h3, _⟩ := setOpen_num h
  unfold sliceLeft
  rw [h1]
  simp only [Nat.add_sub_cancel] at h2 ⊢
  have e : files.drop r.num = files[r.num] :: files.drop (r.num + 1) := List.drop_eq_getElem_cons h2
  have e2 : files.getD r.num [] = files[r.num] := by simp [List.getD, h2]
  rw [e, e2, List.map_cons, List.sum_cons]
  have := size_le s (r.num + 1)
  have e3 : files.length - r.num = (files.length - (r.num + 1)) + 1 := by omega
  rw [e3, Nat.add_mul]
  omega

theorem setRead_left {goOn : Nat → Bool} {files : List Bytes} {s : SliceHdr} : ∀ (n : Nat) (r : SarR) (sz : Nat) (got : Bytes) (r' : SarR), setRead goOn files s n r sz = .ok (got, r') →
    got.length + sliceLeft files s r' ≤ sliceLeft files s r ∧ r.num ≤ r'.num ∧ got.length ≤ sz := by
  intro n
  induction n with
  | zero =>
    intro r sz got r' h
    cases sz with
    | zero => rw [setRead_zero] at h; injection h with h; injection h with h1 h2; subst h1; subst h2; simp
    | succ sz => cases h
  | succ n ih =>
    intro r sz got r' h
    cases sz with
    | zero => rw [setRead_zero] at h; injection h with h; injection h with h1 h2; subst h1; subst h2; simp
    | succ sz =>
      rw [setRead_step] at h
      unfold setStep at h
      simp only at h
      have hgl : (((files.getD (r.num - 1) []).drop r.fd).take (sz + 1)).length ≤ (files.getD (r.num - 1) []).length - r.fd := by
        rw [List.length_take, List.length_drop]; omega
      have hgl2 : (((files.getD (r.num - 1) []).drop r.fd).take (sz + 1)).length ≤ sz + 1 := List.length_take_le _ _
      generalize ((files.getD (r.num - 1) []).drop r.fd).take (sz + 1) = g at h hgl hgl2
      have hdl : (if s.old = false ∧ r.fd + g.length = (files.getD (r.num - 1) []).length ∧ 0 < g.length then g.dropLast else g).length ≤ g.length := by
        split <;> simp
      generalize (if s.old = false ∧ r.fd + g.length = (files.getD (r.num - 1) []).length ∧ 0 < g.length then g.dropLast else g) = data at h hdl
      by_cases h0 : data.length = 0
      · rw [if_pos h0] at h
        by_cases h1 : r.flag = flagTerminal ∨ r.lastReached = true
        · rw [if_pos h1] at h
          injection h with h; injection h with h1 h2; subst h1; subst h2
          refine ⟨?_, Nat.le_refl _, by simp⟩
          unfold sliceLeft; simp only [List.length_nil]; omega
        · rw [if_neg h1] at h
          by_cases h2 : r.off ≥ s.rd.size r.num - s.rd.delta
          · rw [if_pos h2] at h
            cases ho : setOpen goOn files (some s) r.last (r.num + 1) with
            | error e => rw [ho] at h; cases h
            | ok p =>
              obtain ⟨s', r1⟩ := p
              rw [ho] at h
              simp only [Bind.bind, Except.bind] at h
              have hx := setOpen_num ho
              have hy := sliceLeft_open ho
              obtain ⟨i1, i2, i3⟩ := ih r1 (sz + 1) got r' h
              exact ⟨by omega, by omega, i3⟩
          · rw [if_neg h2] at h
            simp only [Bind.bind, Except.bind] at h
            split at h
            · cases h
            · rename_i hk
              rename_i q
              obtain ⟨rest, r1⟩ := q
              obtain ⟨i1, i2, i3⟩ := ih _ _ _ _ hk
              injection h with h; injection h with h3 h4; subst h3; subst h4
              simp only [List.length_append, List.length_replicate] at i1 i2 i3 ⊢
              refine ⟨?_, i2, by omega⟩
              unfold sliceLeft at i1 ⊢
              simp only at i1 ⊢
              omega
      · rw [if_neg h0] at h
        simp only [Bind.bind, Except.bind] at h
        split at h
        · cases h
        · rename_i hk
          rename_i q
          obtain ⟨rest, r1⟩ := q
          obtain ⟨i1, i2, i3⟩ := ih _ _ _ _ hk
          injection h with h; injection h with h3 h4; subst h3; subst h4
          simp only [List.length_append] at i1 i2 i3 ⊢
          refine ⟨?_, i2, by omega⟩
          unfold sliceLeft at i1 ⊢
          simp only at i1 ⊢
          omega

/-- a reading that succeeds without the slices that follow `pre`, or because they were not needed -/
theorem setOpen_pre {goOn : Nat → Bool} {pre post : List Bytes} {s0 : Option SliceHdr} {last : Option Nat} {num : Nat} (h1 : 1 ≤ num) (h : num ≤ pre.length) :
    setOpen goOn (pre ++ post) s0 last num = setOpen goOn pre s0 last num := by
  unfold setOpen
  rw [List.getElem?_append_left (by omega)]

theorem getD_pre {pre post : List Bytes} {i : Nat} (h : i < pre.length) : (pre ++ post).getD i [] = pre.getD i [] := by
  simp [List.getD, List.getElem?_append_left h]

/-- no slice is opened in vain: when slice `pre.length + 1` cannot be opened, a reading that succeeds has not used what follows -/
theorem setRead_pre {goOn : Nat → Bool} {pre post : List Bytes} {s : SliceHdr} (hbad : ∀ last, ∃ e, setOpen goOn (pre ++ post) (some s) last (pre.length + 1) = .error e) :
    ∀ (n : Nat) (r : SarR) (sz : Nat) (got : Bytes) (r' : SarR), 1 ≤ r.num → r.num ≤ pre.length → setRead goOn (pre ++ post) s n r sz = .ok (got, r') →
      setRead goOn pre s n r sz = .ok (got, r') ∧ 1 ≤ r'.num ∧ r'.num ≤ pre.length := by
  intro n
  induction n with
  | zero =>
    intro r sz got r' h1 hle h
    cases sz with
    | zero => rw [setRead_zero] at h ⊢; injection h with h; injection h with h2 h3; subst h2; subst h3; exact ⟨rfl, h1, hle⟩
    | succ sz => cases h
  | succ n ih =>
    intro r sz got r' h1 hle h
    cases sz with
    | zero => rw [setRead_zero] at h ⊢; injection h with h; injection h with h2 h3; subst h2; subst h3; exact ⟨rfl, h1, hle⟩
    | succ sz =>
      rw [setRead_step] at h ⊢
      unfold setStep at h ⊢
      simp only at h ⊢
      rw [getD_pre (by omega)] at h
      generalize ((pre.getD (r.num - 1) []).drop r.fd).take (sz + 1) = g at h ⊢
      generalize (if s.old = false ∧ r.fd + g.length = (pre.getD (r.num - 1) []).length ∧ 0 < g.length then g.dropLast else g) = data at h ⊢
      by_cases h0 : data.length = 0
      · rw [if_pos h0] at h ⊢
        by_cases h2 : r.flag = flagTerminal ∨ r.lastReached = true
        · rw [if_pos h2] at h ⊢
          injection h with h; injection h with h3 h4; subst h3; subst h4
          exact ⟨rfl, h1, hle⟩
        · rw [if_neg h2] at h ⊢
          by_cases h3 : r.off ≥ s.rd.size r.num - s.rd.delta
          · rw [if_pos h3] at h ⊢
            by_cases hlt : r.num + 1 ≤ pre.length
            · rw [setOpen_pre (by omega) hlt] at h
              cases ho : setOpen goOn pre (some s) r.last (r.num + 1) with
              | error e => rw [ho] at h; cases h
              | ok p =>
                obtain ⟨s', r1⟩ := p
                rw [ho] at h
                simp only [Bind.bind, Except.bind] at h ⊢
                have hx := setOpen_num ho
                exact ih r1 (sz + 1) got r' (by rw [hx.1]; omega) (by rw [hx.1]; omega) h
            · have : r.num + 1 = pre.length + 1 := by omega
              rw [this] at h
              obtain ⟨e, he⟩ := hbad r.last
              rw [he] at h; cases h
          · rw [if_neg h3] at h ⊢
            simp only [Bind.bind, Except.bind] at h ⊢
            split at h
            · cases h
            · rename_i hk
              rename_i q
              obtain ⟨rest, r1⟩ := q
              obtain ⟨i1, i2, i3⟩ := ih _ _ _ _ (by exact h1) (by exact hle) hk
              injection h with h; injection h with h4 h5; subst h4; subst h5
              rw [i1]
              exact ⟨rfl, i2, i3⟩
      · rw [if_neg h0] at h ⊢
        simp only [Bind.bind, Except.bind] at h ⊢
        split at h
        · cases h
        · rename_i hk
          rename_i q
          obtain ⟨rest, r1⟩ := q
          obtain ⟨i1, i2, i3⟩ := ih _ _ _ _ (by exact h1) (by exact hle) hk
          injection h with h; injection h with h4 h5; subst h4; subst h5
          rw [i1]
          exact ⟨rfl, i2, i3⟩

theorem setCopy_pre {goOn : Nat → Bool} {pre post : List Bytes} {s : SliceHdr} (hbad : ∀ last, ∃ e, setOpen goOn (pre ++ post) (some s) last (pre.length + 1) = .error e) :
    ∀ (n m : Nat) (r : SarR) (l : List Bytes), 1 ≤ r.num → r.num ≤ pre.length → sliceLeft pre s r < m → setCopy goOn (pre ++ post) s n r = (l, none) → setCopy goOn pre s m r = (l, none) := by
  intro n
  induction n with
  | zero => intro m r l _ _ _ h; cases h
  | succ n ih =>
    intro m r l h1 hle hm h
    cases m with
    | zero => omega
    | succ m =>
      rw [setCopy] at h ⊢
      cases hr : setRead goOn (pre ++ post) s (genericBuffer + (pre ++ post).length + 1) r genericBuffer with
      | error e => rw [hr] at h; cases h
      | ok p =>
        obtain ⟨got, r'⟩ := p
        obtain ⟨e1, e2, e3⟩ := setRead_pre hbad _ _ _ _ _ h1 hle hr
        rw [setRead_fuel _ (genericBuffer + pre.length + 1) r genericBuffer (by rw [List.length_append]; omega) (by omega)] at e1
        rw [hr] at h
        rw [e1]
        simp only at h ⊢
        by_cases h0 : got.length = 0
        · rw [if_pos h0] at h ⊢; exact h
        · rw [if_neg h0] at h ⊢
          have hl := (setRead_left _ _ _ _ _ e1).1
          cases hc : setCopy goOn (pre ++ post) s n r' with
          | mk l' e =>
            rw [hc] at h
            simp only [Prod.mk.injEq] at h
            obtain ⟨h3, h4⟩ := h
            subst h4
            rw [ih m r' l' e2 e3 (by omega) hc]
            simp only [h3]

theorem sliceLeft_start {goOn : Nat → Bool} {files : List Bytes} {s : SliceHdr} {r : SarR} (h : setStart goOn files = .ok (s, r)) : sliceLeft files s r < setTurns files s := by
  obtain ⟨h1, h2, _⟩ := setOpen_num h
  unfold sliceLeft setTurns
  rw [h1]
  cases files with
  | nil => simp at h2
  | cons f l =>
    have := size_le s 1
    simp only [Nat.sub_self, List.getD_cons_zero, List.drop_succ_cons, List.drop_zero, List.map_cons, List.sum_cons, List.length_cons, Nat.add_sub_cancel]
    rw [Nat.add_mul]
    omega

/-! ### without the last slice -/

theorem setRead_noend {goOn : Nat → Bool} {files : List Bytes} {s : SliceHdr}
    (hno : ∀ (i : Nat) f h p, files[i]? = some f → openHdr goOn f = .ok (h, p) → openFlag h f ≠ .ok flagTerminal) :
    ∀ (n : Nat) (r : SarR) (sz : Nat) (got : Bytes) (r' : SarR), r.flag ≠ flagTerminal → r.last = none → setRead goOn files s n r sz = .ok (got, r') →
      got.length = sz ∧ r'.flag ≠ flagTerminal ∧ r'.last = none := by
  intro n
  induction n with
  | zero =>
    intro r sz got r' hf hl h
    cases sz with
    | zero => rw [setRead_zero] at h; injection h with h; injection h with h2 h3; subst h2; subst h3; exact ⟨rfl, hf, hl⟩
    | succ sz => cases h
  | succ n ih =>
    intro r sz got r' hf hl h
    cases sz with
    | zero => rw [setRead_zero] at h; injection h with h; injection h with h2 h3; subst h2; subst h3; exact ⟨rfl, hf, hl⟩
    | succ sz =>
      rw [setRead_step] at h
      unfold setStep at h
      simp only at h
      have hgl2 : (((files.getD (r.num - 1) []).drop r.fd).take (sz + 1)).length ≤ sz + 1 := List.length_take_le _ _
      generalize ((files.getD (r.num - 1) []).drop r.fd).take (sz + 1) = g at h hgl2
      have hdl : (if s.old = false ∧ r.fd + g.length = (files.getD (r.num - 1) []).length ∧ 0 < g.length then g.dropLast else g).length ≤ g.length := by
        split <;> simp
      generalize (if s.old = false ∧ r.fd + g.length = (files.getD (r.num - 1) []).length ∧ 0 < g.length then g.dropLast else g) = data at h hdl
      by_cases h0 : data.length = 0
      · rw [if_pos h0] at h
        have hr : ¬ (r.flag = flagTerminal ∨ r.lastReached = true) := by
          rintro (hx | hx)
          · exact hf hx
          · unfold SarR.lastReached at hx; rw [hl] at hx; cases hx
        rw [if_neg hr] at h
        by_cases h3 : r.off ≥ s.rd.size r.num - s.rd.delta
        · rw [if_pos h3] at h
          cases ho : setOpen goOn files (some s) r.last (r.num + 1) with
          | error e => rw [ho] at h; cases h
          | ok p =>
            obtain ⟨s', r1⟩ := p
            rw [ho] at h
            simp only [Bind.bind, Except.bind] at h
            obtain ⟨_, _, _, _, f, hd, k1, k2, k3, k4, _⟩ := setOpen_num ho
            have hfl : r1.flag ≠ flagTerminal := by
              intro hc; rw [hc] at k3; exact hno _ f hd _ k1 k2 k3
            unfold openLast at k4
            rw [if_neg hfl, hl] at k4
            injection k4 with k4
            exact ih r1 (sz + 1) got r' hfl k4.symm h
        · rw [if_neg h3] at h
          simp only [Bind.bind, Except.bind] at h
          split at h
          · cases h
          · rename_i hk
            rename_i q
            obtain ⟨rest, r1⟩ := q
            obtain ⟨i1, i2, i3⟩ := ih _ _ _ _ (by exact hf) (by exact hl) hk
            injection h with h; injection h with h4 h5; subst h4; subst h5
            refine ⟨?_, i2, i3⟩
            rw [List.length_append, List.length_replicate, i1]; omega
      · rw [if_neg h0] at h
        simp only [Bind.bind, Except.bind] at h
        split at h
        · cases h
        · rename_i hk
          rename_i q
          obtain ⟨rest, r1⟩ := q
          obtain ⟨i1, i2, i3⟩ := ih _ _ _ _ (by exact hf) (by exact hl) hk
          injection h with h; injection h with h4 h5; subst h4; subst h5
          refine ⟨?_, i2, i3⟩
          rw [List.length_append, i1]; omega

theorem setCopy_noend {goOn : Nat → Bool} {files : List Bytes} {s : SliceHdr}
    (hno : ∀ (i : Nat) f h p, files[i]? = some f → openHdr goOn f = .ok (h, p) → openFlag h f ≠ .ok flagTerminal) :
    ∀ (n : Nat) (r : SarR), r.flag ≠ flagTerminal → r.last = none → ∃ l e, setCopy goOn files s n r = (l, some e) := by
  intro n
  induction n with
  | zero => intro r _ _; exact ⟨_, _, rfl⟩
  | succ n ih =>
    intro r hf hl
    rw [setCopy]
    cases hr : setRead goOn files s (genericBuffer + files.length + 1) r genericBuffer with
    | error e => exact ⟨_, _, rfl⟩
    | ok p =>
      obtain ⟨got, r'⟩ := p
      obtain ⟨e1, e2, e3⟩ := setRead_noend hno _ _ _ _ _ hf hl hr
      simp only
      rw [if_neg (by rw [e1]; decide)]
      obtain ⟨l, e, h⟩ := ih r' e2 e3
      rw [h]
      exact ⟨_, _, rfl⟩

end Dar
