import Verif.Lemmas.XformOld
namespace Dar

/-! ### the reading of slices whose headers are as expected -/

theorem rd_size {s : SliceHdr} {c : SarCfg} (h : s.lay = c.lay) (n : Nat) : s.rd.size n = c.size n ∧ s.rd.hlen n = c.hlen n ∧ s.rd.delta = c.delta ∧ s.old = c.lay.old := by
  refine ⟨?_, ?_, ?_, ?_⟩
  · unfold SliceHdr.rd SarCfg.size; rw [h]
  · unfold SliceHdr.rd SarCfg.hlen; rw [h]
  · unfold SliceHdr.rd SarCfg.delta; rw [h]
  · rw [← h]; rfl

theorem setOpen_eq {goOn : Nat → Bool} {c : SarCfg} {files : List Bytes} {s : SliceHdr} (hs : SetOk goOn c files s)
    (hfl : ∀ (i : Nat) f, files[i]? = some f → ∃ fl, sarFlagOf c f = some fl ∧ (fl = flagTerminal ∨ fl = flagNonTerminal)) (r : SarR) (num : Nat) (hn : r.num ≠ num) (h1 : 1 ≤ num) :
    setOpen goOn files (some s) r.last num = (sarOpenR c files r num).map (fun r => (s, r)) := by
  unfold setOpen sarOpenR
  rw [if_neg hn]
  cases hf : files[num - 1]? with
  | none => rfl
  | some f =>
    obtain ⟨h, e1, e2, _, e4⟩ := hs.each _ f hf
    obtain ⟨fl, g1, g2⟩ := hfl _ f hf
    rw [Nat.sub_add_cancel h1] at e1
    simp only [e1, Option.getD_some, Bind.bind, Except.bind, e4 fl g1 g2, e2, ne_eq, not_true, if_false, g1, (rd_size hs.lay num).2.1]
    unfold openLast
    rcases g2 with g2 | g2
    · subst g2
      simp only [if_true]
      cases r.last with
      | none => rfl
      | some k =>
        by_cases hk : k = num
        · simp [hk, Except.map]
        · simp [hk, Except.map]
    · subst g2
      have : ¬ flagNonTerminal = flagTerminal := by decide
      simp only [this, if_false, if_true]
      rfl

theorem setStart_eq {goOn : Nat → Bool} {c : SarCfg} {files : List Bytes} {s : SliceHdr} (hs : SetOk goOn c files s)
    (hfl : ∀ (i : Nat) f, files[i]? = some f → ∃ fl, sarFlagOf c f = some fl ∧ (fl = flagTerminal ∨ fl = flagNonTerminal)) :
    setStart goOn files = (sarStart c files).map (fun r => (s, r)) := by
  have h1 := setOpen_eq hs hfl ⟨0, 0, 0, 0, none⟩ 1 (by simp) (Nat.le_refl _)
  unfold setStart sarStart
  rw [← h1]
  unfold setOpen
  cases hf : files[1 - 1]? with
  | none => rfl
  | some f =>
    obtain ⟨h, e1, e2, e3, e4⟩ := hs.each _ f hf
    have e3 := e3 rfl
    subst e3
    simp only [e1, Option.getD_some, Option.getD_none, Bind.bind, Except.bind]

theorem setRead_eq {goOn : Nat → Bool} {c : SarCfg} {files : List Bytes} {s : SliceHdr} (hs : SetOk goOn c files s)
    (hfl : ∀ (i : Nat) f, files[i]? = some f → ∃ fl, sarFlagOf c f = some fl ∧ (fl = flagTerminal ∨ fl = flagNonTerminal)) :
    ∀ (fuel : Nat) (r : SarR) (sz : Nat), setRead goOn files s fuel r sz = sarRead c files fuel r sz := by
  intro fuel
  induction fuel with
  | zero => intro r sz; cases sz <;> rfl
  | succ fuel ih =>
    intro r sz
    cases sz with
    | zero => rfl
    | succ sz =>
      obtain ⟨z1, z2, z3, z4⟩ := rd_size hs.lay r.num
      rw [setRead, sarRead]
      simp only [z1, z3, z4]
      generalize ((files.getD (r.num - 1) []).drop r.fd).take (sz + 1) = got
      generalize (if c.lay.old = false ∧ r.fd + got.length = (files.getD (r.num - 1) []).length ∧ 0 < got.length then got.dropLast else got) = data
      split
      · split
        · rfl
        · split
          · rw [setOpen_eq hs hfl { r with fd := r.fd + got.length } (r.num + 1) (by simp) (by omega)]
            cases sarOpenR c files { r with fd := r.fd + got.length } (r.num + 1) with
            | error e => rfl
            | ok r1 => simp only [Except.map, Bind.bind, Except.bind]; exact ih r1 (sz + 1)
          · rw [ih]
      · rw [ih]

/-- copying everything from position `p` -/
theorem setCopy_all {goOn : Nat → Bool} {c : SarCfg} {s : SliceHdr} {chunks : List Bytes} (hs : SetOk goOn c (sarFilesFrom c 1 chunks) s) (hp : Pieces c chunks)
    (hfl : ∀ (i : Nat) f, (sarFilesFrom c 1 chunks)[i]? = some f → ∃ fl, sarFlagOf c f = some fl ∧ (fl = flagTerminal ∨ fl = flagNonTerminal)) :
    ∀ (n : Nat) (r : SarR) (p : Nat) (pre : List Bytes) (ck : Bytes) (post : List Bytes) (j : Nat), RRep c chunks r p pre ck post j → chunks.flatten.length - p < n →
      ∃ l, setCopy goOn (sarFilesFrom c 1 chunks) s n r = (l, none) ∧ l.flatten = chunks.flatten.drop p := by
  intro n
  induction n with
  | zero => intro r p pre ck post j _ h; omega
  | succ n ih =>
    intro r p pre ck post j hr hn
    have hlen : (sarFilesFrom c 1 chunks).length = chunks.length := sarFilesFrom_length _ _ _
    obtain ⟨r', pre', ck', post', j', e1, rep'⟩ := sarRead_spec hs.ok chunks hp (genericBuffer + (sarFilesFrom c 1 chunks).length + 1) r p genericBuffer pre ck post j hr
      (by rw [hlen, hr.split]; simp; omega)
    rw [setCopy, setRead_eq hs hfl, e1]
    simp only
    by_cases h0 : ((chunks.flatten.drop p).take genericBuffer).length = 0
    · rw [if_pos h0]
      refine ⟨[], rfl, ?_⟩
      rw [List.length_take] at h0
      have : (chunks.flatten.drop p).length = 0 := by unfold genericBuffer at h0; omega
      rw [List.flatten_nil]
      exact (List.length_eq_zero_iff.mp this).symm
    · rw [if_neg h0]
      have hle : p < chunks.flatten.length := by
        by_contra hc
        apply h0
        rw [List.drop_eq_nil_of_le (by omega)]; rfl
      obtain ⟨l, e2, e3⟩ := ih r' _ pre' ck' post' j' rep' (by omega)
      refine ⟨_ :: l, by rw [e2], ?_⟩
      rw [List.flatten_cons, e3, ← List.drop_drop]
      conv_rhs => rw [← List.take_append_drop genericBuffer (chunks.flatten.drop p)]
      congr 1
      by_cases hx : genericBuffer ≤ (chunks.flatten.drop p).length
      · rw [List.length_take, Nat.min_eq_left hx]
      · rw [List.drop_eq_nil_of_le (by rw [List.length_take]; omega), List.drop_eq_nil_of_le (by omega)]

theorem files_flags {c : SarCfg} (h : c.Ok) (chunks : List Bytes) : ∀ (i : Nat) f, (sarFilesFrom c 1 chunks)[i]? = some f →
    ∃ fl, sarFlagOf c f = some fl ∧ (fl = flagTerminal ∨ fl = flagNonTerminal) := by
  intro i f hi
  have hlt : i < chunks.length := by
    by_contra hc
    rw [List.getElem?_eq_none (by rw [sarFilesFrom_length]; omega)] at hi; cases hi
  obtain ⟨pre, ck, post, hsp, hlen⟩ : ∃ pre ck post, chunks = pre ++ ck :: post ∧ pre.length = i :=
    ⟨chunks.take i, chunks[i], chunks.drop (i + 1), by simp, by rw [List.length_take]; omega⟩
  have hg := sarFilesFrom_get c 1 pre ck post
  rw [← hsp, hlen, hi] at hg
  injection hg with hg
  subst hg
  refine ⟨_, sarFlagOf_file h _ _ _, ?_⟩
  split <;> simp

theorem files_total (c : SarCfg) (h : c.Ok) : ∀ (chunks : List Bytes) (num : Nat), chunks.flatten.length ≤ ((sarFilesFrom c num chunks).map List.length).sum := by
  intro chunks
  induction chunks with
  | nil => intro num; simp
  | cons x l ih =>
    intro num
    cases l with
    | nil => simp [sarFilesFrom, sarFile_length h]; omega
    | cons y l =>
      have := ih (num + 1)
      rw [sarFilesFrom]
      simp only [List.flatten_cons, List.length_append, List.map_cons, List.sum_cons, sarFile_length h] at this ⊢
      omega
      simp

theorem take_slices {goOn : Nat → Bool} {files : List Bytes} {s : SliceHdr} {r : SarR} (h : setStart goOn files = .ok (s, r)) :
    (XSrc.slices files).take goOn = .ok (s, setCopy goOn files s (setTurns files s) r) := by
  simp only [XSrc.take, h]; rfl
theorem take_pipe {goOn : Nat → Bool} {p rest : Bytes} {h : SliceHdr} (hp : pipeStart goOn p = .ok (h, rest)) :
    (XSrc.pipe p).take goOn = .ok (h, pipeCopy h.old (rest.length + 1) rest) := by
  simp only [XSrc.take, hp]; rfl

/-- a set of slices whose headers are as expected is read from the first byte to the last -/
theorem setOk_read {goOn : Nat → Bool} {c : SarCfg} {s : SliceHdr} {chunks : List Bytes} (hs : SetOk goOn c (sarFilesFrom c 1 chunks) s) (hp : Pieces c chunks) :
    (XSrc.slices (sarFilesFrom c 1 chunks)).read goOn = .ok (s, chunks.flatten) := by
  have hfl := files_flags hs.ok chunks
  obtain ⟨ck, post, hsp⟩ : ∃ ck post, chunks = [] ++ ck :: post := by
    obtain ⟨ps, q, rfl, _⟩ := hp
    cases ps with
    | nil => exact ⟨q, [], rfl⟩
    | cons x l => exact ⟨x, l ++ [q], rfl⟩
  obtain ⟨r, e1, rep⟩ := sarOpenR_spec hs.ok chunks [] post ck ⟨0, 0, 0, 0, none⟩ hsp (Or.inl rfl) (by simp)
  have hst : setStart goOn (sarFilesFrom c 1 chunks) = .ok (s, r) := by
    rw [setStart_eq hs hfl]
    unfold sarStart
    have e1' : sarOpenR c (sarFilesFrom c 1 chunks) ⟨0, 0, 0, 0, none⟩ 1 = .ok r := e1
    rw [e1']; rfl
  have htot := files_total c hs.ok chunks 1
  obtain ⟨l, e2, e3⟩ := setCopy_all hs hp hfl (setTurns (sarFilesFrom c 1 chunks) s) r 0 [] ck post 0 rep (by unfold setTurns; omega)
  unfold XSrc.read
  rw [take_slices hst, e2]
  simp only
  rw [e3, List.drop_zero]

end Dar
