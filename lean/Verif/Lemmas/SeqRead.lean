import Verif.Lemmas.SeqEntry
/- The sequential reading simulates the reading of a catalogue in memory. -/
namespace Dar

set_option linter.unusedSectionVars false
variable [EscByte]

/-- no mark of an entry or of the catalogue -/
def FreeMarks (ms : List (SeqT × Bytes)) : Prop := ∀ m ∈ ms, m.1 ≠ .file ∧ m.1 ≠ .catalogue
/-- from the place `s` the next mark of an entry or of the catalogue is the first of `segs` -/
def Lead (s : MarkStream) (segs : List (SeqT × Bytes)) : Prop := ∃ pre, FreeMarks pre ∧ s.2 = pre ++ segs

theorem skip_file (d0 d : Bytes) (pre ms : List (SeqT × Bytes)) (h : FreeMarks pre) :
    skipSpec .file true [.catalogue] d0 (pre ++ (.file, d) :: ms) = (true, (d, ms)) := by
  induction pre generalizing d0 with
  | nil => simp [skipSpec]
  | cons m pre ih =>
    obtain ⟨t, d1⟩ := m
    have hm := h (t, d1) (by simp)
    simp only [List.cons_append, skipSpec]
    rw [if_neg hm.1, if_pos (by simpa using hm.2)]
    exact ih _ fun m hm => h m (List.mem_cons_of_mem _ hm)
theorem skip_catalogue (d0 d : Bytes) (pre ms : List (SeqT × Bytes)) (h : FreeMarks pre) :
    ∃ d1, skipSpec .file true [.catalogue] d0 (pre ++ (.catalogue, d) :: ms) = (false, (d1, (.catalogue, d) :: ms)) := by
  induction pre generalizing d0 with
  | nil => exact ⟨d0, by simp [skipSpec]⟩
  | cons m pre ih =>
    obtain ⟨t, d1⟩ := m
    have hm := h (t, d1) (by simp)
    simp only [List.cons_append, skipSpec]
    rw [if_neg hm.1, if_pos (by simpa using hm.2)]
    exact ih _ fun m hm => h m (List.mem_cons_of_mem _ hm)
theorem skip_nothing (d0 : Bytes) (pre : List (SeqT × Bytes)) (h : FreeMarks pre) :
    skipSpec .file true [.catalogue] d0 pre = (false, ([], [])) := by
  induction pre generalizing d0 with
  | nil => simp [skipSpec]
  | cons m pre ih =>
    obtain ⟨t, d1⟩ := m
    have hm := h (t, d1) (by simp)
    simp only [skipSpec]
    rw [if_neg hm.1, if_pos (by simpa using hm.2)]
    exact ih _ fun m hm => h m (List.mem_cons_of_mem _ hm)

/-- the marks start with the one of an entry or of the catalogue, or there is none -/
def Stops (segs : List (SeqT × Bytes)) : Prop := ∀ m ∈ segs.head?, m.1 = .file ∨ m.1 = .catalogue

theorem passMarks_lead (n : Nat) (s : MarkStream) (segs : List (SeqT × Bytes)) (hs : Stops segs) (h : Lead s segs) :
    Lead (passMarks n s) segs := by
  induction n generalizing s with
  | zero => simpa [passMarks] using h
  | succ n ih =>
    obtain ⟨d, ms⟩ := s
    cases ms with
    | nil => simpa [passMarks] using h
    | cons m ms =>
      obtain ⟨t, d'⟩ := m
      unfold passMarks
      split
      · exact h
      · next hn =>
        obtain ⟨pre, hp, hh⟩ := h
        cases pre with
        | nil =>
          dsimp at hh
          exact absurd (hs (t, d') (by rw [← hh]; rfl)) hn
        | cons p pre =>
          dsimp at hh
          injection hh with h1 h2
          exact ih _ ⟨pre, fun m hm => hp m (List.mem_cons_of_mem _ hm), h2⟩

theorem nextFailed_no (env : SeqEnv) (d : Bytes) (ms segs : List (SeqT × Bytes)) (a : SavedRest) (ha : a.Ok) (hs : Stops segs)
    (hd : d = a.data) (hm : ms = a.marks ++ segs) : nextIsFailed env (d, ms) = .ok false := by
  subst hd; subst hm
  unfold nextIsFailed
  cases hd : a.data with
  | nil =>
    dsimp only
    cases hmk : a.marks with
    | nil =>
      cases segs with
      | nil => rfl
      | cons m segs =>
        obtain ⟨t, d⟩ := m
        dsimp only [List.nil_append]
        have := hs (t, d) rfl
        rcases this with h | h <;> (dsimp at h; subst h; rfl)
    | cons m mk =>
      obtain ⟨t, d⟩ := m
      dsimp only [List.cons_append]
      have := ha.1 (t, d) (by rw [hmk]; simp)
      simp [this.2.2]
  | cons x d =>
    dsimp only
    rw [if_neg]
    have h2 := ha.2
    rw [hd] at h2
    intro h
    simp only [Bool.and_eq_true] at h
    exact h2 (List.isPrefixOf_iff_prefix.1 h.1)

/-! ### the catalogue built in memory -/

/-- the tree once what remains has been added -/
def fillUp : List Entry → List OpenDir → List (List Entry) → List Entry
  | cur, [], _ => cur
  | cur, d :: up, [] => fillUp (d.children ++ [.dir d.name d.status d.inode cur]) up []
  | cur, d :: up, l :: ls => fillUp (d.children ++ [.dir d.name d.status d.inode cur] ++ l) up ls
def fill (b : Built) (ls : List (List Entry)) : List Entry := fillUp (b.cur ++ ls.headD []) b.up ls.tail

theorem distinct_append (a b : List Entry) (h : DistinctNames (a ++ b)) : DistinctNames a ∧ DistinctNames b := by
  induction a with
  | nil => exact ⟨by simp [DistinctNames], h⟩
  | cons e a ih =>
    rw [List.cons_append] at h
    unfold DistinctNames at h
    have := ih h.2.2
    refine ⟨?_, this.2⟩
    unfold DistinctNames
    exact ⟨fun e' he => h.1 e' (List.mem_append_left _ he), h.2.1, this.1⟩
theorem distinct_sub (a l : List Entry) (n : Bytes) (st : SavedStatus) (i : InodeB) (x : List Entry)
    (h : DistinctNames (a ++ [.dir n st i x] ++ l)) : DistinctNames x := by
  have := (distinct_append _ _ (distinct_append _ _ h).1).2
  unfold DistinctNames at this
  exact this.2.1
theorem distinct_fillUp (x : List Entry) (up : List OpenDir) (ls : List (List Entry)) (h : DistinctNames (fillUp x up ls)) : DistinctNames x := by
  induction up generalizing x ls with
  | nil => simpa [fillUp] using h
  | cons d up ih =>
    cases ls with
    | nil =>
      unfold fillUp at h
      have h := ih _ _ h
      exact distinct_sub d.children [] _ _ _ x (by simpa using h)
    | cons l ls =>
      unfold fillUp at h
      exact distinct_sub d.children l _ _ _ x (ih _ _ h)
theorem distinct_middle (a l : List Entry) (e : Entry) (h : DistinctNames (a ++ e :: l)) : ∀ e' ∈ a, e'.title ≠ e.title := by
  induction a with
  | nil => intro e' he; cases he
  | cons x a ih =>
    rw [List.cons_append] at h
    unfold DistinctNames at h
    intro e' he
    rcases List.mem_cons.1 he with rfl | he
    · exact (h.1 e (by simp)).symm
    · exact ih h.2.2 e' he
omit [EscByte] in
theorem findNamed_none (n : Bytes) (l : List Entry) (h : ∀ e ∈ l, e.title ≠ n) : findNamed n l = none := by
  unfold findNamed
  simp only [List.find?_eq_none]
  intro x hx
  simpa using h x hx

theorem addChild_new (l : List Entry) (e : Entry) (r : List Entry) (h : DistinctNames (l ++ e :: r)) : addChild l e = .ok (l ++ [e]) := by
  unfold addChild
  rw [findNamed_none _ _ (distinct_middle l r e h)]

theorem add_leaf (b : Built) (e : Entry) (r : List Entry) (up : List (List Entry)) (he : e.isFolder = false)
    (h : DistinctNames (fill b ((e :: r) :: up))) :
    b.add (.entry e) = .ok ⟨b.cur ++ [e], b.up⟩ ∧ fill ⟨b.cur ++ [e], b.up⟩ (r :: up) = fill b ((e :: r) :: up) := by
  unfold fill at h ⊢
  simp only [List.headD_cons, List.tail_cons] at h ⊢
  have h1 := addChild_new b.cur e r (distinct_fillUp _ _ _ h)
  refine ⟨?_, by simp⟩
  cases e <;> first | (simp only [Built.add, h1]; rfl) | exact absurd he (by simp [Entry.isFolder])
theorem add_dir (b : Built) (n : Bytes) (st : SavedStatus) (i : InodeB) (ch r : List Entry) (up : List (List Entry))
    (h : DistinctNames (fill b ((.dir n st i ch :: r) :: up))) :
    b.add (.entry (.dir n st i [])) = .ok ⟨[], ⟨n, st, i, b.cur⟩ :: b.up⟩ ∧
      fill ⟨[], ⟨n, st, i, b.cur⟩ :: b.up⟩ (ch :: r :: up) = fill b ((.dir n st i ch :: r) :: up) := by
  unfold fill at h ⊢
  simp only [List.headD_cons, List.tail_cons] at h ⊢
  refine ⟨?_, by simp [fillUp]⟩
  have h2 := distinct_middle _ _ _ (distinct_fillUp _ _ _ h)
  have h3 : addChild b.cur (.dir n st i []) = .ok (b.cur ++ [.dir n st i []]) := by
    unfold addChild
    rw [findNamed_none (Entry.title (.dir n st i [])) b.cur h2]
  simp only [Built.add, h3]
  show Except.ok _ = _
  simp
theorem add_eod (b : Built) (hb : b.up ≠ []) (l : List Entry) (up : List (List Entry)) :
    b.add .eod = .ok b.close ∧ fill b.close (l :: up) = fill b ([] :: l :: up) ∧ b.close.up.length + 1 = b.up.length := by
  obtain ⟨cur, ups⟩ := b
  cases ups with
  | nil => exact absurd rfl hb
  | cons d ups =>
    refine ⟨rfl, ?_, ?_⟩
    · simp [fill, Built.close, fillUp]
    · simp [Built.close]

end Dar
