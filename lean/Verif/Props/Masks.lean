import Verif.Model.Mask
import Verif.Lemmas.Mask
/- Property theorems C27 (file selection masks). -/
namespace Dar

/-! ### Boolean masks -/

/-- Formulas over atomic masks: what the user writes with AND, OR and NOT. -/
inductive Formula where
  | atom (m : Mask)
  | not (f : Formula)
  | and (l : List Formula)
  | or (l : List Formula)

/-- The mask object built for a formula. -/
def Formula.mask : Formula → Mask
  | .atom m => m
  | .not f => .not f.mask
  | .and l => .and (l.attach.map fun ⟨f, _⟩ => f.mask)
  | .or l => .or (l.attach.map fun ⟨f, _⟩ => f.mask)

/-- The set a formula denotes, given the set each atomic mask covers. -/
inductive Formula.Holds (cov : Mask → Prop) : Formula → Prop
  | atom {m} : cov m → Holds cov (.atom m)
  | and {l} : (∀ f ∈ l, Holds cov f) → Holds cov (.and l)
  | or {l f} : f ∈ l → Holds cov f → Holds cov (.or l)
  | notAtom {m} : ¬ cov m → Holds cov (.not (.atom m))
  | notNot {f} : Holds cov f → Holds cov (.not (.not f))
  | notAnd {l f} : f ∈ l → Holds cov (.not f) → Holds cov (.not (.and l))
  | notOr {l} : (∀ f ∈ l, Holds cov (.not f)) → Holds cov (.not (.or l))

/-- No AND or OR without operand. -/
inductive Formula.NonEmpty : Formula → Prop
  | atom {m} : NonEmpty (.atom m)
  | not {f} : NonEmpty f → NonEmpty (.not f)
  | and {l} : l ≠ [] → (∀ f ∈ l, NonEmpty f) → NonEmpty (.and l)
  | or {l} : l ≠ [] → (∀ f ∈ l, NonEmpty f) → NonEmpty (.or l)

/-- The atomic masks of a formula. -/
inductive Formula.HasAtom (m : Mask) : Formula → Prop
  | atom : HasAtom m (.atom m)
  | not {f} : HasAtom m f → HasAtom m (.not f)
  | and {l f} : f ∈ l → HasAtom m f → HasAtom m (.and l)
  | or {l f} : f ∈ l → HasAtom m f → HasAtom m (.or l)

theorem allPath_spec (l : List Mask) (p : PathT) (h : ∀ m ∈ l, ∃ b, m.coversPath p = .ok b) :
    ∃ b, Mask.allPath l p = .ok b ∧ (b = true ↔ ∀ m ∈ l, m.coversPath p = .ok true) := by
  induction l with
  | nil => exact ⟨true, by simp [Mask.allPath], by simp⟩
  | cons m l ih =>
    obtain ⟨b, hb⟩ := h m (by simp)
    obtain ⟨c, hc, hiff⟩ := ih (fun x hx => h x (by simp [hx]))
    rw [Mask.allPath, hb]
    cases b with
    | true => simp only [if_true]; exact ⟨c, hc, by rw [hiff]; simp [hb]⟩
    | false => exact ⟨false, rfl, by simp [hb]⟩

theorem anyPath_spec (l : List Mask) (p : PathT) (h : ∀ m ∈ l, ∃ b, m.coversPath p = .ok b) :
    ∃ b, Mask.anyPath l p = .ok b ∧ (b = true ↔ ∃ m ∈ l, m.coversPath p = .ok true) := by
  induction l with
  | nil => exact ⟨false, by simp [Mask.anyPath], by simp⟩
  | cons m l ih =>
    obtain ⟨b, hb⟩ := h m (by simp)
    obtain ⟨c, hc, hiff⟩ := ih (fun x hx => h x (by simp [hx]))
    rw [Mask.anyPath, hb]
    cases b with
    | true => exact ⟨true, rfl, by simp [hb]⟩
    | false => simp only [Bool.false_eq_true, if_false]; exact ⟨c, hc, by rw [hiff]; simp [hb]⟩

theorem allText_spec (l : List Mask) (p : Bytes) (h : ∀ m ∈ l, ∃ b, m.coversText p = .ok b) :
    ∃ b, Mask.allText l p = .ok b ∧ (b = true ↔ ∀ m ∈ l, m.coversText p = .ok true) := by
  induction l with
  | nil => exact ⟨true, by simp [Mask.allText], by simp⟩
  | cons m l ih =>
    obtain ⟨b, hb⟩ := h m (by simp)
    obtain ⟨c, hc, hiff⟩ := ih (fun x hx => h x (by simp [hx]))
    rw [Mask.allText, hb]
    cases b with
    | true => simp only [if_true]; exact ⟨c, hc, by rw [hiff]; simp [hb]⟩
    | false => exact ⟨false, rfl, by simp [hb]⟩

theorem anyText_spec (l : List Mask) (p : Bytes) (h : ∀ m ∈ l, ∃ b, m.coversText p = .ok b) :
    ∃ b, Mask.anyText l p = .ok b ∧ (b = true ↔ ∃ m ∈ l, m.coversText p = .ok true) := by
  induction l with
  | nil => exact ⟨false, by simp [Mask.anyText], by simp⟩
  | cons m l ih =>
    obtain ⟨b, hb⟩ := h m (by simp)
    obtain ⟨c, hc, hiff⟩ := ih (fun x hx => h x (by simp [hx]))
    rw [Mask.anyText, hb]
    cases b with
    | true => exact ⟨true, rfl, by simp [hb]⟩
    | false => simp only [Bool.false_eq_true, if_false]; exact ⟨c, hc, by rw [hiff]; simp [hb]⟩

/-- Generic part: `eval` stands for either way of asking a mask. -/
theorem formula_eval (eval : Mask → Res Bool)
    (hnot : ∀ m, eval (.not m) = (eval m).map (!·))
    (hand : ∀ l, l ≠ [] → (∀ m ∈ l, ∃ b, eval m = .ok b) → ∃ b, eval (.and l) = .ok b ∧ (b = true ↔ ∀ m ∈ l, eval m = .ok true))
    (hor : ∀ l, l ≠ [] → (∀ m ∈ l, ∃ b, eval m = .ok b) → ∃ b, eval (.or l) = .ok b ∧ (b = true ↔ ∃ m ∈ l, eval m = .ok true))
    (f : Formula) (hf : f.NonEmpty)
    (hat : ∀ m, f.HasAtom m → ∃ b, eval m = .ok b) :
    ∃ b, eval f.mask = .ok b ∧ (b = true ↔ f.Holds (fun m => eval m = .ok true)) ∧
      (b = false ↔ (Formula.not f).Holds (fun m => eval m = .ok true)) := by
  induction hf with
  | @atom m =>
    obtain ⟨b, hb⟩ := hat m .atom
    refine ⟨b, by rw [Formula.mask]; exact hb, ?_, ?_⟩
    · constructor
      · rintro rfl; exact .atom hb
      · intro h; cases h with | atom h => rw [hb] at h; injection h
    · constructor
      · rintro rfl; exact .notAtom (by rw [hb]; simp)
      · intro h; cases h with | notAtom h => rw [hb] at h; simpa using h
  | @not f _ ih =>
    obtain ⟨b, hb, h1, h2⟩ := ih (fun m hm => hat m (.not hm))
    refine ⟨!b, by rw [Formula.mask, hnot, hb]; rfl, ?_, ?_⟩
    · rw [← h2]; simp
    · constructor
      · intro h; exact .notNot (h1.mp (by simpa using h))
      · intro h; cases h with | notNot h => rw [h1.mpr h]; rfl
  | @and l hne _ ih0 =>
    have ih := fun f hf => ih0 f hf (fun m hm => hat m (.and hf hm))
    have hl : (l.attach.map fun ⟨f, _⟩ => f.mask) = l.map Formula.mask := by simp
    have hex : ∀ m ∈ l.map Formula.mask, ∃ b, eval m = .ok b := by
      intro m hm
      obtain ⟨f, hf, rfl⟩ := List.mem_map.mp hm
      obtain ⟨b, hb, _⟩ := ih f hf
      exact ⟨b, hb⟩
    obtain ⟨b, hb, hiff⟩ := hand (l.map Formula.mask) (by simpa using hne) hex
    have hall : (∀ m ∈ l.map Formula.mask, eval m = .ok true) ↔ ∀ f ∈ l, f.Holds (fun m => eval m = .ok true) := by
      constructor
      · intro h f hf
        obtain ⟨b, hb, h1, _⟩ := ih f hf
        rw [h _ (List.mem_map_of_mem hf)] at hb
        injection hb with hb
        exact h1.mp hb.symm
      · intro h m hm
        obtain ⟨f, hf, rfl⟩ := List.mem_map.mp hm
        obtain ⟨b, hb, h1, _⟩ := ih f hf
        rw [hb, h1.mpr (h f hf)]
    refine ⟨b, by rw [Formula.mask, hl]; exact hb, ?_, ?_⟩
    · rw [hiff, hall]
      exact ⟨.and, fun h => by cases h with | and h => exact h⟩
    · constructor
      · intro hbf
        have : ¬ ∀ f ∈ l, f.Holds (fun m => eval m = .ok true) := fun hc => by
          rw [← hall, ← hiff, hbf] at hc; cases hc
        push Not at this
        obtain ⟨f, hf, hnf⟩ := this
        obtain ⟨b', hb', h1, h2⟩ := ih f hf
        refine .notAnd hf (h2.mp ?_)
        cases b' with
        | true => exact absurd (h1.mp rfl) hnf
        | false => rfl
      · intro h
        cases h with
        | @notAnd _ f hf hh =>
          cases hbv : b with
          | false => rfl
          | true =>
            obtain ⟨b', hb', h1, h2⟩ := ih f hf
            have := (hall.mp (hiff.mp hbv)) f hf
            rw [h2.mpr hh] at h1
            exact absurd (h1.mpr this) (by simp)
  | @or l hne _ ih0 =>
    have ih := fun f hf => ih0 f hf (fun m hm => hat m (.or hf hm))
    have hl : (l.attach.map fun ⟨f, _⟩ => f.mask) = l.map Formula.mask := by simp
    have hex : ∀ m ∈ l.map Formula.mask, ∃ b, eval m = .ok b := by
      intro m hm
      obtain ⟨f, hf, rfl⟩ := List.mem_map.mp hm
      obtain ⟨b, hb, _⟩ := ih f hf
      exact ⟨b, hb⟩
    obtain ⟨b, hb, hiff⟩ := hor (l.map Formula.mask) (by simpa using hne) hex
    have hany : (∃ m ∈ l.map Formula.mask, eval m = .ok true) ↔ ∃ f ∈ l, f.Holds (fun m => eval m = .ok true) := by
      constructor
      · rintro ⟨m, hm, h⟩
        obtain ⟨f, hf, rfl⟩ := List.mem_map.mp hm
        obtain ⟨b, hb, h1, _⟩ := ih f hf
        rw [h] at hb
        injection hb with hb
        exact ⟨f, hf, h1.mp hb.symm⟩
      · rintro ⟨f, hf, h⟩
        obtain ⟨b, hb, h1, _⟩ := ih f hf
        exact ⟨_, List.mem_map_of_mem hf, by rw [hb, h1.mpr h]⟩
    refine ⟨b, by rw [Formula.mask, hl]; exact hb, ?_, ?_⟩
    · rw [hiff, hany]
      exact ⟨fun ⟨f, hf, h⟩ => .or hf h, fun h => by cases h with | or hf h => exact ⟨_, hf, h⟩⟩
    · constructor
      · intro hbf
        refine .notOr fun f hf => ?_
        obtain ⟨b', hb', h1, h2⟩ := ih f hf
        apply h2.mp
        cases b' with
        | false => rfl
        | true =>
          have := hiff.mpr (hany.mpr ⟨f, hf, h1.mp rfl⟩)
          rw [hbf] at this; cases this
      · intro h
        cases h with
        | notOr hh =>
          cases hbv : b with
          | false => rfl
          | true =>
            obtain ⟨f, hf, hho⟩ := hany.mp (hiff.mp hbv)
            obtain ⟨b', hb', h1, h2⟩ := ih f hf
            rw [h2.mpr (hh f hf)] at h1
            exact absurd (h1.mpr hho) (by simp)


/-- A formula built with AND, OR and NOT over masks that answer on this path covers the path if and only if the formula
is true there. -/
theorem C27_boolean_path (f : Formula) (hf : f.NonEmpty) (p : PathT)
    (hat : ∀ m, f.HasAtom m → ∃ b, m.coversPath p = .ok b) :
    ∃ b, f.mask.coversPath p = .ok b ∧ (b = true ↔ f.Holds (fun m => m.coversPath p = .ok true)) ∧
      (b = false ↔ (Formula.not f).Holds (fun m => m.coversPath p = .ok true)) := by
  refine formula_eval (fun m => m.coversPath p) (fun m => by rw [Mask.coversPath]) ?_ ?_ f hf hat
  · intro l hl h
    have := allPath_spec l p h
    rw [Mask.coversPath, if_neg (by simpa using hl)]
    exact this
  · intro l hl h
    have := anyPath_spec l p h
    rw [Mask.coversPath, if_neg (by simpa using hl)]
    exact this

/-- The same when masks are asked about a text (a file name). -/
theorem C27_boolean_text (f : Formula) (hf : f.NonEmpty) (s : Bytes)
    (hat : ∀ m, f.HasAtom m → ∃ b, m.coversText s = .ok b) :
    ∃ b, f.mask.coversText s = .ok b ∧ (b = true ↔ f.Holds (fun m => m.coversText s = .ok true)) ∧
      (b = false ↔ (Formula.not f).Holds (fun m => m.coversText s = .ok true)) := by
  refine formula_eval (fun m => m.coversText s) (fun m => by rw [Mask.coversText]) ?_ ?_ f hf hat
  · intro l hl h
    have := allText_spec l s h
    rw [Mask.coversText, if_neg (by simpa using hl)]
    exact this
  · intro l hl h
    have := anyText_spec l s h
    rw [Mask.coversText, if_neg (by simpa using hl)]
    exact this

/-- The denotation is the ordinary truth value of the formula. -/
theorem C27_holds_classical (cov : Mask → Prop) (f : Formula) : (Formula.not f).Holds cov ↔ ¬ f.Holds cov := by
  have key : ∀ f : Formula, ((Formula.not f).Holds cov → ¬ f.Holds cov) ∧ (¬ f.Holds cov → (Formula.not f).Holds cov) := by
    intro f
    induction f using Formula.rec (motive_2 := fun l => ∀ f ∈ l,
      ((Formula.not f).Holds cov → ¬ f.Holds cov) ∧ (¬ f.Holds cov → (Formula.not f).Holds cov)) with
    | atom m =>
      constructor
      · intro h h'; cases h with | notAtom h => cases h' with | atom h' => exact h h'
      · intro h; exact .notAtom (fun hc => h (.atom hc))
    | not f ih =>
      constructor
      · intro h h'; cases h with | notNot h => exact ih.1 h' h
      · intro h
        exact .notNot (by by_contra hc; exact h (ih.2 hc))
    | and l ih =>
      constructor
      · intro h h'
        cases h with | notAnd hf h => cases h' with | and h' => exact (ih _ hf).1 h (h' _ hf)
      · intro h
        by_contra hc
        exact h (.and fun f hf => by
          by_contra hnf
          exact hc (.notAnd hf ((ih f hf).2 hnf)))
    | or l ih =>
      constructor
      · intro h h'
        cases h with | notOr h => cases h' with | or hf h' => exact (ih _ hf).1 (h _ hf) h'
      · intro h
        exact .notOr fun f hf => (ih f hf).2 (fun hh => h (.or hf hh))
    | nil => rename_i hf; simp at hf
    | cons g l ih1 ih2 =>
      rename_i f hf
      rcases List.mem_cons.mp hf with rfl | hf
      · exact ih1
      · exact ih2 f hf
  exact ⟨(key f).1, (key f).2⟩

/-- An AND or an OR without operand refuses to answer. -/
theorem C27_empty (p : PathT) (s : Bytes) : (Mask.and []).coversPath p = .error .range ∧ (Mask.or []).coversPath p = .error .range ∧
    (Mask.and []).coversText s = .error .range ∧ (Mask.or []).coversText s = .error .range := by
  simp [Mask.coversPath, Mask.coversText]

/-! ### Masks on directories -/

/-- An absolute path made of ordinary names. -/
def AbsNames (p : PathT) : Prop := p.relative = false ∧ p.undisclosed = false ∧ ∀ d ∈ p.dirs, isName d ∧ (0 : UInt8) ∉ d

theorem AbsNames.plainPath {p : PathT} (h : AbsNames p) : plainPath p :=
  fun d hd => ⟨(h.2.2 d hd).1.1, (h.2.2 d hd).1.2.1, (h.2.2 d hd).2⟩

theorem AbsNames.reparse {p : PathT} (h : AbsNames p) : pathOf p.display false = .ok p := by
  refine C25_display_parse p ?_ h.2.1 ?_
  · right; left
    exact ⟨by rw [h.1]; simp, 0, p.dirs, by simp, fun d hd => (h.2.2 d hd).1⟩
  · rintro ⟨u, ⟨w, _, rfl⟩, hd⟩
    exact (h.2.2 (w ++ [58, 47]) (by rw [hd]; simp)).1.2.1 (by simp)

theorem AbsNames.subdir {p q : PathT} (hp : AbsNames p) (hq : AbsNames q) : p.isSubdirOf id q = true ↔ q.dirs <+: p.dirs := by
  have h := C26_subdir_partial id ⟨by simp, by simp⟩ p q hp.plainPath hq.plainPath (by rw [hp.1]; simp) (by rw [hq.1]; simp) (by rw [hq.1]; simp)
  have e : List.map (id : UInt8 → UInt8) = id := by funext l; simp
  rw [e] at h
  rw [h, hp.1, hq.1]
  simp

/-- `-g dir`: the directory, what is under it and the directories leading to it are covered, nothing else. -/
theorem C27_simple_path (p q : PathT) (hp : AbsNames p) (hq : AbsNames q) :
    ∃ b, (Mask.simplePath q id).coversPath p = .ok b ∧ (b = true ↔ q.dirs <+: p.dirs ∨ p.dirs <+: q.dirs) := by
  refine ⟨_, by rw [Mask.coversPath], ?_⟩
  rw [Bool.or_eq_true, hp.subdir hq, hq.subdir hp]

/-- Finding: exclude_dir_mask covers every path whatever directory it was made for (in its is_covered(const path &) the
parameter hides the field holding that directory). -/
theorem C27_exclude_dir_counterexample (dir : Bytes) (p : PathT) (hp : AbsNames p) :
    (Mask.excludeDir dir id).coversPath p = .ok true := by
  rw [Mask.coversPath, (hp.subdir hp).mpr (List.prefix_refl _)]

/-! ### Lists of paths -/

/-- Exclusion list: covered if and only if listed. -/
theorem C27_list_exclude (lines : List Bytes) (t : Bytes) :
    ∃ b, mlCovered (mlBuild lines) false t = .ok b ∧ (b = true ↔ t ∈ lines) := by
  by_cases ht : t ∈ lines
  · exact ⟨true, mlCovered_found _ (mlBuild_sorted _) _ _ ((mlBuild_mem _ _).mpr ht), by simp [ht]⟩
  · refine ⟨false, ?_, by simp [ht]⟩
    by_cases hc : mlBuild lines = []
    · rw [hc]; rfl
    · obtain ⟨x, _, _, h⟩ := mlCovered_absent (mlBuild lines) false t hc (mlBuild_sorted _) (fun h => ht ((mlBuild_mem _ _).mp h))
      rw [h]; simp

/-- Inclusion list: covered if and only if listed, or on the way to a listed path. -/
theorem C27_list_include (lines : List PathT) (hl : ∀ e ∈ lines, AbsNames e) (t : PathT) (ht : AbsNames t) :
    ∃ b, mlCovered (mlBuild (lines.map PathT.display)) true t.display = .ok b ∧
      (b = true ↔ ∃ e ∈ lines, t.dirs <+: e.dirs) := by
  by_cases hin : t.display ∈ lines.map PathT.display
  · refine ⟨true, mlCovered_found _ (mlBuild_sorted _) _ _ ((mlBuild_mem _ _).mpr hin), iff_of_true rfl ?_⟩
    obtain ⟨e, he, hed⟩ := List.mem_map.mp hin
    have h1 := (hl e he).reparse
    rw [hed, ht.reparse] at h1
    injection h1 with h1
    exact ⟨e, he, by rw [h1]; exact List.prefix_refl _⟩
  · by_cases hc : mlBuild (lines.map PathT.display) = []
    · refine ⟨false, by rw [hc]; rfl, iff_of_false (by simp) ?_⟩
      rintro ⟨e, he, _⟩
      have := (mlBuild_mem (lines.map PathT.display) e.display).mpr (List.mem_map_of_mem he)
      rw [hc] at this; simp at this
    · obtain ⟨x, hx, hcase, h⟩ := mlCovered_absent _ true t.display hc (mlBuild_sorted _) (fun h => hin ((mlBuild_mem _ _).mp h))
      obtain ⟨e, he, rfl⟩ := List.mem_map.mp ((mlBuild_mem _ _).mp hx)
      rw [if_pos rfl, (hl e he).reparse, ht.reparse] at h
      refine ⟨_, h, ?_⟩
      rw [(hl e he).subdir ht]
      refine ⟨fun h => ⟨e, he, h⟩, ?_⟩
      rintro ⟨e', he', hpre⟩
      by_cases hroot : t.dirs = []
      · rw [hroot]; simp
      have hne' : e'.dirs ≠ [] := by
        intro h0; rw [h0] at hpre; exact hroot (List.prefix_nil.mp hpre)
      have hpl : ∀ {p : PathT}, AbsNames p → ∀ d ∈ p.dirs, plain d := fun hp d hd => ⟨(hp.2.2 d hd).1.1, (hp.2.2 d hd).1.2.1⟩
      have disp : ∀ {p : PathT}, AbsNames p → p.display = 47 :: joinSlash p.dirs := fun hp => by
        unfold PathT.display; rw [hp.1]; simp
      have hj := (joinSlash_prefix t.dirs e'.dirs hroot hne' (hpl ht) (hpl (hl e' he'))).mpr hpre
      rcases hj with hj | ⟨r, hj⟩
      · exact absurd (List.mem_map.mpr ⟨e', he', by rw [disp (hl e' he'), disp ht, hj]⟩) hin
      · have hmem : e'.display ∈ mlBuild (lines.map PathT.display) := (mlBuild_mem _ _).mpr (List.mem_map_of_mem he')
        have hd : e'.display = t.display ++ 47 :: r := by rw [disp (hl e' he'), disp ht, hj]; simp
        have hle : mlLe t.display e'.display = true := by rw [hd]; exact mlLe_append _ _
        have hne2 : e'.display ≠ t.display := by
          intro h0; rw [hd] at h0
          have := congrArg List.length h0
          simp at this
        rcases hcase with hall | ⟨h1, h2⟩
        · exact absurd (mlLe_antisymm _ _ (hall _ hmem) hle) hne2
        · have h3 := h2 _ hmem hle
          rw [hd] at h3
          have hxne : e.display ≠ t.display := fun h0 => hin (List.mem_map.mpr ⟨e, he, h0⟩)
          obtain ⟨r', hr'⟩ := mlLe_between _ _ _ h1 h3 hxne
          rw [disp (hl e he), disp ht] at hr'
          have hr2 : joinSlash e.dirs = joinSlash t.dirs ++ 47 :: r' := by simpa using hr'
          have hene : e.dirs ≠ [] := by
            intro h0; rw [h0] at hr2; simp [joinSlash] at hr2
          exact (joinSlash_prefix t.dirs e.dirs hroot hene (hpl ht) (hpl (hl e he))).mp (Or.inr ⟨r', hr2⟩)

/-! Non-trivial instances. -/
example : AbsNames ⟨[txt "usr", txt "lib"], false, false⟩ := by
  refine ⟨rfl, rfl, ?_⟩
  intro d hd
  simp at hd
  rcases hd with rfl | rfl <;> exact ⟨⟨by decide, by decide, by decide, by decide⟩, by decide⟩
example : Formula.NonEmpty (.and [.atom (.const true), .not (.or [.atom (.const false)])]) := by
  refine .and (by simp) ?_
  intro f hf; simp at hf
  rcases hf with rfl | rfl
  · exact .atom
  · exact .not (.or (by simp) (by intro f hf; simp at hf; subst hf; exact .atom))
-- '!' sorts between '/' and letters only in the modified order
example : mlCovered [txt "/a/b", txt "/a!"] true (txt "/a") = .ok true := by
  unfold mlCovered mlSearch; decide

end Dar
