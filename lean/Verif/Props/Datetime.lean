import Verif.Model.Datetime
import Verif.Lemmas.Infinint4
import Mathlib.Tactic.IntervalCases
import Mathlib.Tactic.Ring
/- Property theorems C22 (timestamps). -/
namespace Dar

/-- Number of nanoseconds of a unit. -/
def TimeUnit.nanos : TimeUnit → Nat | .ns => 1 | .us => 1000 | .s => 1000000000

/-- The instant a timestamp denotes, in nanoseconds since 1970. -/
def DateT.instant (d : DateT) : Nat := d.val * d.uni.nanos

/-- A timestamp is in its canonical form: the largest unit that represents it exactly. -/
def DateT.Canonical (d : DateT) : Prop :=
  match d.uni with
  | .ns => d.val % 1000 ≠ 0
  | .us => d.val % 1000000 ≠ 0
  | .s => True

theorem scaling_spec (a b : TimeUnit) (h : b.idx ≤ a.idx) : ∃ f, scaling a b = .ok f ∧ a.nanos = f * b.nanos ∧ 0 < f := by
  cases a <;> cases b <;> first
    | exact ⟨_, rfl, rfl, by decide⟩
    | (exfalso; revert h; decide)

/-- Comparison agrees with the order of instants. -/
theorem C22_lt (d r : DateT) : ∃ b, d.lt r = .ok b ∧ (b = true ↔ d.instant < r.instant) := by
  obtain ⟨v, u⟩ := d
  obtain ⟨w, t⟩ := r
  unfold DateT.lt DateT.instant
  cases u <;> cases t <;> simp only [TimeUnit.idx, TimeUnit.nanos, scaling] <;> simp only [reduceCtorEq, if_true, if_false] <;>
    norm_num only <;> simp only [false_and, true_and, if_false] <;>
    first
    | (split
       · exact ⟨true, rfl, by simp only [true_iff]; omega⟩
       · refine ⟨_, rfl, ?_⟩; simp only [decide_eq_true_eq]; omega)
    | (refine ⟨_, rfl, ?_⟩; simp only [decide_eq_true_eq]; omega)

/-- The other comparison operators. -/
theorem C22_ge (d r : DateT) : ∃ b, d.ge r = .ok b ∧ (b = true ↔ r.instant ≤ d.instant) := by
  obtain ⟨b, h, hb⟩ := C22_lt d r
  refine ⟨!b, by rw [DateT.ge, h]; rfl, ?_⟩
  cases b <;> simp at hb ⊢ <;> omega
theorem C22_gt (d r : DateT) : ∃ b, d.gt r = .ok b ∧ (b = true ↔ r.instant < d.instant) := C22_lt r d
theorem C22_le (d r : DateT) : ∃ b, d.le r = .ok b ∧ (b = true ↔ d.instant ≤ r.instant) := C22_ge r d

/-- Reducing keeps the instant and gives the canonical form. -/
theorem C22_reduce (d : DateT) : d.reduce.instant = d.instant ∧ d.reduce.Canonical := by
  obtain ⟨v, u⟩ := d
  unfold DateT.reduce
  by_cases h0 : v = 0
  · subst h0; simp [DateT.instant, DateT.Canonical]
  · simp only [h0, if_false]
    cases u with
    | s => exact ⟨rfl, trivial⟩
    | us =>
      unfold DateT.reduceUs
      by_cases h : v % 1000000 = 0
      · simp only [h, ne_eq, not_true_eq_false, if_false]
        exact ⟨by simp only [DateT.instant, TimeUnit.nanos]; omega, trivial⟩
      · simp only [h, ne_eq, not_false_eq_true, if_true]
        exact ⟨by first | rfl | trivial, h⟩
    | ns =>
      by_cases h : v % 1000 = 0
      · simp only [h, ne_eq, not_true_eq_false, if_false]
        unfold DateT.reduceUs
        by_cases h2 : v / 1000 % 1000000 = 0
        · simp only [h2, ne_eq, not_true_eq_false, if_false]
          exact ⟨by simp only [DateT.instant, TimeUnit.nanos]; omega, trivial⟩
        · simp only [h2, ne_eq, not_false_eq_true, if_true]
          exact ⟨by simp only [DateT.instant, TimeUnit.nanos]; omega, h2⟩
      · simp only [h, ne_eq, not_false_eq_true, if_true]
        exact ⟨by first | rfl | trivial, h⟩

/-- Timestamps in canonical form are equal exactly when they denote the same instant. -/
theorem C22_eq (d r : DateT) (hd : d.Canonical) (hr : r.Canonical) : d.eq r = true ↔ d.instant = r.instant := by
  obtain ⟨v, u⟩ := d
  obtain ⟨w, t⟩ := r
  unfold DateT.eq DateT.instant
  unfold DateT.Canonical at hd hr
  cases u <;> cases t <;> simp only [TimeUnit.nanos] at * <;> simp <;> omega

theorem C22_eq_same (d r : DateT) (hd : d.Canonical) (hr : r.Canonical) : d.instant = r.instant ↔ d = r := by
  rw [← C22_eq d r hd hr]
  obtain ⟨v, u⟩ := d
  obtain ⟨w, t⟩ := r
  simp [DateT.eq, and_comm]

/-- Addition is exact and gives a canonical timestamp. -/
theorem C22_add (d r : DateT) : ∃ e, d.add r = .ok e ∧ e.instant = d.instant + r.instant ∧ e.Canonical := by
  have key : ∀ x : DateT, x.instant = d.instant + r.instant → ∃ e, (.ok x.reduce : Res DateT) = .ok e ∧ e.instant = d.instant + r.instant ∧ e.Canonical :=
    fun x hx => ⟨_, rfl, (C22_reduce x).1.trans hx, (C22_reduce x).2⟩
  obtain ⟨v, u⟩ := d
  obtain ⟨w, t⟩ := r
  unfold DateT.add
  have e1 : ∀ (x : DateT) (f : DateT → Res DateT), (do let d ← (Except.ok x : Res DateT); f d) = f x := fun _ _ => rfl
  have e2 : ∀ (x : Nat) (f : Nat → Res DateT), (do let d ← (Except.ok x : Res Nat); f d) = f x := fun _ _ => rfl
  cases u <;> cases t <;> simp only [TimeUnit.idx, scaling, e1, e2, reduceCtorEq, if_false, if_true] <;> norm_num only <;>
    simp only [e1, e2, reduceCtorEq, if_false, if_true] <;>
    (refine key _ ?_; simp only [DateT.instant, TimeUnit.nanos]; omega)

/-- Subtraction is exact when the result is not negative; otherwise it is refused. -/
theorem C22_sub (d r : DateT) :
    (r.instant ≤ d.instant → ∃ e, d.sub r = .ok e ∧ e.instant + r.instant = d.instant ∧ e.Canonical) ∧
    (d.instant < r.instant → d.sub r = .error .bug) := by
  have key : ∀ (c : Prop) [Decidable c] (x : DateT), (c ↔ d.instant < r.instant) → (¬ c → x.instant + r.instant = d.instant) →
      (r.instant ≤ d.instant → ∃ e, (if c then .error .bug else .ok x.reduce : Res DateT) = .ok e ∧ e.instant + r.instant = d.instant ∧ e.Canonical) ∧
      (d.instant < r.instant → (if c then .error .bug else .ok x.reduce : Res DateT) = .error .bug) := by
    intro c _ x hc hx
    constructor
    · intro h
      have hn : ¬ c := fun h' => by have := hc.mp h'; omega
      rw [if_neg hn]
      exact ⟨_, rfl, by rw [(C22_reduce x).1]; exact hx hn, (C22_reduce x).2⟩
    · intro h; rw [if_pos (hc.mpr h)]
  have npos : ∀ u : TimeUnit, 0 < u.nanos := fun u => by cases u <;> decide
  have mlt : ∀ a b (u : TimeUnit), a < b ↔ a * u.nanos < b * u.nanos := fun a b u => (Nat.mul_lt_mul_right (npos u)).symm
  obtain ⟨v, u⟩ := d
  obtain ⟨w, t⟩ := r
  have hinj : ∀ a b : TimeUnit, a.idx = b.idx → a = b := by intro a b; cases a <;> cases b <;> simp [TimeUnit.idx]
  unfold DateT.sub
  simp only [DateT.instant] at key ⊢
  by_cases h1 : t.idx < u.idx
  · obtain ⟨f, hf, hn, _⟩ := scaling_spec u t (by omega)
    simp only [h1, if_true, hf]
    show (_ → ∃ e, (if t = t then _ else _) = _ ∧ _) ∧ (_ → (if t = t then _ else _) = _)
    rw [if_pos rfl]
    refine key (v * f < w) ⟨v * f - w, t⟩ ?_ ?_
    · rw [hn, ← Nat.mul_assoc]; exact mlt _ _ _
    · intro hc
      rw [hn, ← Nat.mul_assoc, ← Nat.add_mul]
      congr 1; simp only; omega
  · simp only [h1, if_false]
    by_cases h2 : t = u
    · subst h2
      show (_ → ∃ e, (if t = t then _ else _) = _ ∧ _) ∧ (_ → (if t = t then _ else _) = _)
      rw [if_pos rfl]
      refine key (v < w) ⟨v - w, t⟩ (mlt _ _ _) ?_
      intro hc
      rw [← Nat.add_mul]; congr 1; simp only; omega
    · obtain ⟨f, hf, hn, _⟩ := scaling_spec t u (by omega)
      show (_ → ∃ e, (if t = u then _ else _) = _ ∧ _) ∧ (_ → (if t = u then _ else _) = _)
      rw [if_neg h2, hf]
      refine key (w * f > v) ⟨v - w * f, u⟩ ?_ ?_
      · rw [hn, ← Nat.mul_assoc]; exact mlt _ _ _
      · intro hc
        rw [hn, ← Nat.mul_assoc, ← Nat.add_mul]
        congr 1; simp only; omega

/-- Building a timestamp in the unbounded build: exact. -/
theorem C22_build (sec sub : Nat) (u : TimeUnit) (hs : u = .s → sub = 0) :
    (dateBuild (fun _ => true) sec sub u).instant = sec * 1000000000 + sub * u.nanos ∧
    (dateBuild (fun _ => true) sec sub u).Canonical := by
  unfold dateBuild
  cases u with
  | s => rw [hs rfl]; exact ⟨by rw [dateBuildSec, (C22_reduce _).1]; simp [DateT.instant, TimeUnit.nanos], (C22_reduce _).2⟩
  | us =>
    simp only [dateBuildUs, true_and, if_true]
    exact ⟨by rw [(C22_reduce _).1]; simp only [DateT.instant, TimeUnit.nanos]; omega, (C22_reduce _).2⟩
  | ns =>
    simp only [true_and, if_true]
    exact ⟨by rw [(C22_reduce _).1]; simp only [DateT.instant, TimeUnit.nanos]; omega, (C22_reduce _).2⟩

/-- In the bounded builds a timestamp too large for its unit is rounded down to a larger unit, at worst to the second;
it is never changed otherwise, and never becomes later. -/
theorem C22_build_bounded (fits : Nat → Bool) (sec sub : Nat) (hsub : sub < 1000000000) :
    ∃ u : TimeUnit, (dateBuild fits sec sub .ns).instant = (sec * 1000000000 + sub) / u.nanos * u.nanos ∧
      (fits (sec * 1000000000) ∧ fits (sec * 1000000000 + sub) → u = .ns) := by
  unfold dateBuild
  by_cases h1 : fits (sec * 1000000000) = true ∧ fits (sec * 1000000000 + sub) = true
  · refine ⟨.ns, ?_, fun _ => rfl⟩
    simp only [h1, and_self, if_true, (C22_reduce _).1]
    simp [DateT.instant, TimeUnit.nanos]
  · simp only [if_neg h1]
    unfold dateBuildUs
    by_cases h2 : fits (sec * 1000000) = true ∧ fits (sec * 1000000 + sub / 1000) = true
    · refine ⟨.us, ?_, fun h => absurd h h1⟩
      simp only [h2, and_self, if_true, (C22_reduce _).1]
      simp only [DateT.instant, TimeUnit.nanos]; omega
    · refine ⟨.s, ?_, fun h => absurd h h1⟩
      simp only [h2, if_false, dateBuildSec, (C22_reduce _).1]
      simp only [DateT.instant, TimeUnit.nanos]; omega

/-- Seconds and sub-second part of a timestamp, in any unit: the whole instant when the unit is not larger than the
stored one, rounded down otherwise. -/
theorem C22_get_value (d : DateT) (u : TimeUnit) :
    ∃ sec sub, d.getValue u = .ok (sec, sub) ∧ sec = d.instant / 1000000000 ∧ sub = d.instant % 1000000000 / u.nanos := by
  obtain ⟨v, t⟩ := d
  unfold DateT.getValue
  cases t <;> cases u <;> (refine ⟨_, _, rfl, ?_, ?_⟩ <;> simp only [DateT.instant, TimeUnit.nanos] <;> omega)

/-- A stored timestamp is read back unchanged, whatever follows it in the file. -/
theorem C22_storage (d : DateT) (hd : d.Canonical) (ver : ArchVer) (hv : ver.lt ⟨9, 0⟩ = false) :
    ∃ b, d.dump = .ok b ∧ ReadsAs (dateRead (fun _ => true) ver) b d := by
  obtain ⟨sec, sub, hg, h1, h2⟩ := C22_get_value d d.uni
  refine ⟨_, by unfold DateT.dump; rw [hg]; rfl, ?_⟩
  unfold dateRead
  rw [hv, List.append_assoc]
  simp only [Bool.false_eq_true, if_false]
  refine ReadsAs.bind (a := d.uni) ?_ ?_
  · refine ReadsAs.bind_pure (ReadsAs.readByte _) ?_
    cases d.uni <;> rfl
  · refine ReadsAs.bind (getInt_putInt sec) ?_
    have hres : ∀ x, (d.uni = .s → x = 0) → x = sub ∨ (d.uni = .s ∧ x = 0) → dateBuild (fun _ => true) sec x d.uni = d := by
      intro x hx hxs
      obtain ⟨e1, e2⟩ := C22_build sec x d.uni hx
      refine (C22_eq_same _ _ e2 hd).mp ?_
      rw [e1]
      obtain ⟨v, u⟩ := d
      simp only [DateT.instant] at *
      cases u <;> simp only [TimeUnit.nanos, reduceCtorEq, false_and, or_false, true_and] at * <;> omega
    by_cases hu : d.uni.idx < TimeUnit.s.idx
    · simp only [hu, if_true]
      have hns : d.uni ≠ .s := by intro h; rw [h] at hu; exact absurd hu (by decide)
      exact ReadsAs.bind_pure (getInt_putInt sub) (by rw [hres sub (fun h => absurd h hns) (Or.inl rfl)])
    · simp only [hu, if_false]
      have hs : d.uni = .s := by revert hu; cases d.uni <;> decide
      refine ReadsAs.bind_pure (ReadsAs.pure 0) ?_
      rw [hres 0 (fun _ => rfl) (Or.inr ⟨hs, rfl⟩)]

/-- Archives older than format 9 store a number of seconds. -/
theorem C22_old_storage (sec : Nat) (ver : ArchVer) (hv : ver.lt ⟨9, 0⟩ = true) :
    ReadsAs (dateRead (fun _ => true) ver) (putInt sec) ⟨sec, .s⟩ := by
  unfold dateRead
  rw [hv]
  simp only [if_true]
  have h0 : ReadsAs (pure TimeUnit.s : Reader TimeUnit) [] .s := ReadsAs.pure _
  have := ReadsAs.bind (f := fun u => do
      let sec ← getInt
      let sub ← (if u.idx < TimeUnit.s.idx then getInt else pure 0)
      pure (dateBuild (fun _ => true) sec sub u)) h0 (e2 := putInt sec) (b := (⟨sec, .s⟩ : DateT)) ?_
  · simpa using this
  · refine ReadsAs.bind_pure (getInt_putInt sec) ?_
    simp only [TimeUnit.idx]
    have : dateBuild (fun _ => true) sec 0 .s = ⟨sec, .s⟩ := by
      unfold dateBuild dateBuildSec DateT.reduce
      by_cases h : sec = 0
      · subst h; rfl
      · simp [h]
    show (pure (dateBuild _ sec 0 .s) : Reader DateT) = _
    rw [this]

/-- The unit in which two timestamps are compared "loosely": the larger of their units and of the accuracy of the
system. -/
def looseUnit (capa : TimeUnit) (d r : DateT) : TimeUnit :=
  if (unitMax d.uni r.uni).idx < capa.idx then capa else unitMax d.uni r.uni

/-- Equality of dates "with hour shift": once both dates are rounded down to the loose unit, they are equal, or differ
by a whole number of hours not above the allowed shift. -/
theorem C22_hourshift (capa : TimeUnit) (hourshift : Nat) (d r : DateT) :
    ∃ b, equalHourshift capa hourshift d r = .ok b ∧
      (b = true ↔
        let n := (looseUnit capa d r).nanos
        let x := d.instant / n * n
        let y := r.instant / n * n
        ∃ h, h ≤ hourshift ∧ (x = y + h * 3600 * 1000000000 ∨ y = x + h * 3600 * 1000000000)) := by
  have inU : ∀ (d : DateT) u, d.uni.idx ≤ u.idx → d.inUnit u = .ok (d.instant / u.nanos) := by
    intro d u h
    obtain ⟨v, t⟩ := d
    unfold DateT.inUnit DateT.instant
    cases t <;> cases u <;> simp only [TimeUnit.nanos, TimeUnit.idx, scaling] at * <;>
      first
      | (exfalso; omega)
      | (simp only [Nat.lt_irrefl, if_false]; congr 1; omega)
      | (norm_num only; simp only [if_true, if_false]; show Except.ok _ = Except.ok _; congr 1; omega)
  have diff : ∀ d r : DateT, r.instant ≤ d.instant → d.looseDiff capa r = .ok (DateT.reduce
      ⟨d.instant / (looseUnit capa d r).nanos - r.instant / (looseUnit capa d r).nanos, looseUnit capa d r⟩) := by
    intro d r h
    have h1 : d.uni.idx ≤ (looseUnit capa d r).idx := by
      unfold looseUnit unitMax; split <;> split at * <;> omega
    have h2 : r.uni.idx ≤ (looseUnit capa d r).idx := by
      unfold looseUnit unitMax; split <;> split at * <;> omega
    unfold DateT.looseDiff
    show (do let v ← d.inUnit (looseUnit capa d r); let aux ← r.inUnit (looseUnit capa d r)
             if v < aux then .error .bug else .ok (DateT.reduce ⟨v - aux, looseUnit capa d r⟩)) = _
    rw [inU d _ h1, inU r _ h2]
    show (if d.instant / _ < r.instant / _ then _ else _) = _
    rw [if_neg (by have := Nat.div_le_div_right (c := (looseUnit capa d r).nanos) h; omega)]
  have fin : ∀ (x y : Nat) (u : TimeUnit), y / u.nanos ≤ x / u.nanos → ∃ b,
      (let delta := DateT.reduce ⟨x / u.nanos - y / u.nanos, u⟩
       (if delta.val = 0 then .ok true
        else if delta.uni ≠ .s then .ok false
        else do
          let (sec, _) ← delta.getValue delta.uni
          if sec % 3600 ≠ 0 then .ok false else .ok (decide (sec / 3600 ≤ hourshift)) : Res Bool)) = .ok b ∧
      (b = true ↔ ∃ h, h ≤ hourshift ∧ (x / u.nanos * u.nanos = y / u.nanos * u.nanos + h * 3600 * 1000000000 ∨
        y / u.nanos * u.nanos = x / u.nanos * u.nanos + h * 3600 * 1000000000)) := by
    intro x y u hle
    obtain ⟨e1, e2⟩ := C22_reduce ⟨x / u.nanos - y / u.nanos, u⟩
    generalize DateT.reduce ⟨x / u.nanos - y / u.nanos, u⟩ = δ at e1 e2
    have hpos : 0 < u.nanos := by cases u <;> decide
    simp only
    rw [show DateT.instant ⟨x / u.nanos - y / u.nanos, u⟩ = (x / u.nanos - y / u.nanos) * u.nanos from rfl] at e1
    generalize x / u.nanos = X at *
    generalize y / u.nanos = Y at *
    have hsub : (X - Y) * u.nanos = X * u.nanos - Y * u.nanos := Nat.sub_mul _ _ _
    have hmul : Y * u.nanos ≤ X * u.nanos := Nat.mul_le_mul_right _ hle
    rw [hsub] at e1
    generalize X * u.nanos = A at *
    generalize Y * u.nanos = B at *
    obtain ⟨v, t⟩ := δ
    by_cases h0 : v = 0
    · refine ⟨true, by simp [h0], iff_of_true rfl ⟨0, by omega, ?_⟩⟩
      left
      simp only [DateT.instant, h0] at e1
      omega
    · simp only [h0, if_false]
      have habs : ∀ h, (A = B + h * 3600 * 1000000000 ∨ B = A + h * 3600 * 1000000000) ↔ DateT.instant ⟨v, t⟩ = h * 3600 * 1000000000 := by
        intro h
        have : 0 < DateT.instant ⟨v, t⟩ := by
          have hn : 0 < t.nanos := by cases t <;> decide
          exact Nat.mul_pos (show 0 < v by omega) hn
        omega
      cases t with
      | s =>
        simp only [ne_eq, not_true_eq_false, if_false]
        have hg : (DateT.getValue ⟨v, .s⟩ .s) = .ok (v, 0) := by
          unfold DateT.getValue
          show Except.ok (v / 1, v % 1) = _
          simp [Nat.mod_one]
        rw [hg]
        show ∃ b, (if ¬ v % 3600 = 0 then .ok false else .ok (decide (v / 3600 ≤ hourshift))) = Except.ok b ∧ _
        by_cases hr : v % 3600 = 0
        · refine ⟨_, by rw [if_neg (by simpa using hr)], ?_⟩
          rw [decide_eq_true_eq]
          constructor
          · intro h
            refine ⟨v / 3600, h, (habs _).mpr ?_⟩
            simp only [DateT.instant, TimeUnit.nanos]; omega
          · rintro ⟨h, hle', hh⟩
            have := (habs h).mp hh
            simp only [DateT.instant, TimeUnit.nanos] at this
            omega
        · refine ⟨false, by rw [if_pos hr], iff_of_false (by simp) ?_⟩
          rintro ⟨h, hle', hh⟩
          have := (habs h).mp hh
          simp only [DateT.instant, TimeUnit.nanos] at this
          omega
      | us =>
        refine ⟨false, by simp, iff_of_false (by simp) ?_⟩
        rintro ⟨h, _, hh⟩
        have := (habs h).mp hh
        simp only [DateT.instant, TimeUnit.nanos] at this
        simp only [DateT.Canonical] at e2
        omega
      | ns =>
        refine ⟨false, by simp, iff_of_false (by simp) ?_⟩
        rintro ⟨h, _, hh⟩
        have := (habs h).mp hh
        simp only [DateT.instant, TimeUnit.nanos] at this
        simp only [DateT.Canonical] at e2
        omega
  obtain ⟨g, hg, hgt⟩ := C22_gt d r
  unfold equalHourshift
  rw [hg]
  by_cases hlt : r.instant < d.instant
  · have hb : g = true := hgt.mpr hlt
    subst hb
    have := fin d.instant r.instant (looseUnit capa d r) (Nat.div_le_div_right (by omega))
    rw [show (do
        let g ← (Except.ok true : Res Bool)
        let delta ← (if g = true then d.looseDiff capa r else r.looseDiff capa d)
        if delta.val = 0 then .ok true
        else if delta.uni ≠ .s then .ok false
        else do
          let (sec, _) ← delta.getValue delta.uni
          if sec % 3600 ≠ 0 then .ok false else .ok (decide (sec / 3600 ≤ hourshift)) : Res Bool) = (do
        let delta ← d.looseDiff capa r
        if delta.val = 0 then .ok true
        else if delta.uni ≠ .s then .ok false
        else do
          let (sec, _) ← delta.getValue delta.uni
          if sec % 3600 ≠ 0 then .ok false else .ok (decide (sec / 3600 ≤ hourshift)) : Res Bool) from rfl]
    rw [diff d r (by omega)]
    exact this
  · have hb : g = false := by
      cases g with
      | false => rfl
      | true => exact absurd (hgt.mp rfl) hlt
    subst hb
    have hsym : looseUnit capa r d = looseUnit capa d r := by
      have : unitMax r.uni d.uni = unitMax d.uni r.uni := by cases d.uni <;> cases r.uni <;> rfl
      unfold looseUnit; rw [this]
    obtain ⟨b, h1, h2⟩ := fin r.instant d.instant (looseUnit capa d r) (Nat.div_le_div_right (by omega))
    rw [show (do
        let g ← (Except.ok false : Res Bool)
        let delta ← (if g = true then d.looseDiff capa r else r.looseDiff capa d)
        if delta.val = 0 then .ok true
        else if delta.uni ≠ .s then .ok false
        else do
          let (sec, _) ← delta.getValue delta.uni
          if sec % 3600 ≠ 0 then .ok false else .ok (decide (sec / 3600 ≤ hourshift)) : Res Bool) = (do
        let delta ← r.looseDiff capa d
        if delta.val = 0 then .ok true
        else if delta.uni ≠ .s then .ok false
        else do
          let (sec, _) ← delta.getValue delta.uni
          if sec % 3600 ≠ 0 then .ok false else .ok (decide (sec / 3600 ≤ hourshift)) : Res Bool) from rfl]
    rw [diff r d (by omega), hsym]
    refine ⟨b, h1, h2.trans ?_⟩
    simp only
    constructor
    · rintro ⟨h, hl, hh | hh⟩
      · exact ⟨h, hl, Or.inr hh⟩
      · exact ⟨h, hl, Or.inl hh⟩
    · rintro ⟨h, hl, hh | hh⟩
      · exact ⟨h, hl, Or.inr hh⟩
      · exact ⟨h, hl, Or.inl hh⟩

/-- Finding: this equality is not transitive, and a date that happens to be a whole second is "equal" to every date of
that second, even with no hour shift and nanosecond accuracy: a change of such a file within the second following its
recorded date is not seen. -/
theorem C22_loose_counterexample :
    ∃ a b c : DateT, a.Canonical ∧ b.Canonical ∧ c.Canonical ∧ equalHourshift .ns 0 a b = .ok true ∧
      equalHourshift .ns 0 a c = .ok true ∧ equalHourshift .ns 0 b c = .ok false ∧ a.instant ≠ b.instant := by
  refine ⟨⟨10, .s⟩, ⟨10000500, .us⟩, ⟨10000700, .us⟩, trivial, by simp [DateT.Canonical], by simp [DateT.Canonical], by decide, by decide, by decide, by decide⟩

/-! Instances. -/
example : (⟨1500000001, .ns⟩ : DateT).Canonical ∧ (⟨1500000, .us⟩ : DateT).Canonical := by simp [DateT.Canonical]
example : (⟨1500000, .us⟩ : DateT).lt ⟨2, .s⟩ = .ok true ∧ (⟨1, .s⟩ : DateT).lt ⟨1000000001, .ns⟩ = .ok true := by decide

end Dar
