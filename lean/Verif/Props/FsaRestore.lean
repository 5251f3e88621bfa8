import Verif.Spec.FsaRestore
import Verif.Props.Attributes
/- C86: restoring the flags of files. -/
namespace Dar.Ff
open Dar

/-! ### sets of attributes -/

theorem good_unique {l : List Fsa} (h : FsaSet l) {x y : Fsa} (hx : x ∈ l) (hy : y ∈ l) (hf : x.fam = y.fam) (hn : x.nat = y.nat) : x = y :=
  key_unique ((fsaSet_key l).1 h) hx hy (by simp [Fsa.key, hf, hn])

theorem val_some {l : List Fsa} (h : FsaSet l) {n : FsaNat} {b : Bool} : val l n = some b ↔ (⟨.extX, n, .bool b⟩ : Fsa) ∈ l := by
  unfold val
  split
  · rename_i h1
    constructor
    · intro e; cases e; exact h1
    · intro h2
      have := good_unique h h1 h2 rfl rfl
      simp at this; rw [this]
  · rename_i h1
    split
    · rename_i h2
      constructor
      · intro e; cases e; exact h2
      · intro h3
        have := good_unique h h2 h3 rfl rfl
        simp at this; rw [this]
    · rename_i h2
      constructor
      · intro e; cases e
      · intro h3; cases b <;> contradiction

theorem val_none {l : List Fsa} {n : FsaNat} : val l n = none ↔ ∀ b, (⟨.extX, n, .bool b⟩ : Fsa) ∉ l := by
  unfold val
  constructor
  · intro h b
    split at h
    · cases h
    · split at h
      · cases h
      · cases b <;> assumption
  · intro h; rw [if_neg (h true), if_neg (h false)]

theorem val_cons_other {x : Fsa} {l : List Fsa} {n : FsaNat} (h : ¬ (x.fam = .extX ∧ x.nat = n)) : val (x :: l) n = val l n := by
  unfold val
  have : ∀ b, (⟨.extX, n, .bool b⟩ : Fsa) ∈ x :: l ↔ (⟨.extX, n, .bool b⟩ : Fsa) ∈ l := by
    intro b
    rw [List.mem_cons]
    constructor
    · rintro (e | e)
      · exact absurd ⟨by rw [← e], by rw [← e]⟩ h
      · exact e
    · exact .inr
  simp only [this]

theorem val_nil (n : FsaNat) : val [] n = none := by simp [val]

theorem good_tail {x : Fsa} {l : List Fsa} (h : Good (x :: l)) : Good l := ⟨(List.pairwise_cons.1 h.1).2, fun y hy => h.2 y (List.mem_cons_of_mem _ hy)⟩

/-! ### the flags that are computed -/

theorem compute_spec (c : Cfg) (si : Bool) : ∀ (l : List Fsa) (f : Flags), Good l →
    ∃ t, compute c si l f = .ok t ∧ ∀ n, t n = if decide (n = .immutable) = si ∧ c.sup n = true then (val l n).getD (f n) else f n := by
  intro l
  induction l with
  | nil => intro f _; exact ⟨f, rfl, fun n => by simp [val_nil]⟩
  | cons x l ih =>
    intro f hg
    have hg' := good_tail hg
    have hx := hg.2 x List.mem_cons_self
    unfold compute
    by_cases h1 : x.fam ≠ .extX ∨ x.nat = .creationDate
    · rw [if_pos h1]
      obtain ⟨t, e, ht⟩ := ih f hg'
      refine ⟨t, e, fun n => ?_⟩
      rw [ht n]
      by_cases hn : x.fam = .extX ∧ x.nat = n
      · rcases h1 with h1 | h1
        · exact absurd hn.1 h1
        · have hc : n = .creationDate := by rw [← hn.2, h1]
          have e1 : val l n = none := by
            rw [val_none]; intro b hb; have := hg'.2 _ hb; simp [Fsa.Typed, hc] at this
          have e2 : val (x :: l) n = none := by
            rw [val_none]; intro b hb; have := hg.2 _ hb; simp [Fsa.Typed, hc] at this
          rw [e1, e2]
      · rw [val_cons_other hn]
    · rw [if_neg h1]
      have hfam : x.fam = .extX := by
        cases hf : x.fam with
        | extX => rfl
        | hfs => exact absurd (Or.inl (by rw [hf]; decide)) h1
      by_cases h2 : decide (x.nat = .immutable) ≠ si
      · rw [if_pos h2]
        obtain ⟨t, e, ht⟩ := ih f hg'
        refine ⟨t, e, fun n => ?_⟩
        rw [ht n]
        by_cases hn : x.nat = n
        · subst hn; rw [if_neg (fun h => h2 h.1), if_neg (fun h => h2 h.1)]
        · rw [val_cons_other (fun h => hn h.2)]
      · rw [if_neg h2]
        obtain ⟨fam, nat, v⟩ := x
        simp only at h1 h2 hfam
        subst hfam
        cases v with
        | time d => simp [Fsa.Typed] at hx; exact absurd (Or.inr hx.1) h1
        | bool b =>
          simp only
          obtain ⟨t, e, ht⟩ := ih (if c.sup nat then (fun n => if n = nat then b else f n) else f) hg'
          refine ⟨t, e, fun n => ?_⟩
          rw [ht n]
          by_cases hn : nat = n
          · subst hn
            have e1 : val l nat = none := by
              rw [val_none]; intro b' hb
              have := (List.pairwise_cons.1 hg.1).1 _ hb
              rcases this with h | ⟨_, h⟩ <;> exact absurd h (Nat.lt_irrefl _)
            have e2 : val (⟨.extX, nat, .bool b⟩ :: l) nat = some b := (val_some hg.1).2 (by simp)
            rw [e1, e2]
            have h2' : decide (nat = .immutable) = si := Classical.not_not.1 h2
            by_cases hs : c.sup nat = true
            · have hp : decide (nat = .immutable) = si ∧ c.sup nat = true := ⟨h2', hs⟩
              rw [if_pos hp, if_pos hp]; simp [hs]
            · have hp : ¬ (decide (nat = .immutable) = si ∧ c.sup nat = true) := fun hh => hs hh.2
              rw [if_neg hp, if_neg hp]; simp [hs]
          · rw [val_cons_other (fun h => hn h.2)]
            have : (if c.sup nat = true then (fun n => if n = nat then b else f n) else f) n = f n := by
              split
              · simp [Ne.symm hn]
              · rfl
            rw [this]

theorem mem_allFlags (n : FsaNat) : n ∈ allFlags ↔ n ≠ .creationDate := by cases n <;> decide

theorem differ_false {f g : Flags} (h : differ f g = false) {n : FsaNat} (hn : n ≠ .creationDate) : f n = g n := by
  unfold differ at h
  rw [List.any_eq_false] at h
  have := h n ((mem_allFlags n).2 hn)
  simpa using this
theorem differ_true {f g : Flags} : differ f g = true ↔ ∃ n, n ≠ .creationDate ∧ f n ≠ g n := by
  unfold differ
  rw [List.any_eq_true]
  constructor
  · rintro ⟨n, h1, h2⟩; exact ⟨n, (mem_allFlags n).1 h1, by simpa using h2⟩
  · rintro ⟨n, h1, h2⟩; exact ⟨n, (mem_allFlags n).2 h1, by simpa using h2⟩

theorem stepImm_from (c : Cfg) (t f : Flags) (n : FsaNat) : (stepImm c t f).1 n = t n ∨ (stepImm c t f).1 n = f n := by
  unfold stepImm
  simp only
  split
  · split
    · simp only; split
      · exact .inl rfl
      · exact .inr rfl
    · exact .inr rfl
  · exact .inr rfl
theorem stepRes_from (c : Cfg) (t f : Flags) (n : FsaNat) : (stepRes c t f).1 n = t n ∨ (stepRes c t f).1 n = f n := by
  unfold stepRes
  simp only
  split
  · split
    · simp only; split
      · exact .inl rfl
      · exact .inr rfl
    · exact .inr rfl
  · exact .inr rfl
theorem ordinary_from (t f : Flags) (n : FsaNat) : ordinary t f n = t n ∨ ordinary t f n = f n := by
  unfold ordinary
  split
  · exact .inr rfl
  · exact .inl rfl

/-- whatever is refused -/
theorem apply_from (c : Cfg) (t f : Flags) (n : FsaNat) : (apply c t f).1 n = t n ∨ (apply c t f).1 n = f n := by
  unfold apply
  simp only
  split
  · exact .inr rfl
  · simp only
    rcases stepRes_from c t (stepImm c t (ordinary t f)).1 n with h | h
    · exact .inl h
    · rw [h]
      rcases stepImm_from c t (ordinary t f) n with h | h
      · exact .inl h
      · rw [h]; exact ordinary_from t f n

theorem stepImm_all {c : Cfg} (h : c.immOk = true) (t f : Flags) {n : FsaNat} (hn : n ≠ .creationDate) :
    (stepImm c t f).1 n = if imm n then t n else f n := by
  unfold stepImm
  simp only [h, if_true]
  split
  · rfl
  · rename_i hd
    simp only [Bool.not_eq_true] at hd
    exact (differ_false hd hn).symm
theorem stepRes_all {c : Cfg} (h : c.resOk = true) (t f : Flags) {n : FsaNat} (hn : n ≠ .creationDate) :
    (stepRes c t f).1 n = if res n then t n else f n := by
  unfold stepRes
  simp only [h, if_true]
  split
  · rfl
  · rename_i hd
    simp only [Bool.not_eq_true] at hd
    exact (differ_false hd hn).symm

/-- when nothing is refused -/
theorem apply_all {c : Cfg} (h : c.Allows) (t f : Flags) : ∃ g b, apply c t f = (g, .ok b) ∧ (∀ n, n ≠ .creationDate → g n = t n) ∧ (b = true ↔ ∃ n, n ≠ .creationDate ∧ t n ≠ f n) := by
  obtain ⟨_, hp, hi, hr⟩ := h
  unfold apply
  simp only [hp, Bool.not_true, Bool.and_false, Bool.false_eq_true, if_false]
  have e1 : ∀ n, n ≠ .creationDate → (stepImm c t (ordinary t f)).1 n = if imm n then t n else ordinary t f n := fun n hn => stepImm_all hi _ _ hn
  have e2 : ∀ n, n ≠ .creationDate → (stepRes c t (stepImm c t (ordinary t f)).1).1 n = t n := by
    intro n hn
    rw [stepRes_all hr _ _ hn, e1 n hn]
    unfold ordinary
    cases himm : imm n <;> cases hres : res n <;> simp
  refine ⟨_, _, rfl, e2, ?_⟩
  have b1 : differ (ordinary t f) f = true ↔ ∃ n, n ≠ .creationDate ∧ imm n = false ∧ res n = false ∧ t n ≠ f n := by
    rw [differ_true]
    constructor
    · rintro ⟨n, h1, h2⟩
      unfold ordinary at h2
      split at h2
      · exact absurd rfl h2
      · rename_i hh
        exact ⟨n, h1, by simpa using fun h => hh (.inl h), by simpa using fun h => hh (.inr h), h2⟩
    · rintro ⟨n, h1, h2, h3, h4⟩
      exact ⟨n, h1, by simpa [ordinary, h2, h3] using h4⟩
  have b2 : (stepImm c t (ordinary t f)).2 = true ↔ ∃ n, n ≠ .creationDate ∧ imm n = true ∧ t n ≠ f n := by
    have : (stepImm c t (ordinary t f)).2 = differ (fun n => if imm n then t n else ordinary t f n) (ordinary t f) := by
      unfold stepImm; simp only [hi, if_true]; split
      · rename_i hd; exact hd.symm
      · rename_i hd; simpa using hd
    rw [this, differ_true]
    constructor
    · rintro ⟨n, h1, h2⟩
      split at h2
      · rename_i hh; exact ⟨n, h1, hh, by simpa [ordinary, hh] using h2⟩
      · exact absurd rfl h2
    · rintro ⟨n, h1, h2, h3⟩
      exact ⟨n, h1, by simpa [ordinary, h2] using h3⟩
  have b3 : (stepRes c t (stepImm c t (ordinary t f)).1).2 = true ↔ ∃ n, n ≠ .creationDate ∧ res n = true ∧ t n ≠ f n := by
    have : (stepRes c t (stepImm c t (ordinary t f)).1).2 = differ (fun n => if res n then t n else (stepImm c t (ordinary t f)).1 n) (stepImm c t (ordinary t f)).1 := by
      unfold stepRes; simp only [hr, if_true]; split
      · rename_i hd; exact hd.symm
      · rename_i hd; simpa using hd
    rw [this, differ_true]
    have himm : ∀ n, res n = true → imm n = false := by intro n; cases n <;> decide
    constructor
    · rintro ⟨n, h1, h2⟩
      split at h2
      · rename_i hh
        rw [e1 n h1] at h2
        exact ⟨n, h1, hh, by simpa [ordinary, hh, himm n hh] using h2⟩
      · exact absurd rfl h2
    · rintro ⟨n, h1, h2, h3⟩
      refine ⟨n, h1, ?_⟩
      simp only [h2, if_true]
      rw [e1 n h1]
      simpa [ordinary, h2, himm n h2] using h3
  rw [Bool.or_eq_true, Bool.or_eq_true, b1, b2, b3]
  constructor
  · rintro ((⟨n, h1, _, _, h2⟩ | ⟨n, h1, _, h2⟩) | ⟨n, h1, _, h2⟩) <;> exact ⟨n, h1, h2⟩
  · rintro ⟨n, h1, h2⟩
    cases hi' : imm n with
    | true => exact .inl (.inr ⟨n, h1, hi', h2⟩)
    | false =>
      cases hr' : res n with
      | true => exact .inr ⟨n, h1, hr', h2⟩
      | false => exact .inl (.inl ⟨n, h1, hi', hr', h2⟩)

/-- the flags after set_fsa_to_filesystem_for, when nothing is refused -/
def target (c : Cfg) (scope si : Bool) (l : List Fsa) (f : Flags) (n : FsaNat) : Bool :=
  if scope = true ∧ decide (n = .immutable) = si ∧ c.sup n = true then (val l n).getD (f n) else f n

theorem noExtX_val {l : List Fsa} (h : l.any (fun x => decide (x.fam = .extX)) = false) (n : FsaNat) : val l n = none := by
  rw [val_none]; intro b hb
  rw [List.any_eq_false] at h
  have := h _ hb
  simp at this

theorem setExtX_all {c : Cfg} (h : c.Allows) {l : List Fsa} (hl : Good l) (si : Bool) (f : Flags) :
    ∃ g b, setExtX c si l f = (g, .ok b) ∧ (∀ n, n ≠ .creationDate → g n = target c true si l f n) ∧ (b = true ↔ ∃ n, n ≠ .creationDate ∧ target c true si l f n ≠ f n) := by
  unfold setExtX
  cases he : l.any (fun x => decide (x.fam = .extX)) with
  | false =>
    have e : ∀ n, target c true si l f n = f n := by intro n; unfold target; rw [noExtX_val he n]; simp
    refine ⟨f, false, rfl, fun n _ => (e n).symm, ?_⟩
    constructor
    · intro h; cases h
    · rintro ⟨n, _, h2⟩; exact absurd (e n) h2
  | true =>
    obtain ⟨t, et, ht⟩ := compute_spec c si l f hl
    obtain ⟨g, b, e, h1, h2⟩ := apply_all h t f
    have e' : ∀ n, t n = target c true si l f n := by intro n; rw [ht n]; unfold target; simp
    refine ⟨g, b, ?_, fun n hn => by rw [h1 n hn, e' n], ?_⟩
    · simp [h.1, et, e]
    · rw [h2]
      constructor
      · rintro ⟨n, a, b⟩; exact ⟨n, a, by rw [← e' n]; exact b⟩
      · rintro ⟨n, a, b⟩; exact ⟨n, a, by rw [e' n]; exact b⟩

theorem setFsa_all {c : Cfg} (h : c.Allows) {l : List Fsa} (hl : Good l) (scope si : Bool) (f : Flags) :
    ∃ g b, setFsa c scope si l f = (g, .ok b) ∧ (∀ n, n ≠ .creationDate → g n = target c scope si l f n) ∧
      ((∃ n, n ≠ .creationDate ∧ target c scope si l f n ≠ f n) → b = true) ∧
      ((∀ x ∈ l, x.fam ≠ .hfs) → b = true → ∃ n, n ≠ .creationDate ∧ target c scope si l f n ≠ f n) := by
  unfold setFsa
  cases scope with
  | false =>
    refine ⟨f, false, by simp, fun n _ => by simp [target], ?_, ?_⟩
    · rintro ⟨n, _, h2⟩; simp [target] at h2
    · intro _ h; cases h
  | true =>
    obtain ⟨g, b, e, h1, h2⟩ := setExtX_all h hl si f
    simp only [if_true, e]
    refine ⟨g, _, rfl, h1, ?_, ?_⟩
    · intro hx; rw [h2.2 hx]; simp
    · intro hh hb
      rw [← h2]
      have : l.any (fun x => decide (x.fam = .hfs ∧ x.nat = .creationDate)) = false := by
        rw [List.any_eq_false]; intro x hx; simp [hh x hx]
      rw [this] at hb; simpa using hb

theorem setFsa_fst (c : Cfg) (scope si : Bool) (l : List Fsa) (f : Flags) : (setFsa c scope si l f).1 = (if scope then setExtX c si l f else (f, .ok false)).1 := by
  unfold setFsa
  simp only
  split <;> rfl

/-- whatever is refused, a flag is left as it was or takes the value of the set -/
theorem setFsa_from (c : Cfg) (scope si : Bool) {l : List Fsa} (hl : Good l) (f : Flags) (n : FsaNat) :
    (setFsa c scope si l f).1 n = f n ∨ (scope = true ∧ decide (n = .immutable) = si ∧ c.sup n = true ∧ val l n = some ((setFsa c scope si l f).1 n)) := by
  rw [setFsa_fst]
  cases scope with
  | false => exact .inl rfl
  | true =>
    simp only [if_true]
    unfold setExtX
    split
    · split
      · exact .inl rfl
      · obtain ⟨t, et, ht⟩ := compute_spec c si l f hl
        rw [et]
        simp only
        rcases apply_from c t f n with h | h
        · rw [h, ht n]
          split
          · rename_i hh
            cases hv : val l n with
            | none => exact .inl rfl
            | some b => exact .inr ⟨trivial, hh.1, hh.2, by simp⟩
          · exact .inl rfl
        · exact .inl h
    · exact .inl rfl

/-! ### what is read of the object in place -/

theorem fill_mem (c : Cfg) (mode : Nat) (f : Flags) (x : Fsa) : x ∈ fill c mode f → x.fam = .extX ∧ x.nat ≠ .creationDate ∧ c.sup x.nat = true ∧ x.val = .bool (f x.nat) := by
  unfold fill
  split
  · intro h
    obtain ⟨n, h1, rfl⟩ := List.mem_map.1 h
    rw [List.mem_filter] at h1
    exact ⟨rfl, (mem_allFlags n).1 h1.1, h1.2, rfl⟩
  · intro h; cases h

theorem fill_good (c : Cfg) (mode : Nat) (f : Flags) : Good (fill c mode f) := by
  constructor
  · unfold FsaSet fill
    split
    · rw [List.pairwise_map]
      refine List.Pairwise.filter _ ?_
      have : allFlags.Pairwise (fun a b => a.idx < b.idx) := by decide
      exact this.imp (fun h => Or.inr ⟨rfl, h⟩)
    · exact List.Pairwise.nil
  · intro x hx
    obtain ⟨_, h2, _, h4⟩ := fill_mem c mode f x hx
    unfold Fsa.Typed; rw [h4]; exact h2

theorem fill_val {c : Cfg} (ho : c.openOk = true) {mode : Nat} (hm : isReg mode = true ∨ isDir mode = true) (f : Flags) {n : FsaNat} (hn : n ≠ .creationDate) (hs : c.sup n = true) :
    val (fill c mode f) n = some (f n) := by
  rw [val_some (fill_good c mode f).1]
  unfold fill
  rw [if_pos (by simp [ho, hm]), List.mem_map]
  exact ⟨n, by rw [List.mem_filter]; exact ⟨(mem_allFlags n).2 hn, hs⟩, rfl⟩

theorem plus_good {a b : List Fsa} (ha : Good a) (hb : Good b) : ∃ l, fsaPlus a b = .ok l ∧ Good l ∧ ∀ n, val l n = (val b n).or (val a n) := by
  obtain ⟨l, h1, h2, h3⟩ := C47_fsa_plus a b ha.1 hb.1
  have hl : Good l := ⟨h2, fun x hx => by
    rcases (h3 x).1 hx with h | ⟨h, _⟩
    · exact hb.2 x h
    · exact ha.2 x h⟩
  refine ⟨l, h1, hl, fun n => ?_⟩
  cases hvb : val b n with
  | some v =>
    rw [Option.some_or, val_some h2, h3]
    exact .inl ((val_some hb.1).1 hvb)
  | none =>
    rw [Option.none_or]
    cases hva : val a n with
    | some v =>
      rw [val_some h2, h3]
      refine .inr ⟨(val_some ha.1).1 hva, ?_⟩
      rintro ⟨fam, nat, w⟩ hz ⟨e1, e2⟩
      simp only at e1 e2
      subst e1 e2
      cases w with
      | bool w => exact (val_none.1 hvb) w hz
      | time d =>
        have t1 := hb.2 _ hz
        have t2 := ha.2 _ ((val_some ha.1).1 hva)
        simp [Fsa.Typed] at t1 t2
        exact t2 t1.1
    | none =>
      rw [val_none]; intro w hw
      rcases (h3 _).1 hw with h | ⟨h, _⟩
      · exact val_none.1 hvb w h
      · exact val_none.1 hva w h

/-! ### a new file -/

theorem shown_ok {f : Flags} {b : Bool} : shown (f, .ok b) = (f, .ok b) := rfl
theorem shown_fst (r : Flags × Res Bool) : (shown r).1 = r.1 := by unfold shown; split <;> rfl

/-- **C86**: a file that did not exist has, once restored, the flags of the archive, the immutable one included; the ones the archive does not have are those the system gives.  (The system refuses to set the
dates of a file that is append-only.) -/
theorem C86_new (c : Cfg) (it : Item) (h : c.Allows) (hs : c.scope = true) (hl : Good it.fsa)
    (hd : it.dir = true ∨ c.dates = false ∨ (c.born .immutable = false ∧ (if c.sup .appendOnly then (val it.fsa .appendOnly).getD (c.born .appendOnly) else c.born .appendOnly) = false)) :
    ∃ g b, writeNew c it = (g, .ok b) ∧ ∀ n, n ≠ .creationDate → c.sup n = true → g n = (val it.fsa n).getD (c.born n) := by
  obtain ⟨g, b, e, h1, -, -⟩ := setFsa_all h hl c.scope false c.born
  obtain ⟨g2, b2, e2, h2, -, -⟩ := setFsa_all h hl c.scope true g
  refine ⟨g2, b2, ?_, ?_⟩
  · unfold writeNew
    simp only [e, shown_ok]
    have : (if it.dir = true then (.ok () : Res Unit) else makeDate c g) = .ok () := by
      split
      · rfl
      · rename_i hnd
        unfold makeDate
        rcases hd with hd | hd | ⟨hd1, hd2⟩
        · exact absurd hd hnd
        · rw [hd]; rfl
        · have a1 : g .immutable = false := by rw [h1 _ (by decide)]; simp [target, hd1]
          have a2 : g .appendOnly = false := by
            rw [h1 _ (by decide)]; unfold target
            cases hsup : c.sup .appendOnly with
            | true => rw [hsup] at hd2; simpa [hs] using hd2
            | false => rw [hsup] at hd2; simpa using hd2
          simp [frozen, a1, a2]
    rw [this]
    simp only [e2, shown_ok]
  · intro n hn hsn
    rw [h2 n hn]
    unfold target
    by_cases hi : n = .immutable
    · subst hi
      rw [if_pos ⟨hs, by simp, hsn⟩, h1 _ hn]
      simp [target]
    · rw [if_neg (by simp [hi]), h1 n hn]
      unfold target
      rw [if_pos ⟨hs, by simp [hi], hsn⟩]

/-! ### when the system refuses some flags -/

/-- the system accepts to change the flag: the append-only and immutable ones need a capability, data journaling another one -/
def Accepts (c : Cfg) (n : FsaNat) : Prop := ((n = .appendOnly ∨ n = .immutable) → c.immOk = true) ∧ (n = .dataJournaling → c.resOk = true)

theorem stepImm_no {c : Cfg} (h : c.immOk = false) (t f : Flags) : (stepImm c t f).1 = f := by
  unfold stepImm; simp only [h]; split <;> rfl
theorem stepRes_no {c : Cfg} (h : c.resOk = false) (t f : Flags) : (stepRes c t f).1 = f := by
  unfold stepRes; simp only [h]; split <;> rfl
theorem apply_some {c : Cfg} (hp : c.plainOk = true) (t f : Flags) :
    ∃ g b, apply c t f = (g, .ok b) ∧ ∀ n, n ≠ .creationDate → (Accepts c n → g n = t n) ∧ (¬ Accepts c n → g n = f n) := by
  unfold apply
  simp only [hp, Bool.not_true, Bool.and_false, Bool.false_eq_true, if_false]
  refine ⟨_, _, rfl, fun n hn => ?_⟩
  have e1 : (stepImm c t (ordinary t f)).1 n = if imm n && c.immOk then t n else ordinary t f n := by
    cases hi : c.immOk with
    | true => rw [stepImm_all hi _ _ hn]; simp
    | false => rw [stepImm_no hi]; simp
  have e2 : (stepRes c t (stepImm c t (ordinary t f)).1).1 n = if res n && c.resOk then t n else (stepImm c t (ordinary t f)).1 n := by
    cases hi : c.resOk with
    | true => rw [stepRes_all hi _ _ hn]; simp
    | false => rw [stepRes_no hi]; simp
  rw [e2, e1]
  unfold Accepts ordinary
  cases n <;> cases c.immOk <;> cases c.resOk <;> simp [imm, res] at hn ⊢
theorem setFsa_some {c : Cfg} (ho : c.openOk = true) (hp : c.plainOk = true) {l : List Fsa} (hl : Good l) (scope si : Bool) (f : Flags) :
    ∃ g b, setFsa c scope si l f = (g, .ok b) ∧ ∀ n, n ≠ .creationDate → (Accepts c n → g n = target c scope si l f n) ∧ (¬ Accepts c n → g n = f n) := by
  unfold setFsa
  cases scope with
  | false => exact ⟨f, false, by simp, fun n _ => ⟨fun _ => by simp [target], fun _ => rfl⟩⟩
  | true =>
    have : ∃ g b, setExtX c si l f = (g, .ok b) ∧ ∀ n, n ≠ .creationDate → (Accepts c n → g n = target c true si l f n) ∧ (¬ Accepts c n → g n = f n) := by
      unfold setExtX
      cases he : l.any (fun x => decide (x.fam = .extX)) with
      | false =>
        have e : ∀ n, target c true si l f n = f n := by intro n; unfold target; rw [noExtX_val he n]; simp
        exact ⟨f, false, rfl, fun n _ => ⟨fun _ => (e n).symm, fun _ => rfl⟩⟩
      | true =>
        obtain ⟨t, et, ht⟩ := compute_spec c si l f hl
        obtain ⟨g, b, e, h1⟩ := apply_some hp t f
        have e' : ∀ n, t n = target c true si l f n := by intro n; rw [ht n]; unfold target; simp
        exact ⟨g, b, by simp [ho, et, e], fun n hn => by rw [← e' n]; exact h1 n hn⟩
    obtain ⟨g, b, e, h1⟩ := this
    simp only [if_true, e]
    exact ⟨g, _, rfl, h1⟩

/-- **C86**: without the capabilities that the append-only, immutable and data journaling flags need, all the others are restored in a new file, and these are left as the system makes them. -/
theorem C86_refused (c : Cfg) (it : Item) (ho : c.openOk = true) (hp : c.plainOk = true) (hs : c.scope = true) (hl : Good it.fsa) (hd : it.dir = true ∨ c.dates = false) :
    ∃ g b, writeNew c it = (g, .ok b) ∧ ∀ n, n ≠ .creationDate → c.sup n = true →
      g n = if ((n = .appendOnly ∨ n = .immutable) ∧ c.immOk = false) ∨ (n = .dataJournaling ∧ c.resOk = false) then c.born n else (val it.fsa n).getD (c.born n) := by
  obtain ⟨g, b, e, h1⟩ := setFsa_some ho hp hl c.scope false c.born
  obtain ⟨g2, b2, e2, h2⟩ := setFsa_some ho hp hl c.scope true g
  refine ⟨g2, b2, ?_, ?_⟩
  · unfold writeNew
    simp only [e, shown_ok]
    have : (if it.dir = true then (.ok () : Res Unit) else makeDate c g) = .ok () := by
      split
      · rfl
      · rename_i hnd
        rcases hd with hd | hd
        · exact absurd hd hnd
        · unfold makeDate; rw [hd]; rfl
    rw [this]
    simp only [e2, shown_ok]
  · intro n hn hsn
    have hx : (((n = .appendOnly ∨ n = .immutable) ∧ c.immOk = false) ∨ (n = .dataJournaling ∧ c.resOk = false)) ↔ ¬ Accepts c n := by
      unfold Accepts
      cases n <;> cases c.immOk <;> cases c.resOk <;> simp
    by_cases ha : Accepts c n
    · rw [if_neg (fun q => hx.1 q ha), (h2 n hn).1 ha]
      unfold target
      by_cases hi : n = .immutable
      · subst hi
        rw [if_pos ⟨hs, by simp, hsn⟩, (h1 _ hn).1 ha]
        simp [target]
      · rw [if_neg (by simp [hi]), (h1 n hn).1 ha]
        unfold target
        rw [if_pos ⟨hs, by simp [hi], hsn⟩]
    · rw [if_pos (hx.2 ha), (h2 n hn).2 ha, (h1 n hn).2 ha]

/-! ### over an existing file -/

theorem inPlace_good (c : Cfg) (mode : Nat) (f : Flags) : Good (inPlace c mode f) := by
  unfold inPlace
  split
  · exact fill_good c mode f
  · exact ⟨List.Pairwise.nil, fun x hx => by cases hx⟩

/-- **C86**: a file that is immutable or append-only, when the archive has no immutable flag set for it, is not overwritten: the system refuses to remove it, and its flags stay as they were. -/
theorem C86_protected (c : Cfg) (it : Item) (mode : Nat) (d : OverData) (a : OverEa) (f : Flags) (hl : Good it.fsa) (hsv : it.saved = true) (hd : d = .overwrite ∨ d = .overwriteMark)
    (hdir : it.dir = false) (hio : it.inodeOnly = false) (hf : f .immutable = true ∨ f .appendOnly = true) (hb : val it.fsa .immutable ≠ some true) :
    writeOver c it mode d a f = (f, .error .range) := by
  have hz : ¬ frozen f = false := by unfold frozen; rcases hf with hf | hf <;> simp [hf]
  have hip := inPlace_good c mode f
  obtain ⟨x, ex, _⟩ := C47_immutable _ hip.1 hip.2
  obtain ⟨y, ey, hy⟩ := C47_immutable _ hl.1 hl.2
  have hy' : y = false := by
    cases y with
    | false => rfl
    | true => exact absurd ((val_some hl.1).2 (hy.1 rfl)) hb
  subst hy'
  have hr : replace c it (inPlace c mode f) f = (f, .error .range) := by
    unfold replace hasImmutable
    simp only [ex, ey]
    simp [unlink, hz]
  unfold writeOver
  simp only [hsv, if_true]
  have ho : overData c it (inPlace c mode f) f d = (f, .error .range) := by
    rcases hd with rfl | rfl <;> simp [overData, overData.over, hdir, hio, hr]
  rw [ho]

/-- **C86**: a directory of the archive is not put over something else when the data in place is preserved: an error is told and no flag changes. -/
theorem C86_other_kind (c : Cfg) (it : Item) (mode : Nat) (d : OverData) (a : OverEa) (f : Flags) (hsv : it.saved = true) (hd : d = .preserve ∨ d = .preserveMark)
    (hdir : it.dir = true) (hsame : it.same = false) : writeOver c it mode d a f = (f, .error .range) := by
  unfold writeOver
  rcases hd with rfl | rfl <;> simp [hsv, overData, hdir, hsame]

theorem kept_data (c : Cfg) {it : Item} {d : OverData} (h : Kept it d) (ip : List Fsa) (f : Flags) :
    ∃ done, (if it.saved then overData c it ip f d else (f, .ok false)) = (f, .ok done) := by
  rcases h with h | ⟨h, rfl | rfl⟩ | ⟨h1, h2, rfl | rfl⟩
  · exact ⟨false, by simp [h]⟩
  · refine ⟨false, ?_⟩
    have : (it.dir && !it.same) = false := by cases hd : it.dir <;> simp_all
    cases it.saved <;> simp [overData, this]
  · refine ⟨false, ?_⟩
    have : (it.dir && !it.same) = false := by cases hd : it.dir <;> simp_all
    cases it.saved <;> simp [overData, this]
  · cases hs : it.saved
    · exact ⟨false, rfl⟩
    · refine ⟨true, ?_⟩
      simp [overData, overData.over, h1, h2]
  · cases hs : it.saved
    · exact ⟨false, rfl⟩
    · refine ⟨true, ?_⟩
      simp [overData, overData.over, h1, h2]

/-- the action over the flags, nothing being refused -/
theorem overFsa_all {c : Cfg} (h : c.Allows) {it : Item} (hl : Good it.fsa) {mode : Nat} (hm : isReg mode = true ∨ isDir mode = true) (hs : c.scope = true) {a : OverEa}
    (ha : a ≠ .undefined ∧ a ≠ .ask) (f0 f : Flags) :
    ∃ g b, overFsa c it (inPlace c mode f0) f a = (g, .ok b) ∧ (∀ n, n ≠ .creationDate → n ≠ .immutable → c.sup n = true → g n = match a with
      | .mergePreserve => f0 n
      | .mergeOverwrite => (val it.fsa n).getD (f0 n)
      | a => wanted (val it.fsa n) (f n) a) ∧
      (∀ n, n ≠ .creationDate → (n = .immutable ∨ c.sup n = false) → g n = f n) ∧
      ((∃ n, n ≠ .creationDate ∧ g n ≠ f n) → b = true) := by
  have hip : inPlace c mode f0 = fill c mode f0 := by simp [inPlace, hs]
  have base : ∀ (l : List Fsa), Good l → ∃ g b, setFsa c c.scope false l f = (g, .ok b) ∧ (∀ n, n ≠ .creationDate → n ≠ .immutable → c.sup n = true → g n = (val l n).getD (f n)) ∧
      (∀ n, n ≠ .creationDate → (n = .immutable ∨ c.sup n = false) → g n = f n) ∧ ((∃ n, n ≠ .creationDate ∧ g n ≠ f n) → b = true) := by
    intro l hl
    obtain ⟨g, b, e, h1, h2, -⟩ := setFsa_all h hl c.scope false f
    refine ⟨g, b, e, ?_, ?_, ?_⟩
    · intro n hn hi hsn; rw [h1 n hn]; simp [target, hs, hi, hsn]
    · intro n hn hh; rw [h1 n hn]; unfold target
      rw [if_neg]; rintro ⟨_, k1, k2⟩
      rcases hh with hh | hh
      · simp [hh] at k1
      · rw [hh] at k2; cases k2
    · rintro ⟨n, hn, hx⟩; exact h2 ⟨n, hn, by rw [← h1 n hn]; exact hx⟩
  have none_ : ∀ b : Bool, ∃ g b', ((f, .ok b) : Flags × Res Bool) = (g, .ok b') ∧ (∀ n, n ≠ .creationDate → n ≠ .immutable → c.sup n = true → g n = f n) ∧
      (∀ n, n ≠ .creationDate → (n = .immutable ∨ c.sup n = false) → g n = f n) ∧ ((∃ n, n ≠ .creationDate ∧ g n ≠ f n) → b' = true) :=
    fun b => ⟨f, b, rfl, fun _ _ _ _ => rfl, fun _ _ _ => rfl, fun ⟨n, _, hx⟩ => absurd rfl hx⟩
  have plus : ∀ (x y : List Fsa), Good x → Good y → (∀ n, n ≠ .creationDate → c.sup n = true → (val y n).or (val x n) ≠ none) →
      ∃ g b, (match fsaPlus x y with
        | .error e => (f, .error e)
        | .ok l => setFsa c c.scope false l f : Flags × Res Bool) = (g, .ok b) ∧ (∀ n, n ≠ .creationDate → n ≠ .immutable → c.sup n = true → some (g n) = (val y n).or (val x n)) ∧
      (∀ n, n ≠ .creationDate → (n = .immutable ∨ c.sup n = false) → g n = f n) ∧ ((∃ n, n ≠ .creationDate ∧ g n ≠ f n) → b = true) := by
    intro x y hx hy hv
    obtain ⟨l, e, hgl, hvl⟩ := plus_good hx hy
    obtain ⟨g, b, e1, h1, h2, h3⟩ := base l hgl
    refine ⟨g, b, by rw [e]; exact e1, ?_, h2, h3⟩
    intro n hn hi hsn
    rw [h1 n hn hi hsn, hvl n]
    cases hh : (val y n).or (val x n) with
    | none => exact absurd hh (hv n hn hsn)
    | some w => rfl
  have hval : ∀ n, n ≠ .creationDate → c.sup n = true → val (fill c mode f0) n = some (f0 n) := fun n hn hsn => fill_val h.1 hm f0 hn hsn
  have hempty : fill c mode f0 = [] → ∀ n, n ≠ .creationDate → c.sup n = true → False := by
    intro e n hn hsn
    have := hval n hn hsn
    rw [e, val_nil] at this; cases this
  rw [hip]
  unfold overFsa effective
  cases a with
  | preserve => rw [if_neg (by simp)]; exact none_ false
  | preserveMark => rw [if_neg (by simp)]; exact none_ false
  | clear => rw [if_neg (by simp)]; exact none_ false
  | overwrite => rw [if_neg (by simp)]; exact base _ hl
  | overwriteMark => rw [if_neg (by simp)]; exact base _ hl
  | undefined => exact absurd rfl ha.1
  | ask => exact absurd rfl ha.2
  | mergePreserve =>
    by_cases he : fill c mode f0 = []
    · rw [if_pos ⟨he, .inl rfl⟩]
      obtain ⟨g, b, e, h1, h2, h3⟩ := base _ hl
      exact ⟨g, b, e, fun n hn _ hsn => absurd (hempty he n hn hsn) id, h2, h3⟩
    · rw [if_neg (fun hh => he hh.1)]
      obtain ⟨g, b, e, h1, h2, h3⟩ := plus it.fsa (fill c mode f0) hl (fill_good c mode f0) (fun n hn hsn => by rw [hval n hn hsn]; simp)
      refine ⟨g, b, e, ?_, h2, h3⟩
      intro n hn hi hsn
      have := h1 n hn hi hsn
      rw [hval n hn hsn] at this
      simpa using this
  | mergeOverwrite =>
    by_cases he : fill c mode f0 = []
    · rw [if_pos ⟨he, .inr rfl⟩]
      obtain ⟨g, b, e, h1, h2, h3⟩ := base _ hl
      exact ⟨g, b, e, fun n hn _ hsn => absurd (hempty he n hn hsn) id, h2, h3⟩
    · rw [if_neg (fun hh => he hh.1)]
      obtain ⟨g, b, e, h1, h2, h3⟩ := plus (fill c mode f0) it.fsa (fill_good c mode f0) hl (fun n hn hsn => by rw [hval n hn hsn]; cases val it.fsa n <;> simp)
      refine ⟨g, b, e, ?_, h2, h3⟩
      intro n hn hi hsn
      have := h1 n hn hi hsn
      rw [hval n hn hsn] at this
      cases hv : val it.fsa n with
      | none => rw [hv] at this; simpa using this
      | some w => rw [hv] at this; simpa using this

/-- **C86**: over a file whose data is not replaced, every flag but the immutable one has afterwards the value the action says, nothing being refused (neither the file nor what it becomes is append-only, and
the file is not immutable). -/
theorem C86_policy (c : Cfg) (it : Item) (mode : Nat) (d : OverData) (a : OverEa) (f : Flags) (h : c.Allows) (hs : c.scope = true) (hl : Good it.fsa) (hm : isReg mode = true ∨ isDir mode = true)
    (hk : Kept it d) (ha : a ≠ .undefined ∧ a ≠ .ask)
    (hd : c.dates = false ∨ (f .immutable = false ∧ f .appendOnly = false ∧ wanted (val it.fsa .appendOnly) false a = false)) :
    ∃ g b, writeOver c it mode d a f = (g, .ok b) ∧ ∀ n, n ≠ .creationDate → n ≠ .immutable → c.sup n = true → g n = wanted (val it.fsa n) (f n) a := by
  obtain ⟨done, ed⟩ := kept_data c hk (inPlace c mode f) f
  obtain ⟨g, b, e, h1, h2, h3⟩ := overFsa_all h hl hm hs ha f f
  have hw : ∀ n, n ≠ .creationDate → n ≠ .immutable → c.sup n = true → g n = wanted (val it.fsa n) (f n) a := by
    intro n hn hi hsn
    rw [h1 n hn hi hsn]
    cases a <;> rfl
  have hdate : (if (done && isDir mode) = true then (.ok () : Res Unit) else makeDate c g) = .ok () := by
    split
    · rfl
    · unfold makeDate
      rcases hd with hd | ⟨d1, d2, d3⟩
      · rw [hd]; rfl
      · have a1 : g .immutable = false := by rw [h2 _ (by decide) (.inl rfl)]; exact d1
        have a2 : g .appendOnly = false := by
          cases hsn : c.sup .appendOnly with
          | true => rw [hw _ (by decide) (by decide) hsn, d2]; exact d3
          | false => rw [h2 _ (by decide) (.inr hsn)]; exact d2
        simp [frozen, a1, a2]
  unfold writeOver
  simp only [ed]
  unfold writeOverFsa
  simp only [e, shown_ok, hdate]
  cases b with
  | false => exact ⟨g, false, rfl, hw⟩
  | true =>
    obtain ⟨g2, b2, e2, k2, -, -⟩ := setFsa_all h hl c.scope true g
    simp only [e2, if_true]
    refine ⟨g2, true, rfl, fun n hn hi hsn => ?_⟩
    rw [k2 n hn]
    unfold target
    rw [if_neg (by simp [hi])]
    exact hw n hn hi hsn

/-- what action_over_fsa does, whatever is refused -/
theorem overFsa_from (c : Cfg) {it : Item} (hl : Good it.fsa) {ip : List Fsa} (hip : Good ip) (f : Flags) (a : OverEa) (n : FsaNat) :
    (overFsa c it ip f a).1 n = f n ∨ (c.scope = true ∧ n ≠ .immutable ∧ c.sup n = true ∧ (val it.fsa n = some ((overFsa c it ip f a).1 n) ∨ val ip n = some ((overFsa c it ip f a).1 n))) := by
  have base : ∀ (l : List Fsa), Good l → (∀ w, val l n = some w → val it.fsa n = some w ∨ val ip n = some w) →
      (setFsa c c.scope false l f).1 n = f n ∨ (c.scope = true ∧ n ≠ .immutable ∧ c.sup n = true ∧ (val it.fsa n = some ((setFsa c c.scope false l f).1 n) ∨ val ip n = some ((setFsa c c.scope false l f).1 n))) := by
    intro l hl hv
    rcases setFsa_from c c.scope false hl f n with h | ⟨h1, h2, h3, h4⟩
    · exact .inl h
    · exact .inr ⟨h1, by simpa using h2, h3, hv _ h4⟩
  unfold overFsa
  have hplus : ∀ x y : List Fsa, Good x → Good y → (∀ w, val x n = some w ∨ val y n = some w → val it.fsa n = some w ∨ val ip n = some w) →
      (match fsaPlus x y with
        | .error e => (f, .error e)
        | .ok l => setFsa c c.scope false l f : Flags × Res Bool).1 n = f n ∨ (c.scope = true ∧ n ≠ .immutable ∧ c.sup n = true ∧
          (val it.fsa n = some ((match fsaPlus x y with
        | .error e => (f, .error e)
        | .ok l => setFsa c c.scope false l f : Flags × Res Bool).1 n) ∨ val ip n = some ((match fsaPlus x y with
        | .error e => (f, .error e)
        | .ok l => setFsa c c.scope false l f : Flags × Res Bool).1 n))) := by
    intro x y hx hy hv
    obtain ⟨l, e, hgl, hvl⟩ := plus_good hx hy
    rw [e]
    refine base l hgl (fun w hw => hv w ?_)
    rw [hvl n] at hw
    cases hy' : val y n with
    | some v => rw [hy'] at hw; exact .inr hw
    | none => rw [hy'] at hw; exact .inl hw
  cases effective ip a with
  | preserve => exact .inl rfl
  | preserveMark => exact .inl rfl
  | clear => exact .inl rfl
  | undefined => exact .inl rfl
  | ask => exact .inl rfl
  | overwrite => exact base _ hl (fun w hw => .inl hw)
  | overwriteMark => exact base _ hl (fun w hw => .inl hw)
  | mergePreserve => exact hplus _ _ hl hip (fun w hw => hw)
  | mergeOverwrite => exact hplus _ _ hip hl (fun w hw => hw.symm)

theorem inPlace_val {c : Cfg} {mode : Nat} {f : Flags} {n : FsaNat} {w : Bool} (h : val (inPlace c mode f) n = some w) : w = f n := by
  unfold inPlace at h
  split at h
  · rw [val_some (fill_good c mode f).1] at h
    have := (fill_mem c mode f _ h).2.2.2
    simpa using this
  · rw [val_nil] at h; cases h

theorem writeOverFsa_from (c : Cfg) {it : Item} (hl : Good it.fsa) {ip : List Fsa} (hip : Good ip) (a : OverEa) (done exDir : Bool) (f : Flags) (n : FsaNat) :
    (writeOverFsa c it ip a done exDir f).1 n = f n ∨ (c.scope = true ∧ c.sup n = true ∧
      (val it.fsa n = some ((writeOverFsa c it ip a done exDir f).1 n) ∨ val ip n = some ((writeOverFsa c it ip a done exDir f).1 n))) := by
  have h0 : (shown (overFsa c it ip f a)).1 n = f n ∨ (c.scope = true ∧ c.sup n = true ∧ (val it.fsa n = some ((shown (overFsa c it ip f a)).1 n) ∨ val ip n = some ((shown (overFsa c it ip f a)).1 n))) := by
    rw [shown_fst]
    rcases overFsa_from c hl hip f a n with h | ⟨h1, _, h2, h3⟩
    · exact .inl h
    · exact .inr ⟨h1, h2, h3⟩
  unfold writeOverFsa
  simp only
  split
  · exact h0
  · split
    · exact h0
    · split
      · simp only
        rcases setFsa_from c c.scope true hl (shown (overFsa c it ip f a)).1 n with h | ⟨h1, h2, h3, h4⟩
        · rw [h]; exact h0
        · exact .inr ⟨h1, h3, .inl h4⟩
      · exact h0

/-- **C86**: whatever the system refuses and whatever the policy is, when the data is not replaced a flag keeps its value or takes the one of the archive; and it keeps it when the archive does not have it, when
the program does not know it, or when the family is not in the scope. -/
theorem C86_only (c : Cfg) (it : Item) (mode : Nat) (d : OverData) (a : OverEa) (f : Flags) (hl : Good it.fsa) (hk : Kept it d) (n : FsaNat) :
    (writeOver c it mode d a f).1 n = f n ∨ (c.scope = true ∧ c.sup n = true ∧ val it.fsa n = some ((writeOver c it mode d a f).1 n)) := by
  obtain ⟨done, ed⟩ := kept_data c hk (inPlace c mode f) f
  unfold writeOver
  simp only [ed]
  rcases writeOverFsa_from c hl (inPlace_good c mode f) a done (isDir mode) f n with h | ⟨h1, h2, h3 | h3⟩
  · exact .inl h
  · exact .inr ⟨h1, h2, h3⟩
  · exact .inl (inPlace_val h3)

/-- **C86**: with a policy that preserves the attributes, or asks to clear them, no flag changes when the data is not replaced, whatever the system does. -/
theorem C86_preserve (c : Cfg) (it : Item) (mode : Nat) (d : OverData) (a : OverEa) (f : Flags) (hk : Kept it d) (ha : a = .preserve ∨ a = .preserveMark ∨ a = .clear) :
    (writeOver c it mode d a f).1 = f := by
  obtain ⟨done, ed⟩ := kept_data c hk (inPlace c mode f) f
  unfold writeOver
  simp only [ed]
  have : overFsa c it (inPlace c mode f) f a = (f, .ok false) := by
    rcases ha with rfl | rfl | rfl <;> simp [overFsa, effective, overAct]
  unfold writeOverFsa
  simp only [this, shown_ok]
  split <;> rfl

/-- **C86** (immutable flag): over a file whose data is not replaced, with a policy that takes the flags of the archive, the immutable flag takes the value of the archive when another flag changes; otherwise it
stays as it is (see C86_immutable_counterexample). -/
theorem C86_immutable_partial (c : Cfg) (it : Item) (mode : Nat) (d : OverData) (a : OverEa) (f : Flags) (h : c.Allows) (hs : c.scope = true) (hl : Good it.fsa) (hm : isReg mode = true ∨ isDir mode = true)
    (hk : Kept it d) (ha : a = .overwrite ∨ a = .overwriteMark ∨ a = .mergeOverwrite) (hsup : c.sup .immutable = true)
    (hd : c.dates = false ∨ (f .immutable = false ∧ f .appendOnly = false ∧ wanted (val it.fsa .appendOnly) false a = false))
    (hx : ∃ n, n ≠ .creationDate ∧ n ≠ .immutable ∧ c.sup n = true ∧ (val it.fsa n).getD (f n) ≠ f n) :
    (writeOver c it mode d a f).1 .immutable = (val it.fsa .immutable).getD (f .immutable) := by
  have ha' : a ≠ .undefined ∧ a ≠ .ask := by rcases ha with rfl | rfl | rfl <;> exact ⟨by decide, by decide⟩
  obtain ⟨done, ed⟩ := kept_data c hk (inPlace c mode f) f
  obtain ⟨g, b, e, h1, h2, h3⟩ := overFsa_all h hl hm hs ha' f f
  have hw : ∀ n, n ≠ .creationDate → n ≠ .immutable → c.sup n = true → g n = (val it.fsa n).getD (f n) := by
    intro n hn hi hsn
    rw [h1 n hn hi hsn]
    rcases ha with rfl | rfl | rfl <;> rfl
  have hb : b = true := by
    obtain ⟨n, hn, hi, hsn, hne⟩ := hx
    exact h3 ⟨n, hn, by rw [hw n hn hi hsn]; exact hne⟩
  subst hb
  have hdate : (if (done && isDir mode) = true then (.ok () : Res Unit) else makeDate c g) = .ok () := by
    split
    · rfl
    · unfold makeDate
      rcases hd with hd | ⟨d1, d2, d3⟩
      · rw [hd]; rfl
      · have a1 : g .immutable = false := by rw [h2 _ (by decide) (.inl rfl)]; exact d1
        have a2 : g .appendOnly = false := by
          cases hsn : c.sup .appendOnly with
          | true =>
            rw [hw _ (by decide) (by decide) hsn, d2]
            rcases ha with rfl | rfl | rfl <;> exact d3
          | false => rw [h2 _ (by decide) (.inr hsn)]; exact d2
        simp [frozen, a1, a2]
  obtain ⟨g2, b2, e2, k2, -, -⟩ := setFsa_all h hl c.scope true g
  unfold writeOver
  simp only [ed]
  unfold writeOverFsa
  simp only [e, shown_ok, hdate, e2, if_true]
  rw [k2 _ (by decide)]
  unfold target
  rw [if_pos ⟨hs, by simp, hsup⟩, h2 _ (by decide) (.inl rfl)]

/-! ### the inode is replaced -/

/-- **C86**: when the data of a plain file that is neither immutable nor append-only is overwritten and the attributes too, every flag has afterwards the value of the archive, or the one the system gives to a new
file; all but the immutable one. -/
theorem C86_replaced (c : Cfg) (it : Item) (mode : Nat) (d : OverData) (a : OverEa) (f : Flags) (h : c.Allows) (hs : c.scope = true) (hl : Good it.fsa) (hm : isReg mode = true)
    (hit : it.saved = true ∧ it.dir = false ∧ it.inodeOnly = false) (hdd : d = .overwrite ∨ d = .overwriteMark) (ha : a = .overwrite ∨ a = .overwriteMark)
    (hf : f .immutable = false ∧ f .appendOnly = false)
    (hd : c.dates = false ∨ (c.born .immutable = false ∧ c.born .appendOnly = false ∧ (val it.fsa .appendOnly).getD false = false)) :
    ∃ g b, writeOver c it mode d a f = (g, .ok b) ∧ ∀ n, n ≠ .creationDate → n ≠ .immutable → c.sup n = true → g n = (val it.fsa n).getD (c.born n) := by
  have ha' : a ≠ .undefined ∧ a ≠ .ask := by rcases ha with rfl | rfl <;> exact ⟨by decide, by decide⟩
  have hip := inPlace_good c mode f
  obtain ⟨i1, e1, hi1⟩ := C47_immutable _ hip.1 hip.2
  obtain ⟨i2, e2, -⟩ := C47_immutable _ hl.1 hl.2
  have hi1' : i1 = false := by
    cases i1 with
    | false => rfl
    | true =>
      have := inPlace_val ((val_some hip.1).2 (hi1.1 rfl))
      rw [hf.1] at this; cases this
  subst hi1'
  have hr : replace c it (inPlace c mode f) f = (c.born, .ok ()) := by
    unfold replace hasImmutable
    rw [e1, e2]
    have hfill : fill c 0 f = [] := by simp [fill, isReg, isDir]
    have hset : setFsa c true false [] c.born = (c.born, .ok false) := rfl
    have hsh : (shown (setFsa c true false (fill c 0 f) c.born)).1 = c.born := by rw [hfill, hset]; rfl
    simp [hsh, unlink, frozen, hf.1, hf.2]
  have hdata : (if it.saved then overData c it (inPlace c mode f) f d else (f, .ok false)) = (c.born, .ok true) := by
    rcases hdd with rfl | rfl <;> simp [hit, overData, overData.over, hr]
  obtain ⟨g, b, e, h1, h2, h3⟩ := overFsa_all h hl (.inl hm) hs ha' f c.born
  have hw : ∀ n, n ≠ .creationDate → n ≠ .immutable → c.sup n = true → g n = (val it.fsa n).getD (c.born n) := by
    intro n hn hi hsn
    rw [h1 n hn hi hsn]
    rcases ha with rfl | rfl <;> rfl
  have hdate : (if (true && isDir mode) = true then (.ok () : Res Unit) else makeDate c g) = .ok () := by
    split
    · rfl
    · unfold makeDate
      rcases hd with hd | ⟨d1, d2, d3⟩
      · rw [hd]; rfl
      · have a1 : g .immutable = false := by rw [h2 _ (by decide) (.inl rfl)]; exact d1
        have a2 : g .appendOnly = false := by
          cases hsn : c.sup .appendOnly with
          | true => rw [hw _ (by decide) (by decide) hsn, d2]; exact d3
          | false => rw [h2 _ (by decide) (.inr hsn)]; exact d2
        simp [frozen, a1, a2]
  unfold writeOver
  simp only [hdata]
  unfold writeOverFsa
  simp only [e, shown_ok, hdate]
  cases b with
  | false => exact ⟨g, false, rfl, hw⟩
  | true =>
    obtain ⟨g2, b2, e2, k2, -, -⟩ := setFsa_all h hl c.scope true g
    simp only [e2, if_true]
    refine ⟨g2, true, rfl, fun n hn hi hsn => ?_⟩
    rw [k2 n hn]
    unfold target
    rw [if_neg (by simp [hi])]
    exact hw n hn hi hsn

/-! ### examples and findings -/

/-- a Linux system where everything is accepted -/
def linux : Cfg := ⟨fun _ => true, true, true, true, true, fun _ => false, true, true⟩
/-- an entry whose data is saved, with two flags -/
def item (fsa : List Fsa) : Item := ⟨fsa, false, true, false, true⟩
/-- the type of a plain file -/
def reg : Nat := 0o100644

theorem C86_example : linux.Allows ∧ isReg reg = true ∧ Good [⟨.extX, .noDump, .bool true⟩, ⟨.extX, .immutable, .bool true⟩] ∧
    Kept (item [⟨.extX, .noDump, .bool true⟩, ⟨.extX, .immutable, .bool true⟩]) .preserve := by
  refine ⟨⟨rfl, rfl, rfl, rfl⟩, by decide, ⟨by unfold FsaSet; decide, ?_⟩, .inr (.inl ⟨(fun h => by cases h), .inl rfl⟩)⟩
  intro x hx
  simp only [List.mem_cons, List.not_mem_nil, or_false] at hx
  rcases hx with rfl | rfl <;> simp [Fsa.Typed]
/-- a new file gets its flags, the immutable one being set after the dates -/
example : (writeNew linux (item [⟨.extX, .noDump, .bool true⟩, ⟨.extX, .immutable, .bool true⟩])).2 = .ok true ∧
    (writeNew linux (item [⟨.extX, .noDump, .bool true⟩, ⟨.extX, .immutable, .bool true⟩])).1 .immutable = true ∧
    (writeNew linux (item [⟨.extX, .noDump, .bool true⟩, ⟨.extX, .immutable, .bool true⟩])).1 .noDump = true := by decide +kernel

/-- **C86**: without capabilities no-dump is restored and immutable is not; an immutable file is not overwritten. -/
theorem C86_refused_example :
    (writeNew { linux with immOk := false, resOk := false, dates := false } (item [⟨.extX, .noDump, .bool true⟩, ⟨.extX, .immutable, .bool true⟩])).1 .noDump = true ∧
    (writeNew { linux with immOk := false, resOk := false, dates := false } (item [⟨.extX, .noDump, .bool true⟩, ⟨.extX, .immutable, .bool true⟩])).1 .immutable = false ∧
    (writeOver linux (item [⟨.extX, .noDump, .bool true⟩]) reg .overwrite .overwrite (fun n => decide (n = .immutable))).2 = .error .range := by decide +kernel

/-- Finding: over an existing file whose only difference with the archive is the immutable flag, the immutable flag is not restored, although the policy is to overwrite (filesystem_restore.cpp:594: step 7 is done
only when step 3, which leaves this flag alone, changed something); and this is always so when the data is overwritten, the new inode having no flag. -/
theorem C86_immutable_counterexample :
    (writeOver linux (item [⟨.extX, .noDump, .bool false⟩, ⟨.extX, .immutable, .bool true⟩]) reg .preserve .overwrite (fun _ => false)).2 = .ok false ∧
    (writeOver linux (item [⟨.extX, .noDump, .bool false⟩, ⟨.extX, .immutable, .bool true⟩]) reg .preserve .overwrite (fun _ => false)).1 .immutable = false ∧
    (writeOver linux (item [⟨.extX, .noDump, .bool false⟩, ⟨.extX, .immutable, .bool true⟩]) reg .overwrite .overwrite (fun _ => false)).1 .immutable = false := by decide +kernel
/-- Finding: with a policy that merges and preserves, the immutable flag of a file in place takes the value of the archive (made under macOS, with a creation date of the family HFS+): step 7 does not know the policy. -/
theorem C86_merge_counterexample :
    (writeOver linux (item [⟨.hfs, .creationDate, .time ⟨5, .s⟩⟩, ⟨.extX, .noDump, .bool false⟩, ⟨.extX, .immutable, .bool true⟩]) reg .preserve .mergePreserve
      (fun _ => false)).1 .immutable = true := by decide +kernel
/-- Finding: the flags of a file whose data is overwritten are lost even when the policy is to preserve the attributes: the type of the inode is not given to get_fsa_from_filesystem_for
(filesystem_restore.cpp:785-789), which reads no flag. -/
theorem C86_preserve_counterexample :
    (writeOver linux (item [⟨.extX, .noDump, .bool false⟩]) reg .overwrite .preserve (fun n => n == .noDump)).2 = .ok false ∧
    (writeOver linux (item [⟨.extX, .noDump, .bool false⟩]) reg .overwrite .preserve (fun n => n == .noDump)).1 .noDump = false := by decide +kernel
/-- Finding: the restoration of a file with the append-only flag fails: the flag is set before the dates, which the system then refuses to change; so that the owner, the permissions and the immutable flag are
not restored either. -/
theorem C86_append_counterexample :
    (writeNew linux (item [⟨.extX, .appendOnly, .bool true⟩, ⟨.extX, .immutable, .bool true⟩])).2 = .error .range ∧
    (writeNew linux (item [⟨.extX, .appendOnly, .bool true⟩, ⟨.extX, .immutable, .bool true⟩])).1 .immutable = false := by decide +kernel
/-- Finding: a new file whose flags have been restored is counted as one whose FSA have not, unless the immutable flag changed (`fsa_restored` is overwritten, filesystem_restore.cpp:416). -/
theorem C86_count_counterexample : (writeNew linux (item [⟨.extX, .noDump, .bool true⟩])).2 = .ok false ∧ (writeNew linux (item [⟨.extX, .noDump, .bool true⟩])).1 .noDump = true := by decide +kernel

end Dar.Ff
