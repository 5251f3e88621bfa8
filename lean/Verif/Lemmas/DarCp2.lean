import Verif.Lemmas.DarCp
namespace Dar
variable {e : CpEnv} {bad : Nat → Prop}

/-- what is said of the end of the copy -/
def CpEnd (e : CpEnv) (bad : Nat → Prop) (old : Bytes) (m : Nat) (out : Bytes) : Prop :=
  ∃ kept, CpCopy e bad old kept out ∧ (m = 0 → ∀ i, i < e.data.length → kept i = true) ∧ (0 < m → ∃ i, i < e.data.length ∧ bad i) ∧
    (e.Prefix bad → m = missing kept e.data.length ∧ GapsBad bad kept e.data.length)

theorem cpLoop_read {n missed : Nat} {s : CpSt} {b : Bytes} (hr : e.read s.pos cpBuf = some b) :
    cpLoop e (n + 1) missed s = (cpWriteAll e b.length s.dst b).bind fun d =>
      if b = [] then .ok (missed, d) else cpLoop e n missed ⟨s.pos + b.length, d⟩ := by
  rw [cpLoop, normalCopy, hr]
  dsimp only
  cases cpWriteAll e b.length s.dst b with
  | error x => rfl
  | ok d =>
    cases b with
    | nil => rfl
    | cons x l => rfl
/-- is there something readable at this place -/
def readable1 (e : CpEnv) (m : Nat) : Bool := match e.read m 1 with
  | some [_] => true
  | _ => false
theorem cpLoop_fail {n missed : Nat} {s : CpSt} (hr : e.read s.pos cpBuf = none) :
    cpLoop e (n + 1) missed s = (xferBefore e (cpBuf / 2) s).bind fun s2 => (leap e 32 (cpBuf / 2) s2.pos).bind fun hi =>
      if readable1 e (bisect e (hi - s2.pos) s2.pos hi)
      then cpLoop e n (missed + (bisect e (hi - s2.pos) s2.pos hi - s2.pos)) ⟨bisect e (hi - s2.pos) s2.pos hi, s2.dst.skip (bisect e (hi - s2.pos) s2.pos hi)⟩
      else .ok (missed + (e.data.length - s.pos), s2.dst.skip (bisect e (hi - s2.pos) s2.pos hi)) := by
  rw [cpLoop, normalCopy, hr]
  show (xferBefore e (cpBuf / 2) s).bind _ = _
  cases xferBefore e (cpBuf / 2) s with
  | error x => rfl
  | ok s2 =>
    show (skipReadable e (cpBuf / 2) s2).bind _ = (leap e 32 (cpBuf / 2) s2.pos).bind _
    unfold skipReadable
    cases leap e 32 (cpBuf / 2) s2.pos with
    | error x => rfl
    | ok hi => rfl

theorem cpLoop_spec (hs : e.Sound bad) (hpw : e.Prefix bad ∨ e.Writes) {old : Bytes} : ∀ (n missed : Nat) (s : CpSt) (kept : Nat → Bool),
    CpInv e bad old kept s → e.data.length < n + s.pos → (missed = 0 → ∀ i, i < s.pos → kept i = true) → (0 < missed → ∃ i, i < e.data.length ∧ bad i) →
    (e.Prefix bad → missed = missing kept s.pos ∧ GapsBad bad kept s.pos ∧ (0 < s.pos → kept (s.pos - 1) = true ∨ bad (s.pos - 1))) →
    (∀ m d, cpLoop e n missed s = .ok (m, d) → CpEnd e bad old m d.data) ∧
    (∀ x, cpLoop e n missed s = .error x → (x = .range ∧ ∃ p m, e.wr p m = none) ∨ (x = .ub ∧ e.data.length > 2 ^ 31 - 1024)) := by
  intro n
  induction n with
  | zero => intro missed s kept hi hn; have := hi.inside; omega
  | succ n ih =>
    intro missed s kept hi hn hz hpo hpx
    cases hr : e.read s.pos cpBuf with
    | some b =>
      obtain ⟨r1, r2, r3, r4, r5⟩ := cpRead_some hs hr
      rw [cpLoop_read hr]
      cases hw : cpWriteAll e b.length s.dst b with
      | error x =>
        refine ⟨fun m d h => (by cases h), ?_⟩
        intro y h
        cases h
        exact Or.inl (cpWriteAll_err _ _ _ _ hw)
      | ok d =>
        have hd := cpWriteAll_ok _ _ _ _ (Nat.le_refl _) hw
        subst hd
        have hi' := cpInv_write hi r1 r3 r5
        show (∀ m d, (if b = [] then Except.ok (missed, s.dst.write b) else cpLoop e n missed ⟨s.pos + b.length, s.dst.write b⟩) = .ok (m, d) → _) ∧
          (∀ x, (if b = [] then Except.ok (missed, s.dst.write b) else cpLoop e n missed ⟨s.pos + b.length, s.dst.write b⟩) = .error x → _)
        cases hb : b with
        | nil =>
          rw [hb] at r4
          have hend : e.data.length ≤ s.pos := by
            rcases r4 rfl with h | h
            · simp [cpBuf] at h
            · exact h
          have hp : s.pos = e.data.length := by have := hi.inside; omega
          rw [if_pos rfl]
          refine ⟨?_, fun x h => by simp at h⟩
          intro m d h
          simp only [Except.ok.injEq, Prod.mk.injEq] at h
          obtain ⟨rfl, rfl⟩ := h
          rw [flat_write_nil]
          refine ⟨kept, hi.copy, by rw [← hp]; exact hz, hpo, ?_⟩
          intro hpf
          obtain ⟨p1, p2, -⟩ := hpx hpf
          rw [← hp]; exact ⟨p1, p2⟩
        | cons x l =>
          have hbl : b.length = l.length + 1 := by rw [hb]; rfl
          rw [hb] at hi'
          rw [if_neg (by simp)]
          refine ih missed ⟨s.pos + (x :: l).length, s.dst.write (x :: l)⟩ _ hi' (by simp only [List.length_cons]; omega) ?_ hpo ?_
          · intro h i hlt
            dsimp only at hlt ⊢
            by_cases h1 : i < s.pos
            · rw [hz h i h1]; rfl
            · have : s.pos ≤ i ∧ i < s.pos + (x :: l).length := by omega
              rw [decide_eq_true this, Bool.or_true]
          · intro hpf
            obtain ⟨p1, p2, p3⟩ := hpx hpf
            have hk : ∀ i, i < s.pos → (kept i || decide (s.pos ≤ i ∧ i < s.pos + (x :: l).length)) = kept i := by
              intro i hlt
              have : ¬ (s.pos ≤ i ∧ i < s.pos + (x :: l).length) := by omega
              rw [decide_eq_false this, Bool.or_false]
            have hk2 : ∀ i, s.pos ≤ i → i < s.pos + (x :: l).length → (kept i || decide (s.pos ≤ i ∧ i < s.pos + (x :: l).length)) = true := by
              intro i h1 h2
              have : s.pos ≤ i ∧ i < s.pos + (x :: l).length := ⟨h1, h2⟩
              rw [decide_eq_true this, Bool.or_true]
            refine ⟨?_, ?_, ?_⟩
            · dsimp only
              rw [missing_kept hk2, missing_congr hk]; exact p1
            · intro i hlt hki
              dsimp only at hki ⊢
              by_cases h1 : i < s.pos
              · rw [hk i h1] at hki
                obtain ⟨q1, q2⟩ := p2 i h1 hki
                constructor
                · intro h
                  refine q1 ?_
                  rcases h with h | h
                  · exact Or.inl h
                  · rw [hk _ (by omega)] at h; exact Or.inr h
                · intro h
                  by_cases h2 : i + 1 < s.pos
                  · rw [hk _ h2] at h; exact q2 h
                  · have : s.pos - 1 = i := by omega
                    rcases p3 (by omega) with h3 | h3
                    · rw [this, hki] at h3; cases h3
                    · rw [this] at h3; exact h3
              · dsimp only at hlt
                rw [hk2 i (by omega) hlt] at hki
                cases hki
            · intro _
              left
              dsimp only
              simp only [List.length_cons] at hk2 ⊢
              exact hk2 _ (by omega) (by omega)
    | none =>
      obtain ⟨hlt, ib, hib, -, -, hibl⟩ := cpRead_none hs hr
      rw [cpLoop_fail hr]
      cases hx : xferBefore e (cpBuf / 2) s with
      | error x =>
        refine ⟨fun m d h => (by cases h), ?_⟩
        intro y h
        cases h
        exact Or.inl (xferBefore_err hx)
      | ok s2 =>
        have hx2 : ∃ kept2, CpInv e bad old kept2 s2 ∧ s.pos ≤ s2.pos ∧ (e.Prefix bad → s2 = s ∧ kept2 = kept) := by
          by_cases hpf : e.Prefix bad
          · have := xferBefore_prefix (block := cpBuf / 2) hpf hs hr
            rw [hx] at this
            simp only [Except.ok.injEq] at this
            subst this
            exact ⟨kept, hi, Nat.le_refl _, fun _ => ⟨rfl, rfl⟩⟩
          · have hww : e.Writes := by tauto
            obtain ⟨k2, i2, i3⟩ := xferBefore_inv hs hww hi hx
            exact ⟨k2, i2, i3, fun h => absurd h hpf⟩
        obtain ⟨kept2, hi2, hle, hpf2⟩ := hx2
        show (∀ m d, ((leap e 32 (cpBuf / 2) s2.pos).bind fun hi =>
            if readable1 e (bisect e (hi - s2.pos) s2.pos hi)
            then cpLoop e n (missed + (bisect e (hi - s2.pos) s2.pos hi - s2.pos)) ⟨bisect e (hi - s2.pos) s2.pos hi, s2.dst.skip (bisect e (hi - s2.pos) s2.pos hi)⟩
            else .ok (missed + (e.data.length - s.pos), s2.dst.skip (bisect e (hi - s2.pos) s2.pos hi))) = .ok (m, d) → _) ∧
          (∀ x, ((leap e 32 (cpBuf / 2) s2.pos).bind fun hi =>
            if readable1 e (bisect e (hi - s2.pos) s2.pos hi)
            then cpLoop e n (missed + (bisect e (hi - s2.pos) s2.pos hi - s2.pos)) ⟨bisect e (hi - s2.pos) s2.pos hi, s2.dst.skip (bisect e (hi - s2.pos) s2.pos hi)⟩
            else .ok (missed + (e.data.length - s.pos), s2.dst.skip (bisect e (hi - s2.pos) s2.pos hi))) = .error x → _)
        cases hlp : leap e 32 (cpBuf / 2) s2.pos with
        | error x =>
          refine ⟨fun m d h => (by cases h), ?_⟩
          intro y h
          cases h
          rcases leap_err _ _ _ _ hlp with h | h
          · subst h
            exact absurd hlp (leap_total 32 _ _ (by decide) (by decide))
          · subst h
            refine Or.inr ⟨rfl, ?_⟩
            by_contra hc
            exact leap_no_ub hs 32 (cpBuf / 2) s2.pos (by omega) (by simp [cpBuf]) hlp
        | ok hi' =>
          have hge := leap_ge _ _ _ _ hlp
          obtain ⟨hb1, hb2, hb3⟩ := bisect_bounds (e := e) (hi' - s2.pos) s2.pos hi' hge
          have hbp := fun h1 h2 => bisect_prev (e := e) hs (hi' - s2.pos) s2.pos hi' h1 (Nat.le_refl _) h2
          obtain ⟨-, hle2⟩ := leap_end hs _ _ _ _ hlp
          show (∀ m d, (if readable1 e (bisect e (hi' - s2.pos) s2.pos hi')
            then cpLoop e n (missed + (bisect e (hi' - s2.pos) s2.pos hi' - s2.pos)) ⟨bisect e (hi' - s2.pos) s2.pos hi', s2.dst.skip (bisect e (hi' - s2.pos) s2.pos hi')⟩
            else .ok (missed + (e.data.length - s.pos), s2.dst.skip (bisect e (hi' - s2.pos) s2.pos hi'))) = .ok (m, d) → _) ∧
            (∀ x, (if readable1 e (bisect e (hi' - s2.pos) s2.pos hi')
            then cpLoop e n (missed + (bisect e (hi' - s2.pos) s2.pos hi' - s2.pos)) ⟨bisect e (hi' - s2.pos) s2.pos hi', s2.dst.skip (bisect e (hi' - s2.pos) s2.pos hi')⟩
            else .ok (missed + (e.data.length - s.pos), s2.dst.skip (bisect e (hi' - s2.pos) s2.pos hi'))) = .error x → _)
          generalize bisect e (hi' - s2.pos) s2.pos hi' = m at hb1 hb2 hb3 hbp
          by_cases hok : readable1 e m = true
          · rw [if_pos hok]
            have hm : m < e.data.length := by
              unfold readable1 at hok
              cases hrm : e.read m 1 with
              | none => rw [hrm] at hok; cases hok
              | some b =>
                rcases cpRead_one hs hrm with ⟨h1, -⟩ | ⟨x, -, h2, -⟩
                · rw [hrm, h1] at hok; cases hok
                · exact h2
            have hlt2 : s2.pos < m := by
              by_cases hh : hi' = s2.pos
              · have := hle2 hh; omega
              · exact hb3 (by omega)
            refine ih (missed + (m - s2.pos)) ⟨m, s2.dst.skip m⟩ kept2 (cpInv_seek hi2 (by omega) (by omega)) (by dsimp only; omega) (by omega)
              (fun _ => ⟨ib, hibl, hib⟩) ?_
            intro hpf
            obtain ⟨rfl, rfl⟩ := hpf2 hpf
            obtain ⟨p1, p2, p3⟩ := hpx hpf
            have hbs : bad s2.pos := cpRead_prefix hpf hr
            have hno : ∀ i, s2.pos ≤ i → kept2 i = false := by
              intro i h
              cases hc : kept2 i with
              | false => rfl
              | true => have := hi2.ahead i hc; omega
            refine ⟨?_, ?_, ?_⟩
            · dsimp only
              have := missing_hole (k := kept2) (p := s2.pos) (n := m - s2.pos) (fun i h _ => hno i h)
              rw [show s2.pos + (m - s2.pos) = m by omega] at this
              rw [this, p1]
            · intro i hlt hki
              by_cases h1 : i < s2.pos
              · exact p2 i h1 hki
              · constructor
                · intro h
                  by_cases h2 : i = s2.pos
                  · rw [h2]; exact hbs
                  · rcases h with h | h
                    · omega
                    · rw [hno _ (by omega)] at h; cases h
                · intro h
                  rw [hno _ (by omega)] at h; cases h
            · intro _
              right
              exact hbp (by omega) hbs
          · rw [if_neg hok]
            refine ⟨?_, fun x h => by simp at h⟩
            intro m' d h
            simp only [Except.ok.injEq, Prod.mk.injEq] at h
            obtain ⟨rfl, rfl⟩ := h
            refine ⟨kept2, hi2.copy, by omega, fun _ => ⟨ib, hibl, hib⟩, ?_⟩
            intro hpf
            obtain ⟨rfl, rfl⟩ := hpf2 hpf
            obtain ⟨p1, p2, p3⟩ := hpx hpf
            have hbs : bad s2.pos := cpRead_prefix hpf hr
            have hno : ∀ i, s2.pos ≤ i → kept2 i = false := by
              intro i h
              cases hc : kept2 i with
              | false => rfl
              | true => have := hi2.ahead i hc; omega
            refine ⟨?_, ?_⟩
            · have := missing_hole (k := kept2) (p := s2.pos) (n := e.data.length - s2.pos) (fun i h _ => hno i h)
              rw [show s2.pos + (e.data.length - s2.pos) = e.data.length by omega] at this
              rw [this, p1]
            · intro i hlt hki
              by_cases h1 : i < s2.pos
              · exact p2 i h1 hki
              · constructor
                · intro h
                  by_cases h2 : i = s2.pos
                  · rw [h2]; exact hbs
                  · rcases h with h | h
                    · omega
                    · rw [hno _ (by omega)] at h; cases h
                · intro h
                  rw [hno _ (by omega)] at h; cases h

theorem cpInv_start (e : CpEnv) (bad : Nat → Prop) (old : Bytes) : CpInv e bad old (fun _ => false) ⟨0, ⟨old, 0⟩⟩ := by
  refine ⟨⟨by simp, ?_, Nat.le_refl _, fun h => absurd h (by simp)⟩, rfl, by simp, Nat.zero_le _⟩
  intro i _ h
  dsimp only at h ⊢
  rw [List.getElem?_eq_getElem h]; rfl

end Dar
