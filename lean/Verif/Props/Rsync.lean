import Verif.Spec.Rsync
/- Property theorems C74: binary deltas. -/
namespace Dar

private theorem pre_len {a b : Bytes} (h : a <+: b) : a.length ≤ b.length := h.length_le

private def StepLaw (J : RsJob) (x y : Bytes) (rep : J.St → Bytes → Bytes → Prop) : Prop :=
  ∀ st c p, rep st c p → c <+: x → p <+: y → ∀ a room, c ++ a <+: x → (a = [] → c = x) →
      ∀ st' k out ret, J.step st a room a.isEmpty = (st', k, out, ret) →
        k ≤ a.length ∧ out.length ≤ room ∧ ret ≠ .err ∧ rep st' (c ++ a.take k) (p ++ out) ∧ p ++ out <+: y ∧
        (ret = .done → c ++ a.take k = x ∧ p ++ out = y) ∧
        (0 < room → a ≠ [] → 0 < k ∨ out ≠ []) ∧ (0 < room → a = [] → out ≠ [] ∨ ret = .done)

/-! ### signature -/

section Sign
variable {J : RsJob} {x y : Bytes} {B : Nat}

private theorem feed_inv (hB : 0 < B) (rep : J.St → Bytes → Bytes → Prop)
    (hstep : StepLaw J x y rep) :
    ∀ (n : Nat) (s : SignR J) (c a : Bytes), rep s.st c (s.sig ++ s.wb) → c ++ a <+: x → (a = [] → c = x) → s.sig ++ s.wb <+: y → s.wb.length ≤ B →
      2 * (a.length + (y.length - (s.sig ++ s.wb).length)) + (if s.wb = [] then 0 else 1) < n →
      ∃ s', SignR.feed B n s a = (s', .ok ()) ∧ s'.below = s.below ∧ rep s'.st (c ++ a) (s'.sig ++ s'.wb) ∧ s'.sig ++ s'.wb <+: y ∧ s'.wb.length ≤ B := by
  intro n
  induction n with
  | zero => intro s c a _ _ _ _ _ h; omega
  | succ n ih =>
    intro s c a hr hca hend hpy hwb hn
    unfold SignR.feed RsJob.forward
    cases hj : J.step s.st a (B - s.wb.length) a.isEmpty with
    | mk st' q =>
    obtain ⟨k, out, ret⟩ := q
    obtain ⟨h1, h2, h3, h4, h5, -, h7, -⟩ := hstep _ _ _ hr ((List.prefix_append c a).trans hca) hpy a (B - s.wb.length) hca hend _ _ _ _ hj
    simp only
    rw [if_neg h3]
    have hlen : (s.sig ++ s.wb ++ out).length ≤ y.length := pre_len h5
    have hassoc : s.sig ++ (s.wb ++ out) = s.sig ++ s.wb ++ out := by rw [List.append_assoc]
    have hcak : c ++ List.take k a ++ List.drop k a = c ++ a := by rw [List.append_assoc, List.take_append_drop]
    by_cases hfl : s.wb ++ out ≠ [] ∧ out = []
    · rw [if_pos hfl]
      have ho : out = [] := hfl.2
      subst ho
      simp only [List.append_nil] at h4 h5 hfl ⊢
      have hwne : s.wb ≠ [] := hfl.1
      rw [if_neg hwne] at hn
      by_cases hd : a.drop k = []
      · rw [if_neg (by simp [hd])]
        have hk : a.length ≤ k := List.drop_eq_nil_iff.mp hd
        rw [List.take_of_length_le hk] at h4
        exact ⟨_, rfl, rfl, (by simpa using h4), (by simpa using h5), (by simp)⟩
      · rw [if_pos (by simpa using hd)]
        obtain ⟨s', e1, e2, e3, e4, e5⟩ := ih { s with st := st', sig := s.sig ++ s.wb, wb := [] } (c ++ a.take k) (a.drop k) (by simpa using h4) (by rw [hcak]; exact hca) (fun h => absurd h hd)
          (by simpa using h5) (by simp) (by simp only [List.append_nil, if_true, List.length_drop]; omega)
        rw [hcak] at e3
        exact ⟨s', e1, e2, e3, e4, e5⟩
    · rw [if_neg hfl]
      by_cases hd : a.drop k = []
      · rw [if_neg (by simp [hd])]
        have hk : a.length ≤ k := List.drop_eq_nil_iff.mp hd
        rw [List.take_of_length_le hk] at h4
        exact ⟨_, rfl, rfl, (by simpa [List.append_assoc] using h4), (by simpa [List.append_assoc] using h5), (by simp; omega)⟩
      · rw [if_pos (by simpa using hd)]
        have hane : a ≠ [] := fun h => by subst h; simp at hd
        have hprog : 0 < k ∨ out ≠ [] := by
          by_cases hroom : 0 < B - s.wb.length
          · exact h7 hroom hane
          · exact Or.inr fun ho => hfl ⟨fun h => by have := congrArg List.length h; simp at this; have h0 := List.length_eq_zero_iff.mpr this.1; omega, ho⟩
        have hmeas : 2 * ((a.drop k).length + (y.length - (s.sig ++ (s.wb ++ out)).length)) + (if s.wb ++ out = [] then 0 else 1) < n := by
          have h9 : (if s.wb ++ out = [] then 0 else 1) ≤ (1 : Nat) := by split <;> omega
          simp only [List.length_drop, List.length_append] at hlen hn ⊢
          have hd' : k < a.length := by
            rcases Nat.lt_or_ge k a.length with h | h
            · exact h
            · exact absurd (List.drop_eq_nil_iff.mpr h) hd
          by_cases ho : out = []
          · subst ho
            have hk0 : 0 < k := by rcases hprog with h | h; exact h; exact absurd rfl h
            have hw0 : s.wb = [] := by
              rcases List.eq_nil_or_concat s.wb with h | ⟨l, z, h⟩
              · exact h
              · exact absurd ⟨by simp [h], rfl⟩ hfl
            simp [hw0] at hn ⊢
            omega
          · have : 0 < out.length := List.length_pos_iff.mpr ho
            have h10 : (if s.wb = [] then 0 else 1) ≤ (1 : Nat) := by split <;> omega
            omega
        obtain ⟨s', e1, e2, e3, e4, e5⟩ := ih { s with st := st', wb := s.wb ++ out } (c ++ a.take k) (a.drop k) (by simpa [List.append_assoc] using h4) (by rw [hcak]; exact hca) (fun h => absurd h hd)
          (by simpa [List.append_assoc] using h5) (by simp; omega) hmeas
        rw [hcak] at e3
        exact ⟨s', e1, e2, e3, e4, e5⟩

private def SInv (x y : Bytes) (B : Nat) (rep : J.St → Bytes → Bytes → Prop) (s : SignR J) (rest : Bytes) : Prop :=
  ∃ c, c ++ rest = x ∧ s.below = rest ∧ rep s.st c (s.sig ++ s.wb) ∧ s.sig ++ s.wb <+: y ∧ s.wb.length ≤ B

private theorem read_inv (hB : 0 < B) (rep : J.St → Bytes → Bytes → Prop) (hstep : StepLaw J x y rep) (fuel : Nat) (hf : 2 * (x.length + y.length) + 1 < fuel) (s : SignR J) (rest : Bytes)
    (hi : SInv x y B rep s rest) (n : Nat) (hn : 0 < n ∨ rest = []) :
    ∃ s', SignR.read B fuel s n = (s', .ok (rest.take n)) ∧ SInv x y B rep s' (rest.drop n) := by
  obtain ⟨c, h1, h2, h3, h4, h5⟩ := hi
  have hx : c.length + rest.length = x.length := by rw [← h1]; simp
  have hifle : (if s.wb = [] then 0 else 1) ≤ (1 : Nat) := by split <;> omega
  obtain ⟨s', e1, e2, e3, e4, e5⟩ := feed_inv hB rep hstep fuel { s with below := s.below.drop n } c (rest.take n) h3
    (by rw [← h1]; exact List.prefix_append_right_inj c |>.mpr (List.take_prefix n rest))
    (fun h => by
      have hr : rest = [] := by
        rcases hn with hn | hn
        · rcases List.take_eq_nil_iff.mp h with h | h
          · omega
          · exact h
        · exact hn
      rw [← h1, hr, List.append_nil]) h4 h5
    (by simp only [List.length_take]; omega)
  refine ⟨s', ?_, c ++ rest.take n, (by rw [List.append_assoc, List.take_append_drop, h1]), (by rw [e2, h2]), e3, e4, e5⟩
  unfold SignR.read
  rw [h2]
  rw [h2] at e1
  simp only [e1]

private theorem eof_inv (hB : 0 < B) (rep : J.St → Bytes → Bytes → Prop) (hstep : StepLaw J x y rep) : ∀ (n : Nat) (s : SignR J), rep s.st x s.sig → s.sig <+: y → y.length - s.sig.length < n →
    ∃ s', SignR.eofLoop B n s = (s', .ok ()) ∧ s'.sig = y := by
  intro n
  induction n with
  | zero => intro s _ _ h; omega
  | succ n ih =>
    intro s hr hp hn
    unfold SignR.eofLoop RsJob.forward
    cases hj : J.step s.st [] B (List.isEmpty ([] : Bytes)) with
    | mk st' q =>
    obtain ⟨k, out, ret⟩ := q
    obtain ⟨h1, h2, h3, h4, h5, h6, -, h8⟩ := hstep _ _ _ hr (List.prefix_refl x) hp [] B (by simp) (fun _ => rfl) _ _ _ _ hj
    simp only
    rw [if_neg h3]
    by_cases hc : out ≠ [] ∧ ret ≠ .done
    · rw [if_pos hc]
      have h9 : 0 < out.length := List.length_pos_iff.mpr hc.1
      have h10 := pre_len h5
      simp only [List.length_append] at h10
      exact ih { s with st := st', sig := s.sig ++ out } (by simpa using h4) h5 (by simp; omega)
    · rw [if_neg hc]
      have hd : ret = .done := by
        rcases h8 hB rfl with h | h
        · by_cases hd : ret = .done
          · exact hd
          · exact absurd ⟨h, hd⟩ hc
        · exact h
      exact ⟨_, rfl, (h6 hd).2⟩

private theorem reads_inv {σ : Type} (rd : σ → Nat → σ × Res Bytes) (I : σ → Bytes → Prop) (h : ∀ s r n, I s r → 0 < n → ∃ s', rd s n = (s', .ok (r.take n)) ∧ I s' (r.drop n)) :
    ∀ (ns : List Nat) (s : σ) (r : Bytes), I s r → (∀ n ∈ ns, 0 < n) → ∃ s', rsReads rd s ns = (s', .ok (piecesOf r ns)) ∧ I s' (r.drop ns.sum) := by
  intro ns
  induction ns with
  | nil => intro s r hi _; exact ⟨s, rfl, (by simpa using hi)⟩
  | cons n ns ih =>
    intro s r hi hp
    obtain ⟨s1, e1, i1⟩ := h s r n hi (hp n (by simp))
    obtain ⟨s2, e2, i2⟩ := ih s1 _ i1 (fun m hm => hp m (by simp [hm]))
    refine ⟨s2, ?_, (by rw [List.drop_drop] at i2; simpa [List.sum_cons] using i2)⟩
    unfold rsReads piecesOf
    simp only [e1, e2]

/-- **C74**: the data read through a signature object is the data of the file, whatever the sizes asked for, and once the file has been read the signature stored is the one librsync computes. -/
theorem C74_signature (J : RsJob) (x y : Bytes) (hJ : J.Gives x y) (B : Nat) (hB : 0 < B) (fuel : Nat) (hf : 2 * (x.length + y.length) + 1 < fuel) (ns : List Nat) (hn : ∀ n ∈ ns, 0 < n)
    (hall : x.length ≤ ns.sum) :
    ∃ s s', rsReads (SignR.read B fuel) (SignR.start J x) ns = (s, .ok (piecesOf x ns)) ∧ s.finish B fuel = (s', .ok ()) ∧ s'.sig = y := by
  obtain ⟨rep, hr0, hstep⟩ := hJ
  obtain ⟨s, e1, c, h1, h2, h3, h4, h5⟩ := reads_inv (SignR.read (J := J) B fuel) (SInv x y B rep) (fun s r n hi h => read_inv hB rep hstep fuel hf s r hi n (Or.inl h)) ns (SignR.start J x) x
    ⟨[], rfl, rfl, hr0, by simp [SignR.start], by simp [SignR.start]⟩ hn
  rw [List.drop_eq_nil_of_le hall, List.append_nil] at h1
  rw [h1] at h3
  obtain ⟨s', e2, e3⟩ := eof_inv hB rep hstep fuel { s with sig := s.sig ++ s.wb, wb := [] } h3 h4 (by simp only; omega)
  exact ⟨s, s', e1, e2, e3⟩

end Sign

/-! ### delta -/

section Delta
variable {J : RsJob} {β : Type} {x y : Bytes} {B : Nat}

private def DInv (x y : Bytes) (B : Nat) (rep : J.St → Bytes → Bytes → Prop) (I : β → Bytes → Prop) (z : Prop) (s : DeltaR J β) (c p r : Bytes) : Prop :=
  I s.below r ∧ c ++ s.wb ++ r = x ∧ rep s.st c p ∧ p <+: y ∧ s.wb.length ≤ B ∧ s.crcIn = c ++ s.wb ∧ (z ∨ s.wb.length < B)

private theorem take_app {y p out : Bytes} (h : p ++ out <+: y) (m : Nat) (hm : out.length ≤ m) : (y.drop p.length).take m = out ++ (y.drop (p ++ out).length).take (m - out.length) := by
  obtain ⟨t, rfl⟩ := h
  simp only [List.append_assoc, List.drop_left, List.length_append]
  rw [show List.drop (p.length + out.length) (p ++ (out ++ t)) = t by rw [← List.append_assoc, ← List.length_append, List.drop_left]]
  rw [List.take_append, List.take_of_length_le hm]

private theorem delta_loop (hB : 0 < B) (rep : J.St → Bytes → Bytes → Prop) (hstep : StepLaw J x y rep) (rd : β → Nat → β × Res Bytes) (I : β → Bytes → Prop) (z : Prop)
    (hrd : ∀ b r n, I b r → (0 < n ∨ z) → ∃ b', rd b n = (b', .ok (r.take n)) ∧ I b' (r.drop n)) (hz : z ∨ J.Greedy) (size : Nat) :
    ∀ (n : Nat) (s : DeltaR J β) (acc c p r : Bytes) (eof : Bool), DInv x y B rep I z s c p r → acc.length < size → (eof = true → c = x) →
      (x.length - c.length) + (y.length - p.length) < n →
      ∃ s' c' r' w, DeltaR.loop rd B size n s acc eof = (s', .ok (acc ++ w)) ∧ w = (y.drop p.length).take (size - acc.length) ∧ DInv x y B rep I z s' c' (p ++ w) r' ∧
        (w.length < size - acc.length → s'.crcIn = x) := by
  intro n
  induction n with
  | zero => intro s acc c p r eof _ _ _ h; omega
  | succ n ih =>
    intro s acc c p r eof hi hacc heof hn
    obtain ⟨i1, i2, i3, i4, i5, i6, i7⟩ := hi
    have hrd' : ∃ b' t r', (if eof then (s.below, .ok []) else rd s.below (B - s.wb.length)) = (b', (.ok t : Res Bytes)) ∧ I b' r' ∧ c ++ (if eof then [] else s.wb ++ t) ++ r' = x ∧
        (if eof then [] else s.wb ++ t : Bytes).length ≤ B ∧ s.crcIn ++ t = c ++ (if eof then [] else s.wb ++ t) ∧ ((eof || (if eof then [] else s.wb ++ t : Bytes).isEmpty) = true → c = x ∧ (if eof then [] else s.wb ++ t) = []) ∧
        ((eof || (if eof then [] else s.wb ++ t : Bytes).isEmpty) = false → (if eof then [] else s.wb ++ t) ≠ []) := by
      cases eof with
      | true =>
        have hcx := heof rfl
        have hl := congrArg List.length i2
        rw [hcx] at hl i2 i6
        simp only [List.length_append] at hl
        have hw : s.wb = [] := List.length_eq_zero_iff.mp (by omega)
        have hr : r = [] := List.length_eq_zero_iff.mp (by omega)
        subst hcx
        refine ⟨s.below, [], r, (by simp), i1, (by simp [hr]), (by simp), (by simp [i6, hw]), (fun _ => ⟨rfl, (by simp)⟩), (fun h => by simp at h)⟩
      | false =>
        obtain ⟨b', e1, e2⟩ := hrd s.below r (B - s.wb.length) i1 (by rcases i7 with h | h; exact Or.inr h; exact Or.inl (by omega))
        refine ⟨b', r.take (B - s.wb.length), r.drop (B - s.wb.length), (by simpa using e1), e2, ?_, ?_, ?_, ?_, ?_⟩
        · simp only [Bool.false_eq_true, if_false, List.append_assoc, List.take_append_drop]; simpa [List.append_assoc] using i2
        · simp only [Bool.false_eq_true, if_false, List.length_append, List.length_take]; omega
        · simp only [Bool.false_eq_true, if_false, i6, List.append_assoc]
        · intro h
          simp only [Bool.false_eq_true, if_false, Bool.false_or, List.isEmpty_iff, List.append_eq_nil_iff] at h ⊢
          refine ⟨?_, h⟩
          have hr : r = [] := by
            rcases List.take_eq_nil_iff.mp h.2 with h' | h'
            · rw [h.1] at h'; simp at h'; omega
            · exact h'
          rw [h.1, hr] at i2; simpa using i2
        · intro h
          simp only [Bool.false_or, Bool.false_eq_true, if_false] at h ⊢
          intro h'; rw [h'] at h; simp at h
    obtain ⟨b', t, r', g1, g2, g3, g4, g5, g6, g7⟩ := hrd'
    unfold DeltaR.loop
    rw [g1]
    simp only
    generalize hwb : (if eof then [] else s.wb ++ t : Bytes) = wb at g3 g4 g5 g6 g7 ⊢
    generalize heo : (eof || wb.isEmpty) = eof' at g6 g7 ⊢
    unfold RsJob.forward
    cases hj : J.step s.st wb (size - acc.length) wb.isEmpty with
    | mk st' q =>
    obtain ⟨k, out, ret⟩ := q
    have hcw : c ++ wb <+: x := ⟨r', g3⟩
    obtain ⟨h1, h2, h3, h4, h5, h6, h7, h8⟩ := hstep _ _ _ i3 ((List.prefix_append c wb).trans hcw) i4 wb (size - acc.length) hcw
      (fun h => by
        have : eof' = true := by rw [← heo, h]; simp
        exact (g6 this).1) _ _ _ _ hj
    simp only
    rw [if_neg h3]
    have hroom : 0 < size - acc.length := by omega
    have hdrop : c ++ wb.take k ++ wb.drop k ++ r' = x := by rw [List.append_assoc c, List.take_append_drop]; exact g3
    have hlen := pre_len h5
    have hxl := congrArg List.length g3
    simp only [List.length_append] at hlen hxl
    have hinv : DInv x y B rep I z (⟨b', st', wb.drop k, s.crcIn ++ t⟩ : DeltaR J β) (c ++ wb.take k) (p ++ out) r' := by
      refine ⟨g2, hdrop, h4, h5, (by simp only [List.length_drop]; omega), (by rw [g5, List.append_assoc, List.take_append_drop]), ?_⟩
      rcases hz with hz | hz
      · exact Or.inl hz
      · refine Or.inr ?_
        by_cases hw : wb = []
        · simp [hw, hB]
        · have hpos : 0 < wb.length := List.length_pos_iff.mpr hw
          have hem : wb.isEmpty = false := by cases wb with | nil => exact absurd rfl hw | cons _ _ => rfl
          have hj' := hj
          rw [hem] at hj'
          have hk := hz _ _ _ _ _ _ _ hw hroom hj'
          simp only [List.length_drop]; omega
    by_cases hc : (acc ++ out).length < size ∧ (eof' = false ∨ out ≠ [])
    · rw [if_pos hc]
      have hacc' := hc.1
      simp only [List.length_append] at hacc'
      obtain ⟨s', c', r'', w, e1, e2, e3, e4⟩ := ih ⟨b', st', wb.drop k, s.crcIn ++ t⟩ (acc ++ out) (c ++ wb.take k) (p ++ out) r' eof' hinv hc.1
        (fun h => by rw [(g6 h).2]; simp [(g6 h).1])
        (by
          simp only [List.length_append, List.length_take]
          have : 0 < k ∨ 0 < out.length := by
            rcases Bool.eq_false_or_eq_true eof' with h | h
            · rcases hc.2 with h' | h'
              · rw [h] at h'; cases h'
              · exact Or.inr (List.length_pos_iff.mpr h')
            · rcases h7 hroom (g7 h) with h' | h'
              · exact Or.inl h'
              · exact Or.inr (List.length_pos_iff.mpr h')
          omega)
      refine ⟨s', c', r'', out ++ w, (by rw [e1, List.append_assoc]), ?_, (by rw [← List.append_assoc]; exact e3), ?_⟩
      · rw [take_app h5 _ h2, e2]; congr 2; simp [Nat.sub_sub]
      · intro h; apply e4; simp only [List.length_append] at h ⊢; omega
    · rw [if_neg hc]
      by_cases hsz : (acc ++ out).length < size
      · have hce : eof' = true ∧ out = [] := by
          rcases Bool.eq_false_or_eq_true eof' with h | h
          · refine ⟨h, ?_⟩
            by_cases ho : out = []
            · exact ho
            · exact absurd ⟨hsz, Or.inr ho⟩ hc
          · exact absurd ⟨hsz, Or.inl h⟩ hc
        obtain ⟨hce1, hce2⟩ := hce
        have hd : ret = .done := by
          rcases h8 hroom (g6 hce1).2 with h | h
          · exact absurd hce2 h
          · exact h
        have hy := (h6 hd).2
        refine ⟨_, _, r', out, rfl, ?_, hinv, fun _ => ?_⟩
        · rw [take_app h5 _ h2, hy]; simp
        · simp only; rw [g5, (g6 hce1).1, (g6 hce1).2, List.append_nil]
      · simp only [List.length_append] at hsz
        have ho : out.length = size - acc.length := by omega
        refine ⟨_, _, r', out, rfl, ?_, hinv, fun h => by omega⟩
        rw [take_app h5 _ h2, ho]; simp

private def DI (x y : Bytes) (B : Nat) (rep : J.St → Bytes → Bytes → Prop) (I : β → Bytes → Prop) (z : Prop) (s : DeltaR J β) (rest : Bytes) : Prop :=
  ∃ c p r, DInv x y B rep I z s c p r ∧ p ++ rest = y

private theorem delta_read (hB : 0 < B) (rep : J.St → Bytes → Bytes → Prop) (hstep : StepLaw J x y rep) (rd : β → Nat → β × Res Bytes) (I : β → Bytes → Prop) (z : Prop)
    (hrd : ∀ b r n, I b r → (0 < n ∨ z) → ∃ b', rd b n = (b', .ok (r.take n)) ∧ I b' (r.drop n)) (hz : z ∨ J.Greedy) (fuel : Nat) (hf : x.length + y.length < fuel) (s : DeltaR J β) (rest : Bytes) (n : Nat)
    (hi : DI x y B rep I z s rest) (hn : 0 < n) :
    ∃ s', DeltaR.read rd B fuel s n = (s', .ok (rest.take n)) ∧ DI x y B rep I z s' (rest.drop n) ∧ (rest.length < n → s'.crcIn = x) := by
  obtain ⟨c, p, r, hi, hp⟩ := hi
  obtain ⟨s', c', r', w, e1, e2, e3, e4⟩ := delta_loop hB rep hstep rd I z hrd hz n fuel s [] c p r false hi (by simpa using hn) (fun h => by cases h) (by omega)
  have hw : w = rest.take n := by rw [e2, ← hp]; simp
  rw [hw] at e1 e3 e4
  refine ⟨s', (by simpa [DeltaR.read] using e1), ⟨c', _, r', e3, (by rw [List.append_assoc, List.take_append_drop, hp])⟩, fun h => e4 (by simp only [List.length_take, List.length_nil]; omega)⟩

private theorem rsReads_snoc {σ : Type} (rd : σ → Nat → σ × Res Bytes) : ∀ (ns : List Nat) (s s1 s2 : σ) (l : List Bytes) (n : Nat) (d : Bytes), rsReads rd s ns = (s1, .ok l) → rd s1 n = (s2, .ok d) →
    rsReads rd s (ns ++ [n]) = (s2, .ok (l ++ [d])) := by
  intro ns
  induction ns with
  | nil =>
    intro s s1 s2 l n d h1 h2
    cases h1
    simp [rsReads, h2]
  | cons m ns ih =>
    intro s s1 s2 l n d h1 h2
    unfold rsReads at h1
    simp only [List.cons_append]
    unfold rsReads
    cases hm : rd s m with
    | mk s' q => cases q with
      | error e => rw [hm] at h1; cases h1
      | ok d' =>
        rw [hm] at h1
        simp only at h1 ⊢
        cases hr : rsReads rd s' ns with
        | mk s'' q => cases q with
          | error e => rw [hr] at h1; cases h1
          | ok l' =>
            rw [hr] at h1
            simp only [Prod.mk.injEq, Except.ok.injEq] at h1
            obtain ⟨ha, hb⟩ := h1
            rw [ih s' s1 s2 l' n d (by rw [hr, ha]) h2, ← hb]
            rfl

private theorem pieces_snoc : ∀ (ns : List Nat) (x : Bytes) (n : Nat), piecesOf x (ns ++ [n]) = piecesOf x ns ++ [(x.drop ns.sum).take n] := by
  intro ns
  induction ns with
  | nil => intro x n; simp [piecesOf]
  | cons m ns ih => intro x n; simp [piecesOf, ih, List.drop_drop]

private theorem delta_session (hB : 0 < B) (rep : J.St → Bytes → Bytes → Prop) (hstep : StepLaw J x y rep) (rd : β → Nat → β × Res Bytes) (I : β → Bytes → Prop) (z : Prop)
    (hrd : ∀ b r n, I b r → (0 < n ∨ z) → ∃ b', rd b n = (b', .ok (r.take n)) ∧ I b' (r.drop n)) (hz : z ∨ J.Greedy) (fuel : Nat) (hf : x.length + y.length < fuel) (s : DeltaR J β)
    (hi : DI x y B rep I z s y) (ns : List Nat) (n : Nat) (hn : ∀ m ∈ ns, 0 < m) (hn' : 0 < n) :
    ∃ s', rsReads (DeltaR.read rd B fuel) s (ns ++ [n]) = (s', .ok (piecesOf y (ns ++ [n]))) ∧ DI x y B rep I z s' (y.drop (ns.sum + n)) ∧ (y.length < ns.sum + n → s'.crcIn = x) := by
  obtain ⟨s1, e1, i1⟩ := reads_inv (DeltaR.read (J := J) rd B fuel) (DI x y B rep I z) (fun s r n hi h => by
    obtain ⟨s', a, b, _⟩ := delta_read hB rep hstep rd I z hrd hz fuel hf s r n hi h
    exact ⟨s', a, b⟩) ns s y hi hn
  obtain ⟨s2, e2, i2, i3⟩ := delta_read hB rep hstep rd I z hrd hz fuel hf s1 _ n i1 hn'
  refine ⟨s2, (by rw [rsReads_snoc _ ns s s1 s2 _ n _ e1 e2, pieces_snoc]), (by rw [List.drop_drop] at i2; exact i2), fun h => i3 (by simp only [List.length_drop]; omega)⟩

end Delta

/-- **C74**: the delta read, whatever the sizes asked for, is the one librsync computes for the content of the file, and when its end has been met the CRC kept for the file has been computed on the whole file. -/
theorem C74_delta (J : RsJob) (x y : Bytes) (hJ : J.Gives x y) (B : Nat) (hB : 0 < B) (fuel : Nat) (hf : x.length + y.length < fuel) (ns : List Nat) (n : Nat) (hn : ∀ m ∈ ns, 0 < m) (hn' : 0 < n) :
    ∃ s : DeltaR J Bytes, rsReads (DeltaR.read plainRd B fuel) ⟨x, J.init, [], []⟩ (ns ++ [n]) = (s, .ok (piecesOf y (ns ++ [n]))) ∧ (y.length < ns.sum + n → s.crcIn = x) := by
  obtain ⟨rep, hr0, hstep⟩ := hJ
  obtain ⟨s, e1, -, e2⟩ := delta_session hB rep hstep plainRd (fun b r => b = r) True (fun b r n h _ => ⟨r.drop n, by rw [h]; rfl, rfl⟩) (Or.inl trivial) fuel hf ⟨x, J.init, [], []⟩
    ⟨[], [], x, ⟨rfl, by simp, hr0, by simp, by simp, by simp, Or.inl trivial⟩, by simp⟩ ns n hn hn'
  exact ⟨s, e1, e2⟩

/-- **C74**, partial: a delta and a new signature computed together while the file is read once are both the ones librsync computes, provided the library takes some input at each call.  Missing: without that
proviso the signature is wrong (C74_empty_read_counterexample). -/
theorem C74_signature_and_delta_partial (Js Jd : RsJob) (x sy dy : Bytes) (hs : Js.Gives x sy) (hd : Jd.Gives x dy) (hg : Jd.Greedy) (B B' : Nat) (hB : 0 < B) (hB' : 0 < B') (fuel : Nat)
    (hf : 2 * (x.length + sy.length) + x.length + dy.length + 1 < fuel) (ns : List Nat) (n : Nat) (hn : ∀ m ∈ ns, 0 < m) (hn' : 0 < n) (hall : dy.length < ns.sum + n) :
    ∃ (s : DeltaR Jd (SignR Js)) (t : SignR Js), rsReads (DeltaR.read (SignR.read B' fuel) B fuel) ⟨SignR.start Js x, Jd.init, [], []⟩ (ns ++ [n]) = (s, .ok (piecesOf dy (ns ++ [n]))) ∧ s.crcIn = x ∧
      s.below.finish B' fuel = (t, .ok ()) ∧ t.sig = sy := by
  obtain ⟨rep, hr0, hstep⟩ := hs
  obtain ⟨rep', hr0', hstep'⟩ := hd
  obtain ⟨s, e1, e2, e3⟩ := delta_session hB rep' hstep' (SignR.read (J := Js) B' fuel) (SInv x sy B' rep) False
    (fun b r n h hn => read_inv hB' rep hstep fuel (by omega) b r h n (by rcases hn with h | h; exact Or.inl h; exact absurd h id)) (Or.inr hg) fuel (by omega) ⟨SignR.start Js x, Jd.init, [], []⟩
    ⟨[], [], x, ⟨⟨[], rfl, rfl, hr0, by simp [SignR.start], by simp [SignR.start]⟩, by simp, hr0', by simp, by simp, by simp, Or.inr (by simpa using hB)⟩, by simp⟩ ns n hn hn'
  have hcrc := e3 hall
  obtain ⟨c, p, r, ⟨i1, i2, -, -, -, i6, -⟩, -⟩ := e2
  have hr : r = [] := by
    rw [← i6, hcrc] at i2
    have := congrArg List.length i2
    simp at this
    exact this
  obtain ⟨c', h1, h2, h3, h4, h5⟩ := i1
  rw [hr, List.append_nil] at h1
  rw [h1] at h3
  obtain ⟨t, e4, e5⟩ := eof_inv hB' rep hstep fuel { s.below with sig := s.below.sig ++ s.below.wb, wb := [] } h3 h4 (by simp only; omega)
  exact ⟨s, t, e1, hcrc, e4, e5⟩

/-! ### loading -/

private theorem load_loop {S : Type} (J : LoadJob S) (x : Bytes) (v : S) (rep : J.St → Bytes → Prop)
    (hstep : ∀ st c, rep st c → c <+: x → ∀ a room, c ++ a <+: x → (a = [] → c = x) → 0 < room →
      ∀ st' k out ret, J.step st a room a.isEmpty = (st', k, out, ret) →
        k ≤ a.length ∧ out = [] ∧ ret ≠ .err ∧ rep st' (c ++ a.take k) ∧ (a ≠ [] → 0 < k) ∧ (a = [] → ret = .done ∧ J.sumset st' = v))
    (B : Nat) (hB : 0 < B) : ∀ (n : Nat) (st : J.St) (c rest lu : Bytes), rep st c → c ++ lu ++ rest = x → lu.length ≤ B → x.length - c.length < n →
      ∃ st', loadLoop J B n st rest lu = .ok st' ∧ J.sumset st' = v := by
  intro n
  induction n with
  | zero => intro st c rest lu _ _ _ h; omega
  | succ n ih =>
    intro st c rest lu hr hx hlu hn
    unfold loadLoop
    simp only
    have hsplit : c ++ (lu ++ rest.take (B - lu.length)) ++ rest.drop (B - lu.length) = x := by rw [← hx]; simp [List.append_assoc]
    have hend : lu ++ rest.take (B - lu.length) = [] → c = x := by
      intro h
      obtain ⟨h1, h2⟩ := List.append_eq_nil_iff.mp h
      rcases List.take_eq_nil_iff.mp h2 with h3 | h3
      · rw [h1] at h3; simp at h3; omega
      · rw [h1, h3] at hx; simpa using hx
    have hal : (lu ++ rest.take (B - lu.length)).length ≤ B := by simp only [List.length_append, List.length_take]; omega
    generalize lu ++ rest.take (B - lu.length) = a at hsplit hend hal ⊢
    unfold RsJob.forward
    cases hj : J.step st a 10 a.isEmpty with
    | mk st' q =>
    obtain ⟨k, out, ret⟩ := q
    obtain ⟨h1, h2, h3, h4, h5, h6⟩ := hstep st c hr ⟨lu ++ rest, by rw [← List.append_assoc]; exact hx⟩ a 10 ⟨_, hsplit⟩ hend (by decide) _ _ _ _ hj
    simp only
    rw [if_neg h3]
    by_cases ha : a = []
    · obtain ⟨hd, hv⟩ := h6 ha
      rw [if_neg (fun h => h.1 hd), if_neg (fun h => h h2), if_neg (fun h => h ha)]
      exact ⟨st', rfl, hv⟩
    · rw [if_neg (fun h => ha h.2), if_neg (fun h => h h2), if_pos ha]
      have hk := h5 ha
      have hl := congrArg List.length hsplit
      simp only [List.length_append] at hl
      exact ih st' (c ++ a.take k) (rest.drop (B - lu.length)) (a.drop k) h4 (by rw [← hsplit]; simp [List.append_assoc]) (by simp only [List.length_drop]; omega)
        (by simp only [List.length_append, List.length_take]; omega)

/-- **C74**: a signature is loaded whole, whatever its size. -/
theorem C74_load {S : Type} (J : LoadJob S) (x : Bytes) (v : S) (hJ : J.Loads x v) (B : Nat) (hB : 0 < B) (fuel : Nat) (hf : x.length < fuel) : loadSig J B fuel x = .ok v := by
  obtain ⟨rep, hr0, hstep⟩ := hJ
  obtain ⟨st, h1, h2⟩ := load_loop J x v rep hstep B hB fuel J.init [] x [] hr0 (by simp) (by simp) (by simpa using hf)
  unfold loadSig
  rw [h1]
  simp only [h2]

/-! ### patch -/

section Patch
variable {J : RsJob} {x y : Bytes} {B : Nat}

private def PInv (x y : Bytes) (B : Nat) (rep : J.St → Bytes → Bytes → Prop) (s : PatchR J) (c p : Bytes) : Prop :=
  c ++ s.wb ++ s.below = x ∧ rep s.st c p ∧ p <+: y ∧ s.wb.length ≤ B ∧ s.consumed = c ++ s.wb ∧ (s.completed = true → p = y ∧ c = x)

private theorem patch_loop (hB : 0 < B) (rep : J.St → Bytes → Bytes → Prop) (hstep : StepLaw J x y rep) (size : Nat) :
    ∀ (n : Nat) (s : PatchR J) (acc c p : Bytes) (eof : Bool), PInv x y B rep s c p → s.completed = false → acc.length < size → (eof = true → c = x) →
      (x.length - c.length) + (y.length - p.length) < n →
      ∃ s' c' w, PatchR.loop B size n s acc eof = (s', .ok (acc ++ w)) ∧ w = (y.drop p.length).take (size - acc.length) ∧ PInv x y B rep s' c' (p ++ w) ∧
        (w.length < size - acc.length → s'.consumed = x ∧ s'.completed = true) := by
  intro n
  induction n with
  | zero => intro s acc c p eof _ _ _ _ h; omega
  | succ n ih =>
    intro s acc c p eof hi hcp hacc heof hn
    obtain ⟨i2, i3, i4, i5, i6, -⟩ := hi
    unfold PatchR.loop
    have hrd' : c ++ (if eof then [] else s.wb ++ (if eof then [] else s.below.take (B - s.wb.length))) ++ (if eof then s.below else s.below.drop (B - s.wb.length)) = x ∧
        (if eof then [] else s.wb ++ (if eof then [] else s.below.take (B - s.wb.length)) : Bytes).length ≤ B ∧
        s.consumed ++ (if eof then [] else s.below.take (B - s.wb.length)) = c ++ (if eof then [] else s.wb ++ (if eof then [] else s.below.take (B - s.wb.length))) ∧
        ((eof || (if eof then [] else s.wb ++ (if eof then [] else s.below.take (B - s.wb.length)) : Bytes).isEmpty) = true →
          c = x ∧ (if eof then [] else s.wb ++ (if eof then [] else s.below.take (B - s.wb.length))) = []) ∧
        ((eof || (if eof then [] else s.wb ++ (if eof then [] else s.below.take (B - s.wb.length)) : Bytes).isEmpty) = false →
          (if eof then [] else s.wb ++ (if eof then [] else s.below.take (B - s.wb.length))) ≠ []) := by
      cases eof with
      | true =>
        have hcx := heof rfl
        have hl := congrArg List.length i2
        rw [hcx] at hl i2 i6
        simp only [List.length_append] at hl
        have hw : s.wb = [] := List.length_eq_zero_iff.mp (by omega)
        have hr : s.below = [] := List.length_eq_zero_iff.mp (by omega)
        subst hcx
        refine ⟨(by simp [hr]), (by simp), (by simp [i6, hw]), (fun _ => ⟨rfl, (by simp)⟩), (fun h => by simp at h)⟩
      | false =>
        refine ⟨?_, ?_, ?_, ?_, ?_⟩
        · simp only [Bool.false_eq_true, if_false, List.append_assoc, List.take_append_drop]; simpa [List.append_assoc] using i2
        · simp only [Bool.false_eq_true, if_false, List.length_append, List.length_take]; omega
        · simp only [Bool.false_eq_true, if_false, i6, List.append_assoc]
        · intro h
          simp only [Bool.false_eq_true, if_false, Bool.false_or, List.isEmpty_iff, List.append_eq_nil_iff] at h ⊢
          refine ⟨?_, h⟩
          have hr : s.below = [] := by
            rcases List.take_eq_nil_iff.mp h.2 with h' | h'
            · rw [h.1] at h'; simp at h'; omega
            · exact h'
          rw [h.1, hr] at i2; simpa using i2
        · intro h
          simp only [Bool.false_or, Bool.false_eq_true, if_false] at h ⊢
          intro h'; rw [h'] at h; simp at h
    obtain ⟨g3, g4, g5, g6, g7⟩ := hrd'
    simp only
    generalize (if eof then [] else s.wb ++ (if eof then [] else s.below.take (B - s.wb.length)) : Bytes) = wb at g3 g4 g5 g6 g7 ⊢
    generalize (if eof then s.below else s.below.drop (B - s.wb.length) : Bytes) = r' at g3 ⊢
    generalize (if eof then [] else s.below.take (B - s.wb.length) : Bytes) = t at g5 ⊢
    generalize heo : (eof || wb.isEmpty) = eof' at g6 g7 ⊢
    unfold RsJob.forward
    cases hj : J.step s.st wb (size - acc.length) wb.isEmpty with
    | mk st' q =>
    obtain ⟨k, out, ret⟩ := q
    have hcw : c ++ wb <+: x := ⟨r', g3⟩
    obtain ⟨h1, h2, h3, h4, h5, h6, h7, h8⟩ := hstep _ _ _ i3 ((List.prefix_append c wb).trans hcw) i4 wb (size - acc.length) hcw
      (fun h => by
        have : eof' = true := by rw [← heo, h]; simp
        exact (g6 this).1) _ _ _ _ hj
    simp only
    rw [if_neg h3]
    have hroom : 0 < size - acc.length := by omega
    have hdrop : c ++ wb.take k ++ wb.drop k ++ r' = x := by rw [List.append_assoc c, List.take_append_drop]; exact g3
    have hlen := pre_len h5
    have hxl := congrArg List.length g3
    simp only [List.length_append] at hlen hxl
    have hcons : s.consumed ++ t = c ++ wb.take k ++ wb.drop k := by rw [g5, List.append_assoc, List.take_append_drop]
    by_cases hd : ret = .done
    · rw [if_pos hd]
      obtain ⟨hcx, hpy⟩ := h6 hd
      have hwd : wb.drop k = [] ∧ r' = [] := by
        have hl := congrArg List.length hdrop
        rw [hcx] at hl
        simp only [List.length_append] at hl
        exact ⟨List.length_eq_zero_iff.mp (by omega), List.length_eq_zero_iff.mp (by omega)⟩
      rw [if_neg (fun h => h.1 hwd.1)]
      refine ⟨_, c ++ wb.take k, out, rfl, ?_, ⟨hdrop, h4, h5, (by simp [hwd.1]), hcons, fun _ => ⟨hpy, hcx⟩⟩, fun _ => ⟨?_, rfl⟩⟩
      · rw [take_app h5 _ h2, hpy]; simp
      · simp only; rw [hcons, hcx, hwd.1, List.append_nil]
    · rw [if_neg hd]
      have hne : ¬ (eof' = true ∧ out = []) := by
        rintro ⟨ha, hb⟩
        rcases h8 hroom (g6 ha).2 with h | h
        · exact h hb
        · exact hd h
      rw [if_neg hne]
      have hinv : PInv x y B rep (⟨r', st', wb.drop k, s.completed, s.consumed ++ t⟩ : PatchR J) (c ++ wb.take k) (p ++ out) :=
        ⟨hdrop, h4, h5, (by simp only [List.length_drop]; omega), hcons, fun h => by simp only [hcp] at h; cases h⟩
      by_cases hc : (acc ++ out).length < size ∧ (out ≠ [] ∨ eof' = false)
      · rw [if_pos hc]
        have hacc' := hc.1
        simp only [List.length_append] at hacc'
        obtain ⟨s', c', w, e1, e2, e3, e4⟩ := ih ⟨r', st', wb.drop k, s.completed, s.consumed ++ t⟩ (acc ++ out) (c ++ wb.take k) (p ++ out) eof' hinv hcp hc.1
          (fun h => by rw [(g6 h).2]; simp [(g6 h).1])
          (by
            simp only [List.length_append, List.length_take]
            have : 0 < k ∨ 0 < out.length := by
              rcases Bool.eq_false_or_eq_true eof' with h | h
              · rcases hc.2 with h' | h'
                · exact Or.inr (List.length_pos_iff.mpr h')
                · rw [h] at h'; cases h'
              · rcases h7 hroom (g7 h) with h' | h'
                · exact Or.inl h'
                · exact Or.inr (List.length_pos_iff.mpr h')
            omega)
        refine ⟨s', c', out ++ w, (by rw [e1, List.append_assoc]), ?_, (by rw [← List.append_assoc]; exact e3), ?_⟩
        · rw [take_app h5 _ h2, e2]; congr 2; simp [Nat.sub_sub]
        · intro h; apply e4; simp only [List.length_append] at h ⊢; omega
      · rw [if_neg hc]
        have hsz : ¬ (acc ++ out).length < size := by
          intro hsz
          apply hc
          refine ⟨hsz, ?_⟩
          rcases Bool.eq_false_or_eq_true eof' with h | h
          · exact Or.inl fun ho => hne ⟨h, ho⟩
          · exact Or.inr h
        simp only [List.length_append] at hsz
        have ho : out.length = size - acc.length := by omega
        refine ⟨_, _, out, rfl, ?_, hinv, fun h => by omega⟩
        rw [take_app h5 _ h2, ho]; simp

private def PI (x y : Bytes) (B : Nat) (rep : J.St → Bytes → Bytes → Prop) (s : PatchR J) (rest : Bytes) : Prop := ∃ c p, PInv x y B rep s c p ∧ p ++ rest = y

private theorem patch_read (hB : 0 < B) (rep : J.St → Bytes → Bytes → Prop) (hstep : StepLaw J x y rep) (fuel : Nat) (hf : x.length + y.length < fuel) (s : PatchR J) (rest : Bytes) (n : Nat)
    (hi : PI x y B rep s rest) (hn : 0 < n) :
    ∃ s', PatchR.read B fuel s n = (s', .ok (rest.take n)) ∧ PI x y B rep s' (rest.drop n) ∧ (rest.length < n → s'.consumed = x) := by
  obtain ⟨c, p, hi, hp⟩ := hi
  unfold PatchR.read
  cases hc : s.completed with
  | true =>
    obtain ⟨i1, i2, i3, i4, i5, i6⟩ := hi
    obtain ⟨j1, j2⟩ := i6 hc
    have hr : rest = [] := by
      have := congrArg List.length hp
      rw [j1] at this; simp at this; exact this
    have hw : s.wb = [] := by
      have := congrArg List.length i1
      rw [j2] at this; simp at this; exact this.1
    subst hr
    refine ⟨s, (by simp), ⟨c, p, ⟨i1, i2, i3, i4, i5, i6⟩, (by simpa using hp)⟩, fun _ => (by rw [i5, hw, j2, List.append_nil])⟩
  | false =>
    rw [if_neg (by simp)]
    obtain ⟨s', c', w, e1, e2, e3, e4⟩ := patch_loop hB rep hstep n fuel s [] c p false hi hc (by simpa using hn) (fun h => by cases h) (by omega)
    have hw : w = rest.take n := by rw [e2, ← hp]; simp
    rw [hw] at e1 e3 e4
    refine ⟨s', (by simpa using e1), ⟨c', _, e3, (by rw [List.append_assoc, List.take_append_drop, hp])⟩, fun h => (e4 (by simp only [List.length_take, List.length_nil]; omega)).1⟩

end Patch

/-- **C74**: reading through a patch object gives, whatever the sizes asked for, the content librsync builds from the file in place and the delta. -/
theorem C74_patch (J : RsJob) (d y : Bytes) (hJ : J.Gives d y) (B : Nat) (hB : 0 < B) (fuel : Nat) (hf : d.length + y.length < fuel) (ns : List Nat) (hn : ∀ m ∈ ns, 0 < m) :
    ∃ s, rsReads (PatchR.read B fuel) (PatchR.start J d) ns = (s, .ok (piecesOf y ns)) := by
  obtain ⟨rep, hr0, hstep⟩ := hJ
  obtain ⟨s, e1, -⟩ := reads_inv (PatchR.read (J := J) B fuel) (PI d y B rep) (fun s r n hi h => by
    obtain ⟨s', a, b, _⟩ := patch_read hB rep hstep fuel hf s r n hi h
    exact ⟨s', a, b⟩) ns (PatchR.start J d) y ⟨[], [], ⟨by simp [PatchR.start], hr0, by simp, by simp [PatchR.start], by simp [PatchR.start], fun h => by cases h⟩, by simp⟩ hn
  exact ⟨s, e1⟩

private theorem copy_inv {σ : Type} (rd : σ → Nat → σ × Res Bytes) (B : Nat) (hB : 0 < B) (I : σ → Bytes → Prop) (E : σ → Prop)
    (h : ∀ s r, I s r → ∃ s', rd s B = (s', .ok (r.take B)) ∧ I s' (r.drop B) ∧ (r.length < B → E s')) :
    ∀ (n : Nat) (s : σ) (r w : Bytes), I s r → r.length < n → ∃ s', rsCopy rd B n s w = (s', w ++ r, .ok ()) ∧ I s' [] ∧ E s' := by
  intro n
  induction n with
  | zero => intro s r w _ h; omega
  | succ n ih =>
    intro s r w hi hn
    obtain ⟨s1, e1, i1, k1⟩ := h s r hi
    unfold rsCopy
    simp only [e1]
    by_cases hr : r.take B = []
    · have hr' : r = [] := by
        rcases List.take_eq_nil_iff.mp hr with h | h
        · omega
        · exact h
      subst hr'
      rw [if_pos hr]
      exact ⟨s1, by simp, by simpa using i1, k1 (by simpa using hB)⟩
    · rw [if_neg hr]
      have hpos : 0 < r.length := List.length_pos_iff.mpr (fun h => hr (by rw [h]; simp))
      obtain ⟨s2, e2, i2, k2⟩ := ih s1 (r.drop B) (w ++ r.take B) i1 (by simp only [List.length_drop]; omega)
      exact ⟨s2, by rw [e2, List.append_assoc, List.take_append_drop], i2, k2⟩

private theorem patch_copy (J : RsJob) (d y : Bytes) (hJ : J.Gives d y) (B : Nat) (hB : 0 < B) (fuel : Nat) (hf : d.length + y.length < fuel) :
    ∃ s, rsCopy (PatchR.read B fuel) B fuel (PatchR.start J d) [] = (s, y, .ok ()) ∧ s.consumed = d := by
  obtain ⟨rep, hr0, hstep⟩ := hJ
  obtain ⟨s, e1, -, e2⟩ := copy_inv (PatchR.read (J := J) B fuel) B hB (PI d y B rep) (fun s => s.consumed = d) (fun s r hi => patch_read hB rep hstep fuel hf s r B hi hB) fuel (PatchR.start J d) y []
    ⟨[], [], ⟨by simp [PatchR.start], hr0, by simp, by simp [PatchR.start], by simp [PatchR.start], fun h => by cases h⟩, by simp⟩ (by omega)
  exact ⟨s, by simpa using e1, e2⟩

/-! ### patching a file in place -/

/-- **C74**: a delta of the file in place, whose CRCs are the recorded ones, turns the file into what librsync builds, hard linked or not. -/
theorem C74_apply (P : PatchLib) (base d n : Bytes) (hP : (P.job base).Gives d n) (B : Nat) (hB : 0 < B) (fuel : Nat) (hf : d.length + n.length < fuel) (crc : Nat → Bytes → Bytes) (baseSz patchSz resSz : Nat)
    (hres : (crc resSz n).length = resSz) (hardLinked v112 : Bool) :
    makeDeltaPatch P B fuel crc baseSz patchSz base d (crc baseSz base) (crc patchSz d) (crc resSz n) hardLinked v112 = (.ok (), n) := by
  obtain ⟨s, e1, e2⟩ := patch_copy (P.job base) d n hP B hB fuel hf
  unfold makeDeltaPatch
  rw [e1]
  simp only [e2]
  unfold patchFinish
  simp [hres]

private theorem loop_consumed {J : RsJob} (B size : Nat) : ∀ (n : Nat) (s : PatchR J) (acc : Bytes) (eof : Bool),
    (PatchR.loop B size n s acc eof).1.consumed ++ (PatchR.loop B size n s acc eof).1.below = s.consumed ++ s.below := by
  intro n
  induction n with
  | zero => intro s acc eof; rfl
  | succ n ih =>
    intro s acc eof
    unfold PatchR.loop
    have hkey : (s.consumed ++ (if eof then [] else s.below.take (B - s.wb.length))) ++ (if eof then s.below else s.below.drop (B - s.wb.length)) = s.consumed ++ s.below := by
      cases eof <;> simp
    simp only
    generalize (if eof then [] else s.wb ++ (if eof then [] else s.below.take (B - s.wb.length)) : Bytes) = wb at ⊢
    generalize (if eof then s.below else s.below.drop (B - s.wb.length) : Bytes) = r' at hkey ⊢
    generalize (if eof then [] else s.below.take (B - s.wb.length) : Bytes) = t at hkey ⊢
    generalize J.forward s.st _ _ = q
    obtain ⟨st, k, out, ret⟩ := q
    simp only
    by_cases h1 : ret = .err
    · rw [if_pos h1]; exact hkey
    · rw [if_neg h1]
      by_cases h2 : ret = .done
      · rw [if_pos h2]
        split
        · exact hkey
        · exact hkey
      · rw [if_neg h2]
        split
        · exact hkey
        · split
          · rw [ih]; exact hkey
          · exact hkey

private theorem copy_consumed {J : RsJob} (B fuel : Nat) : ∀ (n : Nat) (s : PatchR J) (w : Bytes),
    (rsCopy (PatchR.read B fuel) B n s w).1.consumed ++ (rsCopy (PatchR.read B fuel) B n s w).1.below = s.consumed ++ s.below := by
  intro n
  induction n with
  | zero => intro s w; rfl
  | succ n ih =>
    intro s w
    unfold rsCopy
    have hr : (PatchR.read B fuel s B).1.consumed ++ (PatchR.read B fuel s B).1.below = s.consumed ++ s.below := by
      unfold PatchR.read
      split
      · rfl
      · exact loop_consumed B B fuel s [] false
    cases hq : PatchR.read B fuel s B with
    | mk s' q =>
      rw [hq] at hr
      cases q with
      | error e => exact hr
      | ok t =>
        simp only
        by_cases ht : t = []
        · rw [if_pos ht]; exact hr
        · rw [if_neg ht, ih]; exact hr

private theorem finish_cases (crc : Nat → Bytes → Bytes) (baseSz patchSz : Nat) (base result consumed expBase expPatch expRes : Bytes) (hardLinked v112 failed : Bool) (r : Res Unit) (f : Bytes)
    (h : patchFinish crc baseSz patchSz base result consumed expBase expPatch expRes hardLinked v112 failed = (r, f)) :
    (r = .ok () → crc expRes.length f = expRes ∨ (hardLinked = true ∧ f = base ∧ crc baseSz base = expRes)) ∧
    (f = base ∨ ((v112 = true ∨ crc baseSz base = expBase) ∧ failed = false ∧ crc patchSz consumed = expPatch)) ∧
    (v112 = false → crc baseSz base ≠ expBase → f = base ∧ (r = .ok () → hardLinked = true ∧ crc baseSz base = expRes)) := by
  unfold patchFinish at h
  simp only at h
  by_cases hbad : (!v112 && decide (crc baseSz base ≠ expBase)) = true
  · have hb : v112 = false ∧ crc baseSz base ≠ expBase := by simpa using hbad
    rw [hbad] at h
    simp only [true_and, Bool.true_eq_false, false_and, if_false] at h
    by_cases hh : hardLinked = false
    · rw [if_pos hh] at h; cases h; exact ⟨fun h => (by cases h), Or.inl rfl, fun _ _ => ⟨rfl, fun h => (by cases h)⟩⟩
    · rw [if_neg hh] at h
      by_cases hp : crc patchSz consumed ≠ expPatch
      · rw [if_pos hp] at h; cases h; exact ⟨fun h => (by cases h), Or.inl rfl, fun _ _ => ⟨rfl, fun h => (by cases h)⟩⟩
      · rw [if_neg hp] at h
        by_cases hq : crc baseSz base ≠ expRes
        · rw [if_pos hq] at h; cases h; exact ⟨fun h => (by cases h), Or.inl rfl, fun _ _ => ⟨rfl, fun h => (by cases h)⟩⟩
        · rw [if_neg hq] at h; cases h
          have hq : crc baseSz base = expRes := Classical.not_not.mp hq
          have hh : hardLinked = true := by simpa using hh
          exact ⟨fun _ => Or.inr ⟨hh, rfl, hq⟩, Or.inl rfl, fun _ _ => ⟨rfl, fun _ => ⟨hh, hq⟩⟩⟩
  · have hbad : (!v112 && decide (crc baseSz base ≠ expBase)) = false := by simpa using hbad
    have hb : v112 = true ∨ crc baseSz base = expBase := by
      cases v112 with
      | true => exact Or.inl rfl
      | false => exact Or.inr (by simpa using hbad)
    have hb' : v112 = false → ¬ crc baseSz base ≠ expBase := fun h h' => by
      rcases hb with hb | hb
      · rw [h] at hb; cases hb
      · exact h' hb
    rw [hbad] at h
    simp only [Bool.false_eq_true, false_and, if_false, true_and, if_true] at h
    by_cases hf : failed = true
    · rw [if_pos hf] at h; cases h; exact ⟨fun h => (by cases h), Or.inl rfl, fun h1 h2 => absurd h2 (hb' h1)⟩
    · rw [if_neg hf] at h
      by_cases hp : crc patchSz consumed ≠ expPatch
      · rw [if_pos hp] at h; cases h; exact ⟨fun h => (by cases h), Or.inl rfl, fun h1 h2 => absurd h2 (hb' h1)⟩
      · rw [if_neg hp] at h
        have hall : f = base ∨ ((v112 = true ∨ crc baseSz base = expBase) ∧ failed = false ∧ crc patchSz consumed = expPatch) := Or.inr ⟨hb, by simpa using hf, Classical.not_not.mp hp⟩
        by_cases hq : crc expRes.length result ≠ expRes
        · rw [if_pos hq] at h; cases h; exact ⟨fun h => (by cases h), hall, fun h1 h2 => absurd h2 (hb' h1)⟩
        · rw [if_neg hq] at h; cases h
          exact ⟨fun _ => Or.inl (Classical.not_not.mp hq), hall, fun h1 h2 => absurd h2 (hb' h1)⟩

/-- **C74**: whatever librsync, the delta and the file in place are: the patch is reported successful only if the CRC of the file is then the recorded one; the file is changed only if it had the recorded CRC
(not looked at for archives of format 11.2) and if what has been read of the delta has its CRC too; a file that is not the expected one is left as it is, and accepted only if it is hard linked and already has the CRC of the result. -/
theorem C74_checked (P : PatchLib) (B fuel : Nat) (crc : Nat → Bytes → Bytes) (baseSz patchSz : Nat) (base d expBase expPatch expRes : Bytes) (hardLinked v112 : Bool) (r : Res Unit) (f : Bytes)
    (h : makeDeltaPatch P B fuel crc baseSz patchSz base d expBase expPatch expRes hardLinked v112 = (r, f)) :
    (r = .ok () → crc expRes.length f = expRes ∨ (hardLinked = true ∧ f = base ∧ crc baseSz base = expRes)) ∧
    (f ≠ base → (v112 = true ∨ crc baseSz base = expBase) ∧ ∃ d', d' <+: d ∧ crc patchSz d' = expPatch) ∧
    (v112 = false → crc baseSz base ≠ expBase → f = base ∧ (r = .ok () → hardLinked = true ∧ crc baseSz base = expRes)) := by
  unfold makeDeltaPatch at h
  have hcons := copy_consumed (J := P.job base) B fuel fuel (PatchR.start (P.job base) d) []
  simp only [PatchR.start, List.nil_append] at hcons
  cases hc : rsCopy (PatchR.read B fuel) B fuel (PatchR.start (P.job base) d) [] with
  | mk s q =>
  obtain ⟨result, q⟩ := q
  simp only [PatchR.start] at hc
  rw [hc] at hcons
  simp only [PatchR.start, hc] at h
  cases q with
  | ok u =>
    obtain ⟨a, b, c⟩ := finish_cases _ _ _ _ _ _ _ _ _ _ _ _ _ _ h
    refine ⟨a, fun hf => ?_, c⟩
    rcases b with b | ⟨b1, _, b3⟩
    · exact absurd b hf
    · exact ⟨b1, s.consumed, ⟨s.below, hcons⟩, b3⟩
  | error e =>
    simp only at h
    by_cases he : e = .bug ∨ hardLinked = false
    · rw [if_pos he] at h
      cases h
      exact ⟨fun h => (by cases h), fun hf => absurd rfl hf, fun _ _ => ⟨rfl, fun h => (by cases h)⟩⟩
    · rw [if_neg he] at h
      obtain ⟨a, b, c⟩ := finish_cases _ _ _ _ _ _ _ _ _ _ _ _ _ _ h
      refine ⟨a, fun hf => ?_, c⟩
      rcases b with b | ⟨b1, b2, _⟩
      · exact absurd b hf
      · cases b2

/-- **C74**, partial: applied again, through another hard link, to a file it has already patched, a delta changes nothing and is accepted, provided librsync goes through it to its end.  Missing: it often cannot,
the delta being made for another content (C74_hard_link_counterexample). -/
theorem C74_hard_link_partial (P : PatchLib) (d n z : Bytes) (hP : (P.job n).Gives d z) (B : Nat) (hB : 0 < B) (fuel : Nat) (hf : d.length + z.length < fuel) (crc : Nat → Bytes → Bytes) (baseSz patchSz : Nat) (expBase : Bytes)
    (hne : crc baseSz n ≠ expBase) : makeDeltaPatch P B fuel crc baseSz patchSz n d expBase (crc patchSz d) (crc baseSz n) true false = (.ok (), n) := by
  obtain ⟨s, e1, e2⟩ := patch_copy (P.job n) d z hP B hB fuel hf
  unfold makeDeltaPatch
  rw [e1]
  simp only [e2]
  unfold patchFinish
  simp [hne]

/-- **C74**: from end to end.  A content `b` is saved with its signature; the signature is loaded again and the delta of a content `n` computed and saved, with the CRC of the file; the delta applied to a file of
content `b` gives `n`. -/
theorem C74_round_trip {S : Type} (sign : RsJob) (load : LoadJob S) (delta : S → RsJob) (patch : PatchLib) (sigOf : Bytes → Bytes) (deltaOf : Bytes → Bytes → Bytes) (sumOf : Bytes → S)
    (law : RsyncLaw S sign load delta patch sigOf deltaOf sumOf) (b n : Bytes) (B : Nat) (hB : 0 < B) (fuel : Nat)
    (hf : 2 * (b.length + (sigOf b).length) + 2 * (n.length + (deltaOf b n).length) + 1 < fuel) (crc : Nat → Bytes → Bytes) (baseSz patchSz resSz : Nat) (hres : ∀ z, (crc resSz z).length = resSz) (hardLinked : Bool) :
    ∃ (s s' : SignR sign) (v : S) (t : DeltaR (delta v) Bytes) (d : Bytes),
      rsCopy (SignR.read B fuel) B fuel (SignR.start sign b) [] = (s, b, .ok ()) ∧ s.finish B fuel = (s', .ok ()) ∧
      loadSig load B fuel s'.sig = .ok v ∧
      rsCopy (DeltaR.read plainRd B fuel) B fuel ⟨n, (delta v).init, [], []⟩ [] = (t, d, .ok ()) ∧
      makeDeltaPatch patch B fuel crc baseSz patchSz b d (crc baseSz b) (crc patchSz d) (crc resSz t.crcIn) hardLinked false = (.ok (), n) := by
  obtain ⟨rep, hr0, hstep⟩ := law.sign_ok b
  obtain ⟨s, e1, ⟨c, h1, h2, h3, h4, h5⟩, -⟩ := copy_inv (SignR.read (J := sign) B fuel) B hB (SInv b (sigOf b) B rep) (fun _ => True)
    (fun s r hi => by
      obtain ⟨s', a, b⟩ := read_inv hB rep hstep fuel (by omega) s r hi B (Or.inl hB)
      exact ⟨s', a, b, fun _ => trivial⟩) fuel (SignR.start sign b) b [] ⟨[], rfl, rfl, hr0, by simp [SignR.start], by simp [SignR.start]⟩ (by omega)
  rw [List.append_nil] at h1
  rw [h1] at h3
  obtain ⟨s', e2, e3⟩ := eof_inv hB rep hstep fuel { s with sig := s.sig ++ s.wb, wb := [] } h3 h4 (by simp only; omega)
  have hl := C74_load load (sigOf b) (sumOf b) (law.load_ok b) B hB fuel (by omega)
  obtain ⟨rep', hr0', hstep'⟩ := law.delta_ok b n
  obtain ⟨t, e4, -, e5⟩ := copy_inv (DeltaR.read (J := delta (sumOf b)) plainRd B fuel) B hB (DI n (deltaOf b n) B rep' (fun b r => b = r) True) (fun t => t.crcIn = n)
    (fun s r hi => delta_read hB rep' hstep' plainRd _ True (fun b r n h _ => ⟨r.drop n, by rw [h]; rfl, rfl⟩) (Or.inl trivial) fuel (by omega) s r B hi hB) fuel ⟨n, (delta (sumOf b)).init, [], []⟩ (deltaOf b n) []
    ⟨[], [], n, ⟨rfl, by simp, hr0', by simp, by simp, by simp, Or.inl trivial⟩, by simp⟩ (by omega)
  refine ⟨s, s', sumOf b, t, deltaOf b n, (by simpa using e1), e2, (by rw [e3]; exact hl), (by simpa using e4), ?_⟩
  rw [e5]
  exact C74_apply patch b (deltaOf b n) n (law.patch_ok b n) B hB fuel (by omega) crc baseSz patchSz resSz (hres n) hardLinked false

/-! ### toy libraries, and where it fails -/

private def toyStep (st : Bytes × Bool) (a : Bytes) (room : Nat) (eof : Bool) : (Bytes × Bool) × Nat × Bytes × RsRet :=
  if st.2 = true ∧ a ≠ [] then (st, 0, [], .err)
  else if st.1 ≠ [] then ((st.1.drop room, st.2), 0, st.1.take room, .blocked)
  else ((st.1, st.2 || eof), min a.length room, a.take room, if eof then .done else .blocked)
/-- a job that puts out `H`, then copies its input; it refuses input once it has been told the end -/
private def toyRs (H : Bytes) : RsJob := ⟨Bytes × Bool, (H, false), toyStep⟩

private theorem toyRs_gives (H x : Bytes) : (toyRs H).Gives x (H ++ x) := by
  refine ⟨fun (st : Bytes × Bool) c p => p ++ st.1 = H ++ c ∧ (st.1 ≠ [] → c = []) ∧ (st.2 = true → c = x), ⟨(by simp [toyRs]), fun _ => rfl, fun h => (by cases h)⟩, ?_⟩
  suffices hmain : ∀ (h : Bytes) (fin : Bool) (c p : Bytes), (p ++ h = H ++ c ∧ (h ≠ [] → c = []) ∧ (fin = true → c = x)) → c <+: x → p <+: H ++ x → ∀ a room, c ++ a <+: x → (a = [] → c = x) →
      ∀ (st' : Bytes × Bool) k out ret, toyStep (h, fin) a room a.isEmpty = (st', k, out, ret) →
        k ≤ a.length ∧ out.length ≤ room ∧ ret ≠ .err ∧ ((p ++ out) ++ st'.1 = H ++ (c ++ a.take k) ∧ (st'.1 ≠ [] → c ++ a.take k = []) ∧ (st'.2 = true → c ++ a.take k = x)) ∧ p ++ out <+: H ++ x ∧
        (ret = .done → c ++ a.take k = x ∧ p ++ out = H ++ x) ∧
        (0 < room → a ≠ [] → 0 < k ∨ out ≠ []) ∧ (0 < room → a = [] → out ≠ [] ∨ ret = .done) from fun st => hmain st.1 st.2
  rintro h fin c p ⟨h1, h2, h3⟩ hc hp a room hca hend st' k out ret hs
  have hfin : ¬ (fin = true ∧ a ≠ []) := by
    rintro ⟨hf, ha⟩
    rw [h3 hf] at hca
    have := hca.length_le
    rw [List.length_append] at this
    exact ha (List.length_eq_zero_iff.mp (by omega))
  unfold toyStep at hs
  simp only at hs
  rw [if_neg hfin] at hs
  have hpre : p ++ h <+: H ++ x := by rw [h1]; exact (List.prefix_append_right_inj H).mpr hc
  by_cases hh : h = []
  · rw [if_neg (by simpa using hh)] at hs
    subst hh
    simp only [Prod.mk.injEq] at hs
    obtain ⟨rfl, rfl, rfl, rfl⟩ := hs
    have htk : a.take (min a.length room) = a.take room := by
      rcases Nat.le_total a.length room with h | h
      · rw [Nat.min_eq_left h, List.take_of_length_le (Nat.le_refl _), List.take_of_length_le h]
      · rw [Nat.min_eq_right h]
    rw [htk]
    simp only [List.append_nil] at h1
    refine ⟨Nat.min_le_left _ _, (by simp; omega), (by split <;> simp), ⟨(by simp [h1]), (fun h => absurd rfl h), ?_⟩, ?_, ?_, ?_, ?_⟩
    · intro hf
      rcases Bool.or_eq_true_iff.mp hf with hf | hf
      · have ha : a = [] := Classical.byContradiction fun h => hfin ⟨hf, h⟩
        simp [ha, h3 hf]
      · have ha : a = [] := by simpa using hf
        simp [ha, hend ha]
    · rw [h1, List.append_assoc]
      exact (List.prefix_append_right_inj H).mpr (((List.prefix_append_right_inj c).mpr (List.take_prefix room a)).trans hca)
    · intro hd
      have ha : a = [] := by
        by_cases ha : a.isEmpty = true
        · simpa using ha
        · rw [if_neg ha] at hd; cases hd
      simp [ha, hend ha, h1]
    · intro hr ha
      have := List.length_pos_iff.mpr ha
      exact Or.inl (by omega)
    · intro _ ha; exact Or.inr (by simp [ha])
  · rw [if_pos hh] at hs
    simp only [Prod.mk.injEq] at hs
    obtain ⟨rfl, rfl, rfl, rfl⟩ := hs
    have hout : 0 < room → h.take room ≠ [] := fun hr h' => by
      rcases List.take_eq_nil_iff.mp h' with h' | h'
      · omega
      · exact hh h'
    refine ⟨Nat.zero_le _, (by simp; omega), (by simp), ⟨(by simp [h1]), (fun _ => by simp [h2 hh]), (fun hf => by simp [h3 hf])⟩, ?_, (fun h => by cases h), (fun hr _ => Or.inr (hout hr)), (fun hr _ => Or.inl (hout hr))⟩
    exact ((List.prefix_append_right_inj p).mpr (List.take_prefix room h)).trans hpre

/-- loading by the toy library -/
private def toyLoad : LoadJob Bytes where
  St := Bytes
  init := []
  step st a _ eof := (st ++ a, a.length, [], if eof then .done else .blocked)
  sumset st := st
private theorem toyLoad_loads (s : Bytes) : toyLoad.Loads s s := by
  refine ⟨fun st c => st = c, rfl, ?_⟩
  rintro st c rfl hc a room hca hend hr st' k out ret hs
  simp only [toyLoad, Prod.mk.injEq] at hs
  obtain ⟨rfl, rfl, rfl, rfl⟩ := hs
  refine ⟨Nat.le_refl _, rfl, (by split <;> simp), (by rw [List.take_of_length_le (Nat.le_refl _)]), (fun h => List.length_pos_iff.mpr h), fun h => ⟨(by simp [h]), (by simp [h, hend h, toyLoad])⟩⟩
/-- the patch job of the toy library: it looks at the first byte of the file in place, which must be `w` -/
private def toyPatch (w : UInt8) : PatchLib where
  St := Bytes × Bool
  init := ([], false)
  step cb st a room eof := if cb 0 1 = ([w], true) then toyStep st a room eof else (st, 0, [], .err)
private theorem toyPatch_gives (w : UInt8) (b d : Bytes) : ((toyPatch w).job (w :: b)).Gives d d := by
  have h : (toyPatch w).job (w :: b) = toyRs [] := by
    unfold PatchLib.job toyPatch
    simp only [show patchCallback (w :: b) 0 1 = ([w], true) from rfl, if_true]
    rfl
  rw [h]
  exact toyRs_gives [] d
/-- the patch job of a library that stores the content itself as a delta -/
private def toyPatch0 : PatchLib := ⟨Bytes × Bool, ([], false), fun _ => toyStep⟩

/-- the requirements are met by a library: signature and delta are the content itself (with a header of one byte for the signature) -/
example : RsyncLaw Bytes (toyRs [5]) toyLoad (fun _ => toyRs []) toyPatch0 (fun x => 5 :: x) (fun _ n => n) (fun x => 5 :: x) where
  sign_ok x := toyRs_gives [5] x
  load_ok x := toyLoad_loads (5 :: x)
  delta_ok _ n := toyRs_gives [] n
  patch_ok _ n := toyRs_gives [] n

/-- a job that copies its input and always takes some -/
private def toyCopy : RsJob := ⟨Unit, (), fun st a room eof => (st, min a.length room, a.take room, if eof then .done else .blocked)⟩
private theorem toyCopy_greedy : toyCopy.Greedy := by
  intro st a room st' k out ret ha hr hs
  simp only [toyCopy, Prod.mk.injEq] at hs
  obtain ⟨-, rfl, -, -⟩ := hs
  have := List.length_pos_iff.mpr ha
  omega
private theorem toyCopy_gives (x : Bytes) : toyCopy.Gives x x := by
  refine ⟨fun _ c p => p = c, rfl, ?_⟩
  rintro st c p rfl hc hp a room hca hend st' k out ret hs
  simp only [toyCopy, Prod.mk.injEq] at hs
  obtain ⟨-, rfl, rfl, rfl⟩ := hs
  have htk : a.take (min a.length room) = a.take room := by
    rcases Nat.le_total a.length room with h | h
    · rw [Nat.min_eq_left h, List.take_of_length_le (Nat.le_refl _), List.take_of_length_le h]
    · rw [Nat.min_eq_right h]
  rw [htk]
  refine ⟨Nat.min_le_left _ _, (by simp; omega), (by split <;> simp), rfl, ((List.prefix_append_right_inj p).mpr (List.take_prefix room a)).trans hca, ?_, ?_, ?_⟩
  · intro hd
    have ha : a = [] := by
      by_cases ha : a.isEmpty = true
      · simpa using ha
      · rw [if_neg ha] at hd; cases hd
    simp [ha, hend ha]
  · intro hr ha
    have := List.length_pos_iff.mpr ha
    exact Or.inl (by omega)
  · intro _ ha; exact Or.inr (by simp [ha])
example : ∃ (s : DeltaR toyCopy (SignR (toyRs [5]))) (t : SignR (toyRs [5])), rsReads (DeltaR.read (SignR.read 2 100) 2 100) ⟨SignR.start (toyRs [5]) [1, 2, 3], toyCopy.init, [], []⟩ ([1, 1] ++ [4]) =
    (s, .ok [[1], [2], [3]]) ∧ s.crcIn = [1, 2, 3] ∧ s.below.finish 2 100 = (t, .ok ()) ∧ t.sig = [5, 1, 2, 3] :=
  C74_signature_and_delta_partial (toyRs [5]) toyCopy [1, 2, 3] [5, 1, 2, 3] [1, 2, 3] (toyRs_gives [5] [1, 2, 3]) (toyCopy_gives _) toyCopy_greedy 2 2 (by decide) (by decide) 100 (by decide) [1, 1] 4 (by decide) (by decide) (by decide)

/-- **C74** counterexample: while a delta and a new signature are computed together, a call in which the library takes no input makes the delta object ask for zero byte; the signature object below takes that
for the end of the file, and tells it to the library; here the reading then fails although both jobs meet the requirements. -/
theorem C74_empty_read_counterexample : (∀ x, (toyRs []).Gives x x) ∧ (∀ x, (toyRs [7]).Gives x (7 :: x)) ∧
    (rsReads (DeltaR.read (SignR.read 1 100) 1 100) (⟨SignR.start (toyRs []) [1, 2, 3], (toyRs [7]).init, [], []⟩ : DeltaR (toyRs [7]) (SignR (toyRs []))) [1, 1, 1, 1, 1]).2 = .error .range := by
  exact ⟨fun x => toyRs_gives [] x, fun x => toyRs_gives [7] x, rfl⟩

/-- **C74** counterexample: a second hard link to a file the patch has already been applied to.  As expected the delta cannot be applied again (the content has changed), but its CRC is computed on what has been
read of it before the failure: the restoration reports a corrupted archive. -/
theorem C74_hard_link_counterexample (B fuel : Nat) (hB : 0 < B) (n : Bytes) (hn : n = List.replicate (B + 1) 0) :
    ((toyPatch 7).job [7]).Gives n n ∧
    (2 * n.length < fuel → makeDeltaPatch (toyPatch 7) B fuel (fun _ x => x) 0 0 [7] n [7] n n true false = (.ok (), n)) ∧
    makeDeltaPatch (toyPatch 7) B (fuel + 1) (fun _ x => x) 0 0 n n [7] n n true false = (.error .range, n) := by
  refine ⟨toyPatch_gives 7 [] n, fun hf => ?_, ?_⟩
  · have hg := toyPatch_gives 7 [] n
    obtain ⟨s, e1, e2⟩ := patch_copy _ n n hg B hB fuel (by omega)
    unfold makeDeltaPatch
    rw [e1]
    simp only [e2]
    unfold patchFinish
    simp
  · have hrd : PatchR.read B (fuel + 1) (PatchR.start ((toyPatch 7).job n) n) B = (⟨n.drop B, ([], false), n.take B, false, n.take B⟩, .error .range) := by
      unfold PatchR.read PatchR.start
      rw [if_neg (by simp)]
      unfold PatchR.loop RsJob.forward PatchLib.job
      have hcb : patchCallback n 0 1 = ([0], true) := by subst hn; simp [patchCallback, List.replicate_succ]
      simp [toyPatch, hcb]
    unfold makeDeltaPatch rsCopy
    rw [hrd]
    simp only
    rw [if_neg (by simp)]
    unfold patchFinish
    have h1 : n ≠ [7] := by
      subst hn
      intro h
      have := congrArg List.length h
      simp at this
      omega
    have h2 : n.take B ≠ n := by
      subst hn
      intro h
      have := congrArg List.length h
      simp at this
    simp [h1, h2]

/-- **C74** counterexample: the CRC of the result is compared after the file in place has been overwritten: when it differs the original content is lost. -/
theorem C74_result_counterexample : ((toyPatch 7).job [7]).Gives [8] [8] ∧
    makeDeltaPatch (toyPatch 7) 10 10 (fun _ x => x) 0 0 [7] [8] [7] [8] [9] false false = (.error .range, [8]) := by
  exact ⟨toyPatch_gives 7 [] [8], rfl⟩

end Dar
