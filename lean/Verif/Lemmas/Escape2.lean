import Verif.Lemmas.Escape
/-
Lemmas on the escape layer: reading and skipping.
-/
namespace Dar

variable [EscByte]

theorem char2type_type2char (t : SeqT) : char2type (type2char t) = .ok t := by cases t <;> rfl

theorem type2char_ne (t : SeqT) (h : t ≠ .notASequence) : type2char t ≠ 0x58 := by
  cases t <;> first | exact absurd rfl h | decide

/-! ### Shape of the on-disk stream -/

theorem encStream_nil (d : Bytes) : encStream d [] = escData d := by simp [encStream, encMarks]

theorem encStream_mark (t : SeqT) (d : Bytes) (ms : List (SeqT × Bytes)) :
    encStream [] ((t, d) :: ms) = escPattern ++ type2char t :: encStream d ms := by
  simp [encStream, encMarks, escData_nil, escSeq]

theorem encStream_pat (d : Bytes) (ms : List (SeqT × Bytes)) :
    encStream (escPattern ++ d) ms = escPattern ++ 0x58 :: encStream d ms := by
  simp [encStream, escData_pattern, escSeq, type2char]

theorem encStream_cons (b : UInt8) (d : Bytes) (ms : List (SeqT × Bytes)) (h : ¬ escPattern <+: b :: d) :
    encStream (b :: d) ms = b :: encStream d ms := by
  simp [encStream, escData_cons _ _ h]

/-- The four ways a stream may begin. -/
theorem encStream_cases (d : Bytes) (ms : List (SeqT × Bytes)) :
    (d = [] ∧ ms = []) ∨ (∃ t d' ms', d = [] ∧ ms = (t, d') :: ms') ∨
    (∃ d', d = escPattern ++ d') ∨ (∃ b d', d = b :: d' ∧ ¬ escPattern <+: b :: d') := by
  cases d with
  | nil =>
      cases ms with
      | nil => simp
      | cons m ms => obtain ⟨t, d'⟩ := m; right; left; exact ⟨t, d', ms, rfl, rfl⟩
  | cons b d =>
      by_cases h : escPattern <+: b :: d
      · obtain ⟨t, ht⟩ := h; right; right; left; exact ⟨t, ht.symm⟩
      · right; right; right; exact ⟨b, d, rfl, h⟩

theorem compat_of_append_pattern (a b s : Bytes) (h : a ++ b = escPattern ++ s) : Compat a := by
  rcases List.prefix_or_prefix_of_prefix (List.prefix_append a b) (h ▸ List.prefix_append escPattern s) with h1 | h1
  · exact Or.inl h1
  · exact Or.inr h1

/-- A first byte other than 0xAD is data. -/
theorem encStream_head (d : Bytes) (ms : List (SeqT × Bytes)) (b : UInt8) (s : Bytes)
    (h : encStream d ms = b :: s) (hb : b ≠ EscByte.b) : ∃ d', d = b :: d' ∧ encStream d' ms = s := by
  rcases encStream_cases d ms with ⟨h1, h2⟩ | ⟨t, d', ms', h1, h2⟩ | ⟨d', h1⟩ | ⟨c, d', h1, h2⟩
  · subst h1; subst h2; simp [encStream, escData_nil, encMarks] at h
  · subst h1; subst h2
    rw [encStream_mark] at h
    simp [escPattern] at h; exact absurd h.1.symm hb
  · subst h1; rw [encStream_pat] at h
    simp [escPattern] at h; exact absurd h.1.symm hb
  · subst h1; rw [encStream_cons _ _ _ h2] at h
    injection h with e1 e2
    subst e1; exact ⟨d', rfl, e2⟩

/-- A stream starting with the pattern starts with protected data or with a mark. -/
theorem encStream_pattern (d : Bytes) (ms : List (SeqT × Bytes)) (c : UInt8) (s : Bytes)
    (h : encStream d ms = escPattern ++ c :: s) :
    (∃ d', d = escPattern ++ d' ∧ c = 0x58 ∧ encStream d' ms = s) ∨
    (∃ t d' ms', d = [] ∧ ms = (t, d') :: ms' ∧ c = type2char t ∧ encStream d' ms' = s) := by
  rcases encStream_cases d ms with ⟨h1, h2⟩ | ⟨t, d', ms', h1, h2⟩ | ⟨d', h1⟩ | ⟨c', d', h1, h2⟩
  · subst h1; subst h2; simp [encStream, escData_nil, encMarks, escPattern] at h
  · subst h1; subst h2
    rw [encStream_mark] at h
    have := List.append_cancel_left h
    injection this with e1 e2
    right; exact ⟨t, d', ms', rfl, rfl, e1.symm, e2⟩
  · subst h1; rw [encStream_pat] at h
    have := List.append_cancel_left h
    injection this with e1 e2
    left; exact ⟨d', rfl, e1.symm, e2⟩
  · exfalso
    subst h1; rw [encStream_cons _ _ _ h2] at h
    simp only [escPattern, List.cons_append, List.nil_append] at h
    injection h with e1 e2
    obtain ⟨d1, r1, e3⟩ := encStream_head _ _ _ _ e2 EscByte.ok.1.symm
    obtain ⟨d2, r2, e4⟩ := encStream_head _ _ _ _ e3 EscByte.ok.2.1.symm
    obtain ⟨d3, r3, e5⟩ := encStream_head _ _ _ _ e4 EscByte.ok.2.2.1.symm
    obtain ⟨d4, r4, e6⟩ := encStream_head _ _ _ _ e5 EscByte.ok.2.2.2.symm
    apply h2
    subst e1; subst r1; subst r2; subst r3; subst r4
    exact ⟨d4, rfl⟩

/-- What precedes the first comparable position is data. -/
theorem encStream_firstCompat (a b d : Bytes) (ms : List (SeqT × Bytes)) (h : a ++ b = encStream d ms) :
    ∃ d', d = a.take (firstCompat a) ++ d' ∧ a.drop (firstCompat a) ++ b = encStream d' ms := by
  induction a generalizing d with
  | nil => exact ⟨d, by simp [firstCompat], by simpa [firstCompat] using h⟩
  | cons x a ih =>
      simp only [firstCompat]; split
      · exact ⟨d, by simp, by simpa using h⟩
      · rename_i hn
        rcases encStream_cases d ms with ⟨h1, h2⟩ | ⟨t, d', ms', h1, h2⟩ | ⟨d', h1⟩ | ⟨c, d', h1, h2⟩
        · subst h1; subst h2; simp [encStream, escData_nil, encMarks] at h
        · subst h1; subst h2
          rw [encStream_mark] at h
          exact absurd (compat_of_append_pattern _ _ _ h) hn
        · subst h1; rw [encStream_pat] at h
          exact absurd (compat_of_append_pattern _ _ _ h) hn
        · subst h1; rw [encStream_cons _ _ _ h2] at h
          injection h with e1 e2
          obtain ⟨d'', e3, e4⟩ := ih d' e2
          refine ⟨d'', ?_, ?_⟩
          · rw [e3, e1]; simp
          · simpa using e4

theorem encStream_short (d : Bytes) (ms : List (SeqT × Bytes)) (h : (encStream d ms).length < 6) :
    ms = [] ∧ encStream d ms = d := by
  induction d with
  | nil =>
      cases ms with
      | nil => simp [encStream, escData_nil, encMarks]
      | cons m ms => obtain ⟨t, d'⟩ := m; rw [encStream_mark] at h; simp [escPattern] at h; omega
  | cons b d ih =>
      by_cases hp : escPattern <+: b :: d
      · obtain ⟨t, ht⟩ := hp
        rw [← ht, encStream_pat] at h; simp [escPattern] at h; omega
      · rw [encStream_cons _ _ _ hp] at h ⊢
        have := ih (by simp at h; omega)
        exact ⟨this.1, by rw [this.2]⟩

theorem firstCompat_of_compat {a : Bytes} (h : Compat a) : firstCompat a = 0 := by
  cases a with
  | nil => rfl
  | cons b t => rw [firstCompat, if_pos h]

theorem getD5_pattern (c : UInt8) (s : Bytes) : (escPattern ++ c :: s).getD 5 0 = c := by
  simp [escPattern]

theorem compat_six {t : Bytes} (h : Compat t) (hl : 6 ≤ t.length) :
    ∃ c s, t = escPattern ++ c :: s := by
  obtain ⟨r, hr⟩ := compat_full h (by omega)
  cases r with
  | nil => subst hr; simp [escPattern] at hl
  | cons c s => exact ⟨c, s, hr⟩

theorem removeMarks_spec (a b d : Bytes) (ms : List (SeqT × Bytes)) (hr : RealMarks ms)
    (h : a ++ b = encStream d ms) :
    ∃ pre t d', removeMarks a = .ok (pre, t) ∧ Compat t ∧ d = pre ++ d' ∧ t ++ b = encStream d' ms ∧
      (6 ≤ t.length → d' = [] ∧ ms ≠ []) ∧ pre.length + t.length ≤ a.length ∧
      (pre = [] → t = a) ∧ (Compat a → pre ≠ [] → pre.length + t.length < a.length) := by
  induction hn : a.length using Nat.strong_induction_on generalizing a d with
  | _ n ih =>
      rw [removeMarks]
      simp only [trouveAmorce_eq]
      obtain ⟨d1, e1, e2⟩ := encStream_firstCompat a b d ms h
      have hle := firstCompat_le a
      have hcomp := firstCompat_compat a
      have h0 : Compat a → firstCompat a = 0 := firstCompat_of_compat
      generalize firstCompat a = k at *
      split
      · rename_i h6
        obtain ⟨c, s, hcs⟩ := compat_six hcomp h6
        rw [hcs, getD5_pattern]
        rw [hcs] at e2
        have e2' : encStream d1 ms = escPattern ++ c :: (s ++ b) := by rw [← e2]; simp
        rcases encStream_pattern _ _ _ _ e2' with ⟨d', x1, x2, x3⟩ | ⟨t, d', ms', x1, x2, x3, x4⟩
        · subst x2
          have : char2type 0x58 = .ok .notASequence := rfl
          rw [this]
          simp only [if_true]
          have hd6 : (escPattern ++ 0x58 :: s).drop 6 = s := by simp [escPattern]
          have ht5 : (escPattern ++ 0x58 :: s).take 5 = escPattern := by simp [escPattern]
          rw [hd6, ht5]
          have hln : k + (s.length + 6) = n := by
            have := congrArg List.length hcs
            simp [escPattern] at this; omega
          obtain ⟨pre, t, d'', y1, y2, y3, y4, y5, y6, y7, y8⟩ := ih s.length (by omega) s d' x3.symm rfl
          rw [y1]
          refine ⟨_, _, d'', rfl, y2, ?_, y4, y5, ?_, ?_, ?_⟩
          · rw [e1, x1, y3]; simp
          · simp [escPattern]; omega
          · intro hh; simp [escPattern] at hh
          · intro _ _; simp [escPattern]; omega
        · subst x3
          rw [char2type_type2char]
          have htr : t ≠ .notASequence := hr (t, d') (by rw [x2]; exact List.mem_cons_self)
          simp only
          rw [if_neg htr]
          refine ⟨_, _, d1, rfl, hcs ▸ hcomp, e1, ?_, ?_, ?_, ?_, ?_⟩
          · exact e2
          · intro _; exact ⟨x1, by rw [x2]; simp⟩
          · rw [← hcs]; simp; omega
          · intro hh
            rw [← hcs]
            have : k = 0 := by
              have := congrArg List.length hh
              simp at this
              rcases this with h | h
              · exact h
              · subst h; simp at h6
            simp [this]
          · intro hca hne
            rw [h0 hca] at hne; simp at hne
      · rename_i h6
        refine ⟨_, _, d1, rfl, hcomp, e1, e2, ?_, ?_, ?_, ?_⟩
        · intro hh; exact absurd hh h6
        · simp; omega
        · intro hh
          have : k = 0 ∨ a = [] := by
            have := congrArg List.length hh
            simp at this
            rcases this with h | h
            · left; exact h
            · right; exact h
          rcases this with h | h
          · simp [h]
          · subst h; simp
        · intro hca hne
          rw [h0 hca] at hne; simp at hne

/-! ### Representation -/

/-- The state `st` stands for the logical stream `(d, ms)`. -/
structure Rep (st : EscRd) (d : Bytes) (ms : List (SeqT × Bytes)) : Prop where
  escLe : st.esc ≤ st.buf.length
  compat : Compat (st.buf.drop st.esc)
  stream : ∃ d2, d = st.buf.take st.esc ++ d2 ∧ st.buf.drop st.esc ++ st.below = encStream d2 ms
  alloc : 0 < st.alloc
  eof : st.eof = true → st.below = [] ∨ (d = st.buf.take st.esc ∧ st.esc < st.buf.length)
  real : RealMarks ms

def EscRd.meas (st : EscRd) : Nat := 2 * st.below.length + st.buf.length

theorem tailOk_suffix {d1 d2 : Bytes} {ms : List (SeqT × Bytes)} (h : TailOk (d1 ++ d2) ms) :
    TailOk d2 ms := by
  cases ms with
  | nil =>
      rintro ⟨k, h1, h2, h3⟩
      exact h ⟨k, h1, h2, h3.trans (List.suffix_append d1 d2)⟩
  | cons m ms => exact h

theorem rep_open (d : Bytes) (ms : List (SeqT × Bytes)) (hr : RealMarks ms) :
    Rep (escOpen (encStream d ms)) d ms :=
  ⟨by simp [escOpen], compat_nil, ⟨d, by simp [escOpen], by simp [escOpen]⟩, by simp [escOpen],
   by simp [escOpen], hr⟩

/-- A short comparable string at the very end is data and at most an incomplete pattern. -/
theorem tail_short (t d' : Bytes) (hc : Compat t)
    (hs : t = encStream d' []) (hl : t.length < 6) : d' = t ∧ t.length < 5 ∧ t <+: escPattern := by
  have hsh := encStream_short d' [] (by rw [← hs]; exact hl)
  rw [hsh.2] at hs
  subst hs
  by_cases h5 : 5 ≤ t.length
  · exfalso
    obtain ⟨r, hr⟩ := compat_full hc h5
    have h3 := hsh.2
    rw [hr, encStream_pat] at h3
    have := List.append_cancel_left h3
    have hl' := congrArg List.length this
    rw [encStream_nil] at hl'
    simp only [List.length_cons] at hl'
    have : r = [] := by
      have := congrArg List.length hr
      simp [escPattern] at this
      exact List.eq_nil_of_length_eq_zero (by omega)
    subst this; simp at hl'
  · refine ⟨rfl, by omega, ?_⟩
    rcases hc with hc | hc
    · exact hc
    · have := hc.length_le; simp [escPattern] at this; omega

theorem miniRead_spec (st : EscRd) (d : Bytes) (ms : List (SeqT × Bytes)) (h : Rep st d ms)
    (h0 : st.esc = 0) :
    (∃ st', miniRead st = .ok (true, st') ∧ Rep st' d ms ∧
       (st'.esc = 0 → d = [] ∧ ms ≠ [] ∧ 6 ≤ st'.buf.length) ∧
       (0 < st'.esc → st'.meas < st.meas) ∧ st'.meas ≤ st.meas ∧ st'.alloc = st.alloc ∧
       (6 ≤ (st'.buf.drop st'.esc).length → d = st'.buf.take st'.esc ∧ ms ≠ []) ∧
       (st.buf.length < 6 → st'.meas < st.meas) ∧ st'.eof = st.eof ∧
       (st'.buf.length < 6 → escPattern <+: d)) ∨
    (∃ st', miniRead st = .ok (false, st') ∧ Rep st' d ms ∧
       (st'.esc = 0 → st'.buf.length < 5 ∧ st'.buf <+: escPattern) ∧
       st'.below = [] ∧ ms = [] ∧ d = st'.buf ∧ st'.meas ≤ st.meas ∧ st'.alloc = st.alloc ∧
       (st.below = [] → st'.buf.length ≤ st.buf.length)) := by
  obtain ⟨hle, hcompat, ⟨d2, hd2, hs⟩, halloc, heof, hreal⟩ := h
  rw [h0] at hd2 hs hcompat
  simp only [List.take_zero, List.nil_append, List.drop_zero] at hd2 hs hcompat
  subst hd2
  rw [miniRead]
  by_cases hl : st.buf.length < 6
  · rw [if_pos hl]
    simp only [h0, List.drop_zero, List.take_zero, List.nil_append, Nat.zero_add]
    generalize hbuf : st.buf ++ st.below.take (6 - st.buf.length) = buf
    generalize hbelow : st.below.drop (6 - st.buf.length) = below
    have hsplit : buf ++ below = encStream d ms := by
      rw [← hs, ← hbuf, ← hbelow, List.append_assoc, List.take_append_drop]
    have hbl : buf.length = st.buf.length + min (6 - st.buf.length) st.below.length := by
      rw [← hbuf]; simp
    have hbl2 : below.length = st.below.length - (6 - st.buf.length) := by
      rw [← hbelow]; simp
    obtain ⟨pre, t, d', y1, y2, y3, y4, y5, y6, y7, y8⟩ := removeMarks_spec buf below d ms hreal hsplit
    rw [y1]
    simp only
    by_cases h6 : 6 ≤ buf.length
    · left
      rw [show decide (6 ≤ buf.length) = true by simpa using h6]
      refine ⟨_, rfl, ?_, ?_, ?_, ?_, rfl, ?_, ?_, by simp, ?_⟩
      · refine ⟨by simp, by simpa using y2, ⟨d', by simpa using y3, by simpa using y4⟩, halloc, ?_, hreal⟩
        intro he
        simp at he
        rcases heof he with h | ⟨hd, hlt⟩
        · left; simp; rw [← hbelow, h]; simp
        · right
          rw [h0] at hd; simp at hd
          subst hd
          have hp : pre = [] := by
            have := congrArg List.length y3
            exact List.eq_nil_of_length_eq_zero (by simp at this; omega)
          have := y7 hp
          subst hp; simp; rw [this]; omega
      · intro he
        simp at he
        have := y7 he
        have h7 := y5 (by rw [this]; exact h6)
        refine ⟨?_, h7.2, ?_⟩
        · rw [y3, he, h7.1]; rfl
        · simp [he, this]; exact h6
      · intro _; simp [EscRd.meas]; omega
      · simp [EscRd.meas]; omega
      · intro h7
        simp at h7
        have := y5 h7
        refine ⟨?_, this.2⟩
        rw [y3, this.1]; simp
      · intro _; simp [EscRd.meas]; omega
      · intro hlt
        simp at hlt
        by_cases hcb : Compat buf
        · obtain ⟨c, s, hcs⟩ := compat_six hcb h6
          have e2' : encStream d ms = escPattern ++ c :: (s ++ below) := by rw [← hsplit, hcs]; simp
          rcases encStream_pattern _ _ _ _ e2' with ⟨d', x1, x2, x3⟩ | ⟨t', d'', ms', x1, x2, x3, x4⟩
          · exact ⟨d', x1.symm⟩
          · exfalso
            have hp : pre = [] := by
              rw [x1] at y3
              have := congrArg List.length y3
              exact List.eq_nil_of_length_eq_zero (by simp at this; omega)
            have := y7 hp
            rw [this, hp] at hlt; simp at hlt; omega
        · exfalso
          have hb6 : buf.length = 6 := by omega
          have hk : 0 < firstCompat buf := by
            cases hbb : buf with
            | nil => rw [hbb] at hb6; simp at hb6
            | cons x l => rw [hbb] at hcb; simp [firstCompat, hcb]
          have hkl := firstCompat_le buf
          rw [removeMarks] at y1
          simp only [trouveAmorce_eq] at y1
          rw [dif_neg (by simp; omega)] at y1
          injection y1 with y1
          injection y1 with y1 y1'
          rw [← y1, ← y1'] at hlt
          simp at hlt; omega
    · right
      have hb0 : below = [] := by
        apply List.eq_nil_of_length_eq_zero; omega
      subst hb0
      have hsh := encStream_short d ms (by rw [← hsplit]; simp; omega)
      obtain ⟨hms, _⟩ := hsh
      subst hms
      obtain ⟨hd0, ht5, htp⟩ := tail_short t d' y2 (by simpa using y4) (by omega)
      rw [show decide (6 ≤ buf.length) = false by simpa using h6]
      refine ⟨_, rfl, ?_, ?_, rfl, rfl, by rw [y3, hd0], ?_, rfl, ?_⟩
      · exact ⟨by simp, by simpa using y2, ⟨d', by simpa using y3, by simpa using y4⟩, halloc, by simp, hreal⟩
      · intro h; simp at h; subst h; exact ⟨by simpa using ht5, by simpa using htp⟩
      · simp [EscRd.meas]; omega
      · intro hb; simp; rw [hb] at hbl; simp at hbl; omega
  · rw [if_neg hl, if_pos h0]
    left
    obtain ⟨c, s, hcs⟩ := compat_six hcompat (by omega)
    rw [hcs, getD5_pattern]
    have e2' : encStream d ms = escPattern ++ c :: (s ++ st.below) := by rw [← hs, hcs]; simp
    rcases encStream_pattern _ _ _ _ e2' with ⟨d', x1, x2, x3⟩ | ⟨t, d', ms', x1, x2, x3, x4⟩
    · subst x2
      have : char2type 0x58 = .ok .notASequence := rfl
      rw [this]; simp only [if_true]
      obtain ⟨pre, t, d', y1, y2, y3, y4, y5, y6, y7, y8⟩ := removeMarks_spec st.buf st.below d ms hreal hs
      have hpre : pre ≠ [] := by
        intro hp
        have ht := y7 hp
        have := y5 (by rw [ht]; omega)
        rw [y3, this.1, hp] at x1; simp [escPattern] at x1
      have hpl := y8 hcompat hpre
      have hpp : 0 < pre.length := List.length_pos_iff.mpr hpre
      rw [← hcs, y1]
      refine ⟨_, rfl, ?_, ?_, ?_, ?_, rfl, ?_, ?_, rfl, fun _ => ⟨_, x1.symm⟩⟩
      · refine ⟨by simp, by simpa using y2, ⟨d', by simpa using y3, by simpa using y4⟩, halloc, ?_, hreal⟩
        intro he
        simp at he
        rcases heof he with h | ⟨hd, hlt⟩
        · left; exact h
        · exfalso
          rw [h0] at hd; simp at hd; subst hd; simp [escPattern] at x1
      · intro he; simp at he; exact absurd he hpre
      · intro _; simp [EscRd.meas]; omega
      · simp [EscRd.meas]; omega
      · intro h7
        simp at h7
        have := y5 h7
        refine ⟨?_, this.2⟩
        rw [y3, this.1]; simp
      · intro h; omega
    · subst x3
      rw [char2type_type2char]
      have htr : t ≠ .notASequence := hreal (t, d') (by rw [x2]; exact List.mem_cons_self)
      simp only
      rw [if_neg htr]
      refine ⟨_, rfl, ⟨hle, by rw [h0]; exact hcompat, ⟨d, by rw [h0]; simp, by rw [h0]; exact hs⟩, halloc, heof, hreal⟩,
        ?_, ?_, le_refl _, rfl, ?_, ?_, rfl, fun h => absurd h hl⟩
      · intro _; exact ⟨x1, by rw [x2]; simp, Nat.le_of_not_lt hl⟩
      · rw [h0]; intro h; omega
      · intro _; exact ⟨by rw [x1, h0]; simp, by rw [x2]; simp⟩
      · intro h; rw [← hcs] at h; exact absurd h hl

/-- Serving from the buffer keeps the representation. -/
theorem rep_drop (st : EscRd) (d : Bytes) (ms : List (SeqT × Bytes)) (h : Rep st d ms) (c : Nat)
    (hc : c ≤ st.esc) :
    Rep { st with buf := st.buf.drop c, esc := st.esc - c } (d.drop c) ms ∧
      d.take c = st.buf.take c ∧ c ≤ d.length := by
  obtain ⟨hle, hcompat, ⟨d2, hd2, hs⟩, halloc, heof, hreal⟩ := h
  have hdr : (st.buf.drop c).drop (st.esc - c) = st.buf.drop st.esc := by
    rw [List.drop_drop]; congr 1; omega
  have hdc : d.drop c = (st.buf.drop c).take (st.esc - c) ++ d2 := by
    rw [hd2, List.drop_append_of_le_length (by simp; omega), List.drop_take]
  refine ⟨⟨by simp; omega, by simpa [hdr] using hcompat, ⟨d2, hdc, by simpa [hdr] using hs⟩, halloc, ?_, hreal⟩, ?_, ?_⟩
  · intro he
    rcases heof he with h | ⟨h1, h2⟩
    · left; exact h
    · right
      refine ⟨?_, by simp; omega⟩
      rw [h1, List.drop_take]
  · rw [hd2, List.take_append_of_le_length (by simp; omega), List.take_take]; congr 1; omega
  · rw [hd2]; simp; omega

theorem escServe_full (f : Nat) (st : EscRd) (need : Nat) (d : Bytes) (ms : List (SeqT × Bytes))
    (h : Rep st d ms) (hfull : st.esc = st.buf.length) (hf : 0 < f) :
    ∃ got done st', escServe f st need = .ok (got, done, st') ∧ st'.meas ≤ st.meas ∧
      (done = true → got = d.take need ∧ Rep st' (d.drop need) ms) ∧
      (done = false → ∃ d', d = got ++ d' ∧ got.length < need ∧ Rep st' d' ms ∧
         (st'.buf = [] ∨ (st'.eof = true ∧ d' = []))) := by
  cases f with
  | zero => omega
  | succ f =>
      rw [escServe]
      simp only
      obtain ⟨hrep, htk, hlen⟩ := rep_drop st d ms h (min st.esc need) (by omega)
      generalize hc : min st.esc need = c at *
      have hle := h.escLe
      have hgl : (st.buf.take c).length = c := by simp; omega
      split
      · rename_i hg
        have : c = need := by omega
        subst this
        refine ⟨_, _, _, rfl, by simp [EscRd.meas], fun _ => ⟨htk.symm, hrep⟩, by simp⟩
      · rename_i hg
        have hcb : c = st.buf.length := by omega
        rw [if_neg (by simp [hcb])]
        refine ⟨_, _, _, rfl, by simp [EscRd.meas], by simp, fun _ => ⟨d.drop c, ?_, by omega, hrep, ?_⟩⟩
        · rw [← htk, List.take_append_drop]
        · left; simp [hcb]

theorem escServe_spec (f : Nat) (st : EscRd) (need : Nat) (d : Bytes) (ms : List (SeqT × Bytes))
    (h : Rep st d ms) (hf : st.meas + 1 < f) :
    ∃ got done st', escServe f st need = .ok (got, done, st') ∧ st'.meas ≤ st.meas ∧
      (done = true → got = d.take need ∧ Rep st' (d.drop need) ms) ∧
      (done = false → ∃ d', d = got ++ d' ∧ got.length < need ∧ Rep st' d' ms ∧
         (st'.buf = [] ∨ (st'.eof = true ∧ d' = []))) := by
  induction f generalizing st need d with
  | zero => omega
  | succ f ih =>
      rw [escServe]
      simp only
      obtain ⟨hrep, htk, hlen⟩ := rep_drop st d ms h (min st.esc need) (by omega)
      generalize hc : min st.esc need = c at *
      have hle := h.escLe
      have hgl : (st.buf.take c).length = c := by simp; omega
      have hm1 : EscRd.meas { st with buf := st.buf.drop c, esc := st.esc - c } ≤ st.meas := by
        simp [EscRd.meas]
      split
      · rename_i hg
        have : c = need := by omega
        subst this
        exact ⟨_, _, _, rfl, hm1, fun _ => ⟨htk.symm, hrep⟩, by simp⟩
      · rename_i hg
        have hce : c = st.esc := by omega
        split
        · rename_i hne
          rw [if_neg (by omega)]
          generalize hst1 : ({ st with buf := st.buf.drop c, esc := st.esc - c } : EscRd) = st1 at *
          have hesc1 : st1.esc = 0 := by rw [← hst1]; simp; omega
          rcases miniRead_spec st1 _ ms hrep hesc1 with
            ⟨st2, e, r2, z1, z2, z3, z4, z5, z6, z8, z9⟩ | ⟨st2, e, r2, z1, z2, z3, z4, z5, z6, z7⟩
          · rw [e]
            simp only
            split
            · rename_i h20
              have hz := z1 h20
              refine ⟨_, _, _, rfl, ?_, by simp, fun _ => ⟨d.drop c, ?_, by omega, ?_, ?_⟩⟩
              · have : EscRd.meas { st2 with eof := true } = st2.meas := rfl
                omega
              · rw [← htk, List.take_append_drop]
              · refine ⟨r2.escLe, r2.compat, r2.stream, r2.alloc, ?_, r2.real⟩
                intro _; right
                refine ⟨?_, ?_⟩
                · simp [h20]; have := hz.1; simpa using this
                · simp only [h20]; omega
              · right; exact ⟨rfl, hz.1⟩
            · rename_i h20
              obtain ⟨g, dn, st3, e3, w1, w2, w3⟩ := ih st2 (need - (st.buf.take c).length) _ r2
                (by have := z2 (by omega); omega)
              rw [e3]
              refine ⟨_, _, _, rfl, by omega, ?_, ?_⟩
              · intro hd
                obtain ⟨w4, w5⟩ := w2 hd
                refine ⟨?_, ?_⟩
                · rw [w4, hgl, ← htk, ← List.take_add]; congr 1; omega
                · rw [List.drop_drop, hgl] at w5
                  have : c + (need - c) = need := by omega
                  rwa [this] at w5
              · intro hd
                obtain ⟨d', w4, w5, w6, w7⟩ := w3 hd
                refine ⟨d', ?_, ?_, w6, w7⟩
                · rw [List.append_assoc, ← w4, ← htk, List.take_append_drop]
                · simp only [List.length_append]; omega
          · rw [e]
            simp only
            have r2' : Rep { st2 with esc := st2.buf.length } (d.drop c) ms := by
              refine ⟨le_refl _, by simp [compat_nil], ⟨[], by simpa using z4, ?_⟩, r2.alloc, fun _ => Or.inl z2, r2.real⟩
              simp [z2, z3, encStream_nil, escData_nil]
            obtain ⟨g, dn, st3, e3, w1, w2, w3⟩ := escServe_full f { st2 with esc := st2.buf.length }
              (need - (st.buf.take c).length) _ ms r2' rfl (by omega)
            have hmm : EscRd.meas { st2 with esc := st2.buf.length } = st2.meas := rfl
            rw [e3]
            refine ⟨_, _, _, rfl, by omega, ?_, ?_⟩
            · intro hd
              obtain ⟨w4, w5⟩ := w2 hd
              refine ⟨?_, ?_⟩
              · rw [w4, hgl, ← htk, ← List.take_add]; congr 1; omega
              · rw [List.drop_drop, hgl] at w5
                have : c + (need - c) = need := by omega
                rwa [this] at w5
            · intro hd
              obtain ⟨d', w4, w5, w6, w7⟩ := w3 hd
              refine ⟨d', ?_, ?_, w6, w7⟩
              · rw [List.append_assoc, ← w4, ← htk, List.take_append_drop]
              · simp only [List.length_append]; omega
        · rename_i hne
          refine ⟨_, _, _, rfl, hm1, by simp, fun _ => ⟨d.drop c, ?_, by omega, hrep, ?_⟩⟩
          · rw [← htk, List.take_append_drop]
          · left; simpa using hne

/-- At end of file or at a mark nothing remains to deliver. -/
theorem rep_eof_nil (st : EscRd) (d : Bytes) (ms : List (SeqT × Bytes)) (h : Rep st d ms)
    (he : st.eof = true) (hb : st.buf = []) : d = [] := by
  obtain ⟨hle, hcompat, ⟨d2, hd2, hs⟩, halloc, heof, hreal⟩ := h
  rcases heof he with h | ⟨h1, h2⟩
  · rw [hb, h] at hs
    simp only [List.drop_nil, List.append_nil] at hs
    have := encStream_short d2 ms (by rw [← hs]; simp)
    rw [this.2] at hs
    rw [hd2, hb, ← hs]; simp
  · rw [hb] at h2; simp at h2

/-- What a read may answer: what is asked, as far as the segment goes, or less when only an incomplete
pattern remains. -/
def ReadOk (r : Res (Bytes × EscRd)) (d : Bytes) (ms : List (SeqT × Bytes)) (need : Nat) : Prop :=
  ∃ st' m, r = .ok (d.take m, st') ∧ Rep st' (d.drop m) ms ∧ m ≤ need ∧ (m = need ∨ OnlyPartial (d.drop m) ms)

theorem readOk_prepend (pre d' d : Bytes) (ms : List (SeqT × Bytes)) (need : Nat) (r : Res (Bytes × EscRd))
    (hd : d = pre ++ d') (hp : pre.length ≤ need) : ReadOk r d' ms (need - pre.length) →
    ReadOk (match r with | .error e => .error e | .ok (g, st2) => .ok (pre ++ g, st2)) d ms need := by
  rintro ⟨st', m, e, hr, hm, ho⟩
  have hdrop : d.drop (pre.length + m) = d'.drop m := by rw [hd]; simp
  refine ⟨st', pre.length + m, ?_, by rw [hdrop]; exact hr, by omega, ?_⟩
  · subst hd; rw [e, List.take_append, List.take_of_length_le (Nat.le_add_right pre.length m)]; simp
  · rw [hdrop]
    rcases ho with h | h
    · left; omega
    · right; exact h

theorem escDirect_spec (again : EscRd → Nat → Res (Bytes × EscRd)) (f : Nat) (st : EscRd) (need : Nat)
    (d : Bytes) (ms : List (SeqT × Bytes)) (h : Rep st d ms)
    (hb : st.buf = [] ∨ (st.eof = true ∧ d = []))
    (hagain : ∀ st1 n d1, st1.meas < st.meas → Rep st1 d1 ms → ReadOk (again st1 n) d1 ms n)
    (hf : st.meas < f) :
    ReadOk (escDirect again f st need) d ms need := by
  induction f generalizing st need d with
  | zero => omega
  | succ f ih =>
      rw [escDirect]
      by_cases he : st.eof = true
      · rw [if_pos he]
        have hd : d = [] := by
          rcases hb with h1 | h1
          · exact rep_eof_nil st d ms h he h1
          · exact h1.2
        subst hd
        exact ⟨st, need, by simp, by simpa using h, le_refl _, Or.inl rfl⟩
      · rw [if_neg he]
        have hbuf : st.buf = [] := by
          rcases hb with h1 | h1
          · exact h1
          · exact absurd h1.1 he
        have hesc : st.esc = 0 := by have := h.escLe; rw [hbuf] at this; simpa using this
        split
        · rename_i hn
          obtain ⟨hle, hcompat, ⟨d2, hd2, hs⟩, halloc, heof, hreal⟩ := h
          rw [hbuf] at hd2 hs
          simp at hd2 hs
          subst hd2
          simp only
          obtain ⟨pre, t, d', y1, y2, y3, y4, y5, y6, y7, y8⟩ :=
            removeMarks_spec (st.below.take need) (st.below.drop need) d ms hreal (by rw [List.take_append_drop]; exact hs)
          rw [y1]
          simp only
          have hlen : (st.below.take need).length = min need st.below.length := by simp
          have hplen : pre.length ≤ need := by omega
          have htake : d.take need = pre ++ d'.take (need - pre.length) := by
            rw [y3, List.take_append, List.take_of_length_le hplen]
          have hdrop : d.drop need = d'.drop (need - pre.length) := by
            rw [y3, List.drop_append, List.drop_of_length_le hplen]; simp
          split
          · rename_i ht
            have htl : 0 < t.length := List.length_pos_iff.mpr ht
            rw [if_pos (by omega)]
            have hal : 0 < (if st.alloc < t.length then pre.length + t.length else st.alloc) := by
              split <;> omega
            generalize (if st.alloc < t.length then pre.length + t.length else st.alloc) = al at *
            have hrep1 : Rep (⟨t, 0, false, al, st.below.drop need⟩ : EscRd) d' ms :=
              ⟨by simp, by simpa using y2, ⟨d', by simp, by simpa using y4⟩, hal, by simp, hreal⟩
            exact readOk_prepend pre d' d ms need _ y3 hplen (hagain _ (need - pre.length) d' (by
              simp only [EscRd.meas, hbuf, List.length_drop, List.length_nil]; omega) hrep1)
          · rename_i ht
            simp at ht
            subst ht
            simp at y4
            by_cases hshort : (st.below.take need).length < need
            · rw [if_neg (by simp at hshort ⊢; omega)]
              have hbn : st.below.drop need = [] := by
                apply List.drop_eq_nil_of_le; simp at hshort; omega
              have hd' : ms = [] ∧ d' = [] := by
                rw [hbn] at y4
                have := encStream_short d' ms (by rw [← y4]; simp)
                rw [this.2] at y4; exact ⟨this.1, y4.symm⟩
              obtain ⟨hm, hd0⟩ := hd'
              subst hd0
              refine ⟨_, need, by rw [htake]; simp; rfl, ?_, le_refl _, Or.inl rfl⟩
              rw [hdrop]
              refine ⟨by simp, by simp [hbuf, compat_nil], ⟨[], by simp [hbuf], by simpa [hbuf] using y4⟩, halloc, ?_, hreal⟩
              intro _; left; exact hbn
            · have hbelow : need ≤ st.below.length := by simp at hshort; omega
              have hrep1 : Rep { st with eof := decide ((st.below.take need).length < need), esc := st.buf.length, below := st.below.drop need } d' ms := by
                refine ⟨by simp, by simp [compat_nil], ⟨d', by simp [hbuf], by simpa [hbuf] using y4⟩, halloc, ?_, hreal⟩
                intro he'; simp at he'; omega
              by_cases hmore : need - pre.length > 0
              · rw [if_pos ⟨hmore, by simp; omega⟩]
                exact readOk_prepend pre d' d ms need _ y3 hplen (ih _ (need - pre.length) d' hrep1 (Or.inl hbuf)
                  (fun st1 n d1 hm => hagain st1 n d1 (by
                    simp only [EscRd.meas, hbuf, List.length_drop, List.length_nil] at hm ⊢; omega))
                  (by simp only [EscRd.meas, hbuf, List.length_drop, List.length_nil] at hf ⊢; omega))
              · rw [if_neg (by simp; omega)]
                have h0 : need - pre.length = 0 := by omega
                refine ⟨_, need, by rw [htake, h0, List.take_zero, List.append_nil], ?_, le_refl _, Or.inl rfl⟩
                rw [hdrop, h0]; exact hrep1
        · rename_i hn
          rcases miniRead_spec st d ms h hesc with
            ⟨st2, e, r2, z1, z2, z3, z4, z5, z6, z8, z9⟩ | ⟨st2, e, r2, z1, z2, z3, z4, z5, z6, z7⟩
          · rw [e]; simp only
            split
            · rename_i h1
              exact hagain st2 need d (z2 h1) r2
            · rename_i h1
              have hz := z1 (by omega)
              have := hz.1
              subst this
              refine ⟨_, need, by simp; rfl, ?_, le_refl _, Or.inl rfl⟩
              simp only [List.drop_nil]
              refine ⟨r2.escLe, r2.compat, r2.stream, r2.alloc, ?_, r2.real⟩
              intro _; right
              have h20 : st2.esc = 0 := by omega
              refine ⟨by simp [h20], by simp only [h20]; omega⟩
          · rw [e]; simp only
            split
            · rename_i h1
              have hlt : st2.meas < st.meas := by
                simp only [EscRd.meas, z2, hbuf, List.length_nil] at z5 ⊢
                have hle2 := r2.escLe
                by_cases hbe : st.below = []
                · have := z7 hbe; rw [hbuf] at this; simp at this; rw [this] at hle2; simp at hle2; omega
                · have : 0 < st.below.length := List.length_pos_iff.mpr hbe
                  have hst2 : st2.buf.length ≤ st.below.length := by
                    obtain ⟨d2, hd2, hs⟩ := h.stream
                    rw [hbuf] at hd2 hs; simp at hd2 hs
                    have := encStream_short d2 ms (by
                      rw [← hs]
                      by_contra hcon
                      rw [miniRead, if_pos (by simp [hbuf])] at e
                      revert e
                      simp only [hbuf, List.nil_append, List.length_nil]
                      cases removeMarks ((st.below.take (6 - 0)).drop st.esc) with
                      | error e' => simp
                      | ok v =>
                          simp only
                          rw [show decide (6 ≤ (st.below.take (6-0)).length) = true by simp; omega]
                          intro e; simp at e)
                    rw [this.2] at hs
                    rw [← z4, hd2, ← hs]
                  simp only [z2, hbuf, List.length_nil] at *
                  omega
              exact hagain st2 need d hlt r2
            · rename_i h1
              have hrep2 : Rep { st2 with eof := true } d ms :=
                ⟨r2.escLe, r2.compat, r2.stream, r2.alloc, fun _ => Or.inl z2, r2.real⟩
              by_cases hb0 : st2.buf = []
              · rw [hb0] at z4; subst z4
                exact ⟨_, need, by simp; rfl, by simpa using hrep2, le_refl _, Or.inl rfl⟩
              · obtain ⟨y1, y2⟩ := z1 (by omega)
                refine ⟨_, 0, by simp; rfl, by simpa using hrep2, by omega, Or.inr ⟨z3, ?_, ?_, ?_⟩⟩
                · rw [List.drop_zero, z4]; exact hb0
                · rw [List.drop_zero, z4]; exact y1
                · rw [List.drop_zero, z4]; exact y2

theorem escReadF_spec (f : Nat) (st : EscRd) (size : Nat) (d : Bytes) (ms : List (SeqT × Bytes))
    (h : Rep st d ms) (hf : st.meas + 2 ≤ f) :
    ReadOk (escReadF f st size) d ms size := by
  induction f generalizing st size d with
  | zero => omega
  | succ f ih =>
      rw [escReadF]
      split
      · rename_i hc
        have := rep_eof_nil st d ms h hc.1 hc.2
        subst this
        exact ⟨st, size, by simp, by simpa using h, le_refl _, Or.inl rfl⟩
      · rename_i hc
        obtain ⟨got, dn, st1, e1, w1, w2, w3⟩ := escServe_spec (f + 1) st size d ms h (by omega)
        rw [e1]
        cases dn with
        | true =>
            obtain ⟨w4, w5⟩ := w2 rfl
            exact ⟨st1, size, by simp [w4], w5, le_refl _, Or.inl rfl⟩
        | false =>
            obtain ⟨d', w4, w5, w6, w7⟩ := w3 rfl
            simp only
            exact readOk_prepend got d' d ms size _ w4 (by omega)
              (escDirect_spec (escReadF f) (f + 1) st1 (size - got.length) d' ms w6 w7
                (fun st1' n d1 hm hr => ih st1' n d1 hr (by omega)) (by omega))

/-- Reading: the data of the current segment, in order. -/
theorem escRead_spec (st : EscRd) (size : Nat) (d : Bytes) (ms : List (SeqT × Bytes))
    (h : Rep st d ms) : ReadOk (escRead st size) d ms size :=
  escReadF_spec _ st size d ms h (by simp [EscRd.meas])

theorem not_onlyPartial {d : Bytes} {ms : List (SeqT × Bytes)} (ht : TailOk d ms) (m : Nat) :
    ¬ OnlyPartial (d.drop m) ms := by
  rintro ⟨h1, h2, h3, h4⟩
  subst h1
  apply ht
  refine ⟨(d.drop m).length, List.length_pos_iff.mpr h2, h3, ?_⟩
  rw [← List.prefix_iff_eq_take.mp h4]
  exact List.drop_suffix _ _

/-- Reading, when the stream does not end with an incomplete pattern. -/
theorem escRead_exact (st : EscRd) (size : Nat) (d : Bytes) (ms : List (SeqT × Bytes))
    (h : Rep st d ms) (ht : TailOk d ms) :
    ∃ st', escRead st size = .ok (d.take size, st') ∧ Rep st' (d.drop size) ms := by
  obtain ⟨st', m, e, hr, hm, ho⟩ := escRead_spec st size d ms h
  rcases ho with ho | ho
  · subst ho; exact ⟨st', e, hr⟩
  · exact absurd ho (not_onlyPartial ht m)

end Dar
