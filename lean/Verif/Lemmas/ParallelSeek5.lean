import Verif.Lemmas.ParallelSeek4
/- Lemmas for Props/ParallelSeek.lean: reading. -/
namespace Dar
namespace Pt
variable {α : Type}

theorem take_split (D : List α) (c n : Nat) (part : List α) (hp : part <+: (D.drop c).take n) :
    (D.drop c).take n = part ++ (D.drop (c + part.length)).take (n - part.length) := by
  have h1 : part <+: D.drop c := hp.trans (List.take_prefix _ _)
  have hlen : part.length ≤ n := by
    have := hp.length_le
    simp at this; omega
  have h2 : part = (D.drop c).take part.length := List.prefix_iff_eq_take.mp h1
  have h3 : (D.drop c).take n = (D.drop c).take part.length ++ ((D.drop c).drop part.length).take (n - part.length) := by
    have h4 : (D.drop c).take (part.length + (n - part.length)) = _ := List.take_add
    rw [show part.length + (n - part.length) = n by omega] at h4
    exact h4
  rw [h3, List.drop_drop]; rw [← h2]

theorem part_prefix (D : List α) (cb i off n : Nat) :
    ((blk D cb i).drop off).take n <+: (D.drop (i * cb + off)).take n := by
  unfold blk
  rw [List.drop_take, List.drop_drop, List.take_take]
  exact List.take_prefix_take_left (Nat.min_le_left _ _)

/-- part of the first block is read -/
theorem R.advance {e : PtEnv α} {D : List α} {s : PtSt α} {b : Bool} {k c : Nat} {i : Nat} {d : List α} {off : Nat} {r0 : List (PtItem α)}
    (h : R e D s b k c) (hl : s.lus = .data i d off :: r0) (x : Nat) (hx : off + x ≤ d.length) :
    R e D { s with lus := .data i d (off + x) :: r0 } b k (c + x) := by
  obtain ⟨ds, tl, hl', hF, hc, ht1, ht2⟩ := h.feeds
  have hck := (h.pop hl).1
  rw [hl] at hl'
  obtain ⟨ds0, h1, h2, h3, h4, h5, h6, h7⟩ := feeds_data (acks_of_wait (e := e) (D := D) (b := b) (k := k) ht1 ht2) hl' hF
  refine ⟨h.run, h.cur, ⟨.data i d (off + x) :: ds0, tl, by simp [h2], ⟨h3, by omega, hx, h6, h7⟩, (fun hx => by simp [hck] at hx), ht1, ht2⟩,
    h.freshQ, ?_, (fun hx => by simp [hck] at hx), h.reof, h.noWait⟩
  intro i' d' off' hm
  exact h.freshT i' d' off' (by rw [hl]; exact hm)

theorem R.setCur {e : PtEnv α} {D : List α} {s : PtSt α} {b : Bool} {k c : Nat} (h : R e D s b k c) (got : Nat) (hg : s.chk = true → got = 0)
    (hle : s.cur + got ≤ D.length) : R e D { s with cur := s.cur + got } b k c :=
  ⟨h.run, hle, h.feeds, h.freshQ, h.freshT, fun hc => by
    have := h.chk hc
    rw [hg hc]; exact this, h.reof, h.noWait⟩

theorem readLoop_spec {e : PtEnv α} {D : List α} (G : Good e D) : ∀ (k left got : Nat) (s : PtSt α) (b : Bool) (c : Nat),
    R e D s b (pend e s) c → (b = true ↔ s.ign ≠ 0) → s.lusEof = false → (s.chk = true → got = 0) → (s.chk = false → c = s.cur + got) →
    s.cur + got ≤ D.length → (left = 0 ∧ 0 < k ∨ meas e s < k) →
    ∃ s', s.readLoop e k left got = .ok ((D.drop (s.cur + got)).take left, s') ∧ Inv e D s' ∧ s'.cur = min (s.cur + got + left) D.length
  | 0, _, _, _, _, _, _, _, _, _, _, _, hk => by omega
  | k + 1, left, got, s, b, c, hR, hb, he, hg0, hg1, hle, hk => by
    rw [PtSt.readLoop]
    by_cases hl0 : left = 0
    · rw [if_pos (Or.inl hl0)]
      subst hl0
      refine ⟨{ s with cur := s.cur + got }, by simp, Or.inr ⟨he, b, c, ?_, ?_, hb⟩, ?_⟩
      · exact hR.setCur got hg0 hle
      · intro hc; exact hg1 hc
      · dsimp only; omega
    rw [if_neg (by simp [hl0, he])]
    have hm : meas e s < k + 1 := by
      rcases hk with hk | hk
      · exact absurd hk.1 hl0
      · exact hk
    obtain ⟨s1, c1, hrf, hR1, hne, hcur, hign, hle1, hm1, hg0', hg1'⟩ : ∃ s1 c1, s.refill e = .ok s1 ∧ R e D s1 b (pend e s1) c1 ∧
        s1.lus ≠ [] ∧ s1.cur = s.cur ∧ s1.ign = s.ign ∧ s1.lusEof = s.lusEof ∧ meas e s1 ≤ meas e s ∧
        (s1.chk = true → got = 0) ∧ (s1.chk = false → c1 = s1.cur + got) := by
      by_cases hl : s.lus = []
      · obtain ⟨s1, c1, hrf, hR1, hne, hcur, hign, hle', hp, hch0, hch1⟩ := hR.refill G (pend_pos G s) hl
        have hpe : pend e s1 = pend e s := by simp [pend, hign]
        refine ⟨s1, c1, hrf, by rw [hpe]; exact hR1, hne, hcur, hign, hle', ?_, ?_, ?_⟩
        · unfold meas
          simp only [hl, hne, if_true, if_false, hign]
          omega
        · intro hc1
          cases hchk : s.chk with
          | true => exact hg0 hchk
          | false => rw [(hch0 hchk).1] at hc1; cases hc1
        · intro hc1
          cases hchk : s.chk with
          | true =>
            rcases hch1 hchk with ⟨h1, -⟩ | ⟨-, h2⟩
            · rw [h1] at hc1; cases hc1
            · rw [h2, hg0 hchk, hcur]; rfl
          | false => rw [(hch0 hchk).2.1, hg1 hchk, hcur]
      · exact ⟨s, c, refill_nonempty e hl, hR, hl, rfl, rfl, rfl, Nat.le_refl _, hg0, hg1⟩
    rw [hrf]
    dsimp only
    have hb1 : b = true ↔ s1.ign ≠ 0 := by rw [hign]; exact hb
    have he1 : s1.lusEof = false := by rw [hle1, he]
    rw [← hcur]
    rw [← hcur] at hle
    have hk1 : 1 ≤ k := by
      have h1 : 2 ≤ meas e s1 := by
        unfold meas pot
        have : s1.lus.length ≠ 0 := by simpa using hne
        omega
      omega
    cases hl : s1.lus with
    | nil => exact absurd hl hne
    | cons it r0 =>
      cases it with
      | bad i =>
        obtain ⟨ds, tl, hl', hF, hc, ht1, ht2⟩ := hR1.feeds
        rw [hl] at hl'
        exact (feeds_bad (acks_of_wait (e := e) (D := D) (b := b) (k := pend e s1) ht1 ht2) hl' hF).elim
      | data i d off =>
        dsimp only
        obtain ⟨ds, tl, hl', hF, hc, ht1, ht2⟩ := hR1.feeds
        rw [hl] at hl'
        obtain ⟨ds0, h1, h2, h3, h4, h5, h6, h7⟩ := feeds_data (acks_of_wait (e := e) (D := D) (b := b) (k := pend e s1) ht1 ht2) hl' hF
        obtain ⟨hck, hpop⟩ := hR1.pop hl
        have hc1 := hg1' hck
        have hpre : (d.drop off).take left <+: (D.drop c1).take left := by
          rw [h3, h4]; exact part_prefix D e.cb i off left
        obtain ⟨part, hpart⟩ : ∃ p, p = (d.drop off).take left := ⟨_, rfl⟩
        rw [← hpart] at hpre ⊢
        have hplen : part.length = min left (d.length - off) := by rw [hpart]; simp
        have hsplit := take_split D c1 left part hpre
        have hDle : c1 + part.length ≤ D.length := by
          have : d.length = min e.cb (D.length - i * e.cb) := by rw [h3, blk_length]
          omega
        have hb' := hb1
        by_cases hall : off + part.length = d.length
        · rw [if_pos hall]
          have hpp : R e D { s1 with lus := r0 } b (pend e ({ s1 with lus := r0 } : PtSt α)) (i * e.cb + d.length) := hpop
          obtain ⟨s', q1, q2, q3⟩ := readLoop_spec G k (left - part.length) (got + part.length) { s1 with lus := r0 } b _ hpp hb1 he1
            (fun hx => by simp [hck] at hx) (fun _ => by dsimp only; omega) (by dsimp only; omega)
            (Or.inr (by
              have : meas e ({ s1 with lus := r0 } : PtSt α) < meas e s1 := by
                unfold meas pot
                simp only [hl, List.length_cons, List.cons_ne_nil, if_false]
                by_cases hr0 : r0 = []
                · simp only [hr0, if_true, List.length_nil]; omega
                · simp only [hr0, if_false]; omega
              omega))
          rw [q1]
          dsimp only
          refine ⟨s', ?_, q2, ?_⟩
          · rw [← hc1, hsplit, show s1.cur + (got + part.length) = c1 + part.length by omega]
          · rw [q3]; dsimp only; omega
        · rw [if_neg hall]
          have hlt : left ≤ d.length - off := by
            rcases Nat.lt_or_ge (d.length - off) left with h | h
            · exfalso; apply hall; omega
            · exact h
          have hadv := hR1.advance hl part.length (by omega)
          obtain ⟨s', q1, q2, q3⟩ := readLoop_spec G k (left - part.length) (got + part.length) { s1 with lus := .data i d (off + part.length) :: r0 } b _ hadv hb1 he1
            (fun hx => by simp [hck] at hx) (fun _ => by dsimp only; omega) (by dsimp only; omega)
            (Or.inl ⟨by omega, hk1⟩)
          rw [q1]
          dsimp only
          refine ⟨s', ?_, q2, ?_⟩
          · rw [← hc1, hsplit, show s1.cur + (got + part.length) = c1 + part.length by omega]
          · rw [q3]; dsimp only; omega
      | ack o =>
        obtain ⟨hw, hit, hcc, ho⟩ := hR1.ack hl
        rcases ho with ⟨rfl, hbt⟩ | ⟨rfl, hend⟩
        · dsimp only
          have hig := hb1.mp hbt
          rw [if_neg hig]
          have hpi : pend e s1 = s1.ign := by simp [pend, hig]
          by_cases hi1 : s1.ign = 1
          · rw [if_pos hi1]
            rw [hpi, hi1] at hR1
            obtain ⟨g1, g2, g3⟩ := hR1.lastAck hl
            have hS : Susp D ({ s1 with ign := 0, lus := r0, run := false, cur := s1.cur + got } : PtSt α) := ⟨rfl, g3, g1, g2, rfl, hle⟩
            obtain ⟨s2, a1, a2, a3, a4, a5, a6, a7, a8⟩ := hS.goRead G
            rw [a1]
            dsimp only
            have a5' : s2.cur = s1.cur + got := a5
            obtain ⟨s', q1, q2, q3⟩ := readLoop_spec G k left 0 s2 false _ (by
                have : pend e s2 = e.n := by simp [pend, a6]
                rw [this]; exact a2) (by simp [a6]) (by rw [a7]; exact he1) (fun _ => rfl) (fun hx => by rw [a3] at hx; cases hx)
              (by rw [a5']; exact hle)
              (Or.inr (by
                have : meas e s2 < meas e s1 := by
                  unfold meas
                  simp only [a4, a6, if_true, hig, if_false, hne]
                  have : 1 ≤ pot e s1 := by unfold pot; rw [hl]; simp; omega
                  omega
                omega))
            refine ⟨s', ?_, q2, ?_⟩
            · rw [q1, a5']; rfl
            · rw [q3, a5']; rfl
          · rw [if_neg hi1]
            obtain ⟨n', hn'⟩ : ∃ n', s1.ign = n' + 1 := ⟨s1.ign - 1, by omega⟩
            have hx : s1.ign - 1 ≠ 0 := by omega
            have hR2 : R e D { s1 with ign := s1.ign - 1, lus := r0 } b (pend e ({ s1 with ign := s1.ign - 1, lus := r0 } : PtSt α)) c1 := by
              have hp2 : pend e ({ s1 with ign := s1.ign - 1, lus := r0 } : PtSt α) = s1.ign - 1 := by simp [pend, hx]
              rw [hp2]
              rw [hpi, hn'] at hR1
              have := hR1.dropAck hl (s1.ign - 1)
              rw [hn'] at this ⊢
              exact this
            obtain ⟨s', q1, q2, q3⟩ := readLoop_spec G k left got { s1 with ign := s1.ign - 1, lus := r0 } b c1 hR2 (by simp [hbt, hx]) he1 hg0' hg1' hle
              (Or.inr (by
                have hmm : meas e ({ s1 with ign := s1.ign - 1, lus := r0 } : PtSt α) < meas e s1 := by
                  unfold meas pot
                  simp only [hl, List.length_cons, List.cons_ne_nil, if_false, hig, hx]
                  by_cases hr0 : r0 = []
                  · simp only [hr0, if_true, List.length_nil]; omega
                  · simp only [hr0, if_false]; omega
                omega))
            exact ⟨s', q1, q2, q3⟩
        · dsimp only
          have hcD : s1.cur + got = D.length := by
            have hc1D : c1 = D.length := by omega
            cases hchk : s1.chk with
            | true =>
              have h1 := hR1.chk hchk
              have h2 := hg0' hchk
              have h3 := hR1.cur
              omega
            | false => rw [← hg1' hchk, hc1D]
          have hR2 : R e D { s1 with lusEof := true } b (pend e ({ s1 with lusEof := true } : PtSt α)) c1 :=
            ⟨hR1.run, hR1.cur, hR1.feeds, hR1.freshQ, hR1.freshT, hR1.chk, hR1.reof, hR1.noWait⟩
          obtain ⟨r, hr, q1, q2⟩ := purge_spec G (pos := 0) hR2 (fun h => absurd rfl h) (Or.inl rfl)
          rcases q2 with q2 | q2
          · exact absurd rfl q2.2.1
          · obtain ⟨r1, r2⟩ := r
            obtain ⟨q2, q3, q4⟩ := q2
            obtain ⟨q5, q6⟩ := q4 rfl
            have hreq : r1 = .eof := q6 r0 hl
            rw [← hl]
            rw [hr]
            dsimp only
            rw [if_pos hreq]
            obtain ⟨k', rfl⟩ : ∃ k', k = k' + 1 := ⟨k - 1, by omega⟩
            rw [PtSt.readLoop]
            rw [if_pos (Or.inr q1)]
            dsimp only at q3 q5
            refine ⟨{ r2 with cur := r2.cur + got }, by rw [hcD]; simp, Or.inl ⟨⟨q3.run, q3.wait, q3.lus, q3.q, q3.ign, ?_⟩, fun _ => ?_⟩, ?_⟩
            · dsimp only; rw [q5]; omega
            · dsimp only; rw [q5]; exact hcD
            · dsimp only; rw [q5]; omega

theorem Inv.read {e : PtEnv α} {D : List α} (G : Good e D) {s : PtSt α} (h : Inv e D s) (n : Nat) :
    ∃ s', s.read e n = .ok ((D.drop s.cur).take n, s') ∧ Inv e D s' ∧ s'.cur = min (s.cur + n) D.length := by
  unfold PtSt.read
  rcases h with ⟨hS, he⟩ | ⟨he, b, c, hR, hSt, hb⟩
  · by_cases hE : s.lusEof = true
    · rw [if_pos hE]
      have := he hE
      exact ⟨s, by rw [this]; simp, Or.inl ⟨hS, he⟩, by omega⟩
    · rw [if_neg hE]
      obtain ⟨s2, a1, a2, a3, a4, a5, a6, a7, a8⟩ := hS.goRead G
      rw [a1]
      dsimp only
      have hcur := hS.cur
      obtain ⟨s', q1, q2, q3⟩ := readLoop_spec G (s2.fuel e) n 0 s2 false _ (by
          have : pend e s2 = e.n := by simp [pend, a6]
          rw [this]; exact a2) (by simp [a6]) (by rw [a7]; simpa using hE) (fun _ => rfl) (fun hx => by rw [a3] at hx; cases hx)
        (by rw [a5]; exact hcur) (Or.inr (meas_lt_fuel s2))
      rw [a5] at q1 q3
      exact ⟨s', q1, q2, q3⟩
  · rw [if_neg (by simp [he])]
    have hg : s.goRead e = .ok s := by unfold PtSt.goRead; rw [if_pos hR.run]
    rw [hg]
    dsimp only
    have hcur := hR.cur
    obtain ⟨s', q1, q2, q3⟩ := readLoop_spec G (s.fuel e) n 0 s b c hR hb he (fun _ => rfl) (fun hx => by rw [hSt hx]; rfl) hcur (Or.inr (meas_lt_fuel s))
    exact ⟨s', q1, q2, q3⟩

theorem init_inv (e : PtEnv α) (D : List α) : Inv e D PtSt.init :=
  Or.inl ⟨⟨rfl, rfl, rfl, rfl, rfl, Nat.zero_le _⟩, (fun h => by cases h)⟩

end Pt
end Dar
