import Verif.Lemmas.ParallelSeek3
/- Lemmas for Props/ParallelSeek.lean: the calls. -/
namespace Dar
namespace Pt
variable {α : Type}

/-- between two calls -/
def Inv (e : PtEnv α) (D : List α) (s : PtSt α) : Prop :=
  (Susp D s ∧ (s.lusEof = true → s.cur = D.length)) ∨
  (s.lusEof = false ∧ ∃ b c, R e D s b (pend e s) c ∧ Strong s c ∧ (b = true ↔ s.ign ≠ 0))

theorem meas_fuel2 {e : PtEnv α} (s : PtSt α) : meas e s + 2 ≤ s.fuel e := by
  unfold meas pot PtSt.fuel
  split <;> split <;> split <;> omega

theorem meas_lt_fuel {e : PtEnv α} (s : PtSt α) : meas e s < s.fuel e := by
  unfold meas pot PtSt.fuel
  split <;> split <;> split <;> omega

theorem strong_refill {s s1 : PtSt α} {c c1 : Nat} (hS : Strong s c) (hcur : s1.cur = s.cur)
    (hch0 : s.chk = false → s1.chk = false ∧ c1 = c ∧ ∀ i d off, PtItem.data i d off ∈ s1.lus → off = 0)
    (hch1 : s.chk = true → s1.chk = true ∧ c1 = c ∨ s1.chk = false ∧ c1 = s.cur) : Strong s1 c1 := by
  intro hc1
  cases hchk : s.chk with
  | true =>
    rcases hch1 hchk with ⟨h1, -⟩ | ⟨-, h2⟩
    · rw [h1] at hc1; cases hc1
    · rw [h2, hcur]
  | false => rw [(hch0 hchk).2.1, hS hchk, hcur]

theorem purge_spec {e : PtEnv α} {D : List α} (G : Good e D) {s : PtSt α} {b : Bool} {c pos : Nat} (hR : R e D s b (pend e s) c)
    (hS : pos ≠ 0 → Strong s c) (hM : pos = 0 ∨ s.ign = 0 ∧ b = true ∧ pos ≤ D.length) :
    ∃ r, s.purge e pos = .ok r ∧ r.2.lusEof = s.lusEof ∧
      ((r.1 = .normal ∧ pos ≠ 0 ∧ r.2.cur = pos ∧ r.2.ign = e.n ∧ r.2.chk = false ∧ R e D r.2 true e.n pos) ∨
       (r.1 ≠ .normal ∧ Susp D r.2 ∧ (pos = 0 → r.2.cur = s.cur ∧ ∀ r0, s.lus = .ack .eof :: r0 → r.1 = .eof))) := by
  have hfuel := meas_lt_fuel (e := e) s
  obtain ⟨s1, c1, hrf, hR1, hS1, hcur, hign, hle, hm1, hlus⟩ : ∃ s1 c1, s.refill e = .ok s1 ∧ R e D s1 b (pend e s) c1 ∧ (pos ≠ 0 → Strong s1 c1) ∧
      s1.cur = s.cur ∧ s1.ign = s.ign ∧ s1.lusEof = s.lusEof ∧ meas e s1 ≤ meas e s ∧ (∀ x r0, s.lus = x :: r0 → s1.lus = s.lus) := by
    by_cases hl : s.lus = []
    · obtain ⟨s1, c1, hrf, hR1, hne, hcur, hign, hle, hp, hch0, hch1⟩ := hR.refill G (pend_pos G s) hl
      refine ⟨s1, c1, hrf, hR1, fun h => strong_refill (hS h) hcur hch0 hch1, hcur, hign, hle, ?_, (fun x r0 hx => by rw [hl] at hx; cases hx)⟩
      unfold meas
      simp only [hl, hne, if_true, if_false, hign]
      omega
    · exact ⟨s, c, refill_nonempty e hl, hR, hS, rfl, rfl, rfl, Nat.le_refl _, fun _ _ _ => rfl⟩
  have hpend : pend e s1 = pend e s := by simp [pend, hign]
  have hpurge : s.purge e pos = match s1.lookup e .normal pos with
      | (true, s2) => .ok (.normal, s2)
      | (false, s2) => PtSt.purgeLoop e (s.fuel e) .normal e.n pos s2 := by
    unfold PtSt.purge
    rw [hrf]
    rfl
  rw [hpurge]
  by_cases hp0 : pos = 0
  · subst hp0
    have : s1.lookup e .normal 0 = (false, s1) := by simp [PtSt.lookup]
    rw [this]
    obtain ⟨r, hr, q1, q2 | q2⟩ := (purge_loop G (s.fuel e)).1 s1 0 ⟨b, c1, by rw [hpend]; exact hR1, Or.inl rfl⟩ (by omega)
    · exact absurd rfl q2.2.1
    · refine ⟨r, hr, by rw [q1, hle], Or.inr ⟨q2.1, q2.2.1, fun _ => ⟨by rw [q2.2.2.1 rfl, hcur], fun r0 hx => ?_⟩⟩⟩
      exact q2.2.2.2 r0 (by rw [hlus _ _ hx, hx])
  · obtain ⟨hig, hb, hpD⟩ := hM.resolve_left hp0
    obtain ⟨f, s2, c2, hf, hR2, hS2, hft, hff, hlen, heq⟩ := hR1.find (hS1 hp0) pos
    have hi2 : s2.ign = s.ign := by rw [heq, hign]
    have he2 : s2.lusEof = s.lusEof := by rw [heq, hle]
    cases f with
    | true =>
      have : s1.lookup e .normal pos = (true, { s2 with ign := e.n }) := by
        simp [PtSt.lookup, hp0, hf]
      rw [this]
      obtain ⟨g1, g2, g3⟩ := hft rfl
      have hc2 := hS2 g2
      refine ⟨_, rfl, he2, Or.inl ⟨rfl, hp0, g1, rfl, g2, ?_⟩⟩
      subst hb
      rw [hc2, g1] at hR2
      have hpn : pend e s = e.n := by simp [pend, hig]
      rw [hpn] at hR2
      exact ⟨hR2.run, hR2.cur, hR2.feeds, hR2.freshQ, hR2.freshT, hR2.chk, hR2.reof, hR2.noWait⟩
    | false =>
      have : s1.lookup e .normal pos = (false, s2) := by
        simp [PtSt.lookup, hp0, hf]
      rw [this]
      have hpend2 : pend e s2 = pend e s := by simp [pend, hi2]
      have hpot2 : pot e s2 + s1.lus.length = pot e s1 + s2.lus.length := by
        have hq : s2.q = s1.q := by rw [heq]
        have hw : s2.wait = s1.wait := by rw [heq]
        have hx : s2.idx = s1.idx := by rw [heq]
        simp only [pot, hq, hw, hx]; omega
      obtain ⟨r, hr, q1, q2⟩ := (purge_loop G (s.fuel e)).1 s2 pos
        ⟨b, c2, by rw [hpend2]; exact hR2, Or.inr ⟨by rw [hi2, hig], hb, hpD, Or.inl ⟨hS2, hff rfl⟩⟩⟩
        (by
          have : meas e s2 ≤ meas e s1 + 1 := by
            unfold meas
            simp only [hi2, hign]
            split <;> split <;> omega
          have : meas e s + 2 ≤ s.fuel e := meas_fuel2 s
          omega)
      refine ⟨r, hr, by rw [q1, he2], ?_⟩
      rcases q2 with q2 | q2
      · exact Or.inl q2
      · exact Or.inr ⟨q2.1, q2.2.1, fun h => absurd h hp0⟩

/-- the stop order -/
theorem sendStop_spec {e : PtEnv α} {D : List α} (G : Good e D) {s : PtSt α} {b : Bool} {c pos : Nat} (hR : R e D s b (pend e s) c)
    (hS : pos ≠ 0 → Strong s c) (hM : pos = 0 ∨ s.ign = 0 ∧ pos ≤ D.length) :
    ∃ f s', s.sendStop e pos = .ok (f, s') ∧ s'.lusEof = s.lusEof ∧
      (f = false → pos ≠ 0 ∧ s'.cur = pos ∧ s'.ign = e.n ∧ s'.chk = false ∧ R e D s' true e.n pos) ∧
      (f = true → Susp D s' ∧ (pos = 0 → s'.cur = s.cur)) := by
  obtain ⟨h1, hs1, hp1⟩ := R.belows G (e.sched s.clk).1 hR
  have h2 : R e D { s.belows e (e.sched s.clk).1 with flag := .stop, clk := s.clk + 1 } true (pend e s) c := by
    obtain ⟨ds, tl, hl, hF, hc, ht1, ht2⟩ := h1.feeds
    exact ⟨h1.run, h1.cur, ⟨ds, tl, hl, hF, hc, ht1, fun hw => (by
      obtain ⟨o, ho, h⟩ := ht2 hw
      exact ⟨o, ho, h.imp (fun h => ⟨h.1, rfl⟩) id⟩)⟩, h1.freshQ, h1.freshT, h1.chk, h1.reof,
      fun hw => ⟨(h1.noWait hw).1, (fun _ => rfl), (fun _ h => by cases h), (fun h => by cases h)⟩⟩
  have hpend : pend e ({ s.belows e (e.sched s.clk).1 with flag := .stop, clk := s.clk + 1 } : PtSt α) = pend e s := by simp [pend, hs1.ign]
  have hS2 : pos ≠ 0 → Strong ({ s.belows e (e.sched s.clk).1 with flag := .stop, clk := s.clk + 1 } : PtSt α) c := by
    intro hp hc
    have hc' : s.chk = false := by rw [← hs1.chk]; exact hc
    show c = (s.belows e (e.sched s.clk).1).cur
    rw [hs1.cur]; exact hS hp hc'
  obtain ⟨r, hr, q1, q2⟩ := purge_spec G (pos := pos) (by rw [hpend]; exact h2) hS2
    (hM.imp id fun h => ⟨by show (s.belows e (e.sched s.clk).1).ign = 0; rw [hs1.ign]; exact h.1, rfl, h.2⟩)
  have hse : s.sendStop e pos = if r.1 = .normal then (if pos = 0 then .error .bug else .ok (false, r.2)) else .ok (true, r.2) := by
    unfold PtSt.sendStop
    rw [if_pos hR.run, hr]
  rw [hse]
  have he : r.2.lusEof = s.lusEof := by rw [q1]; exact hs1.lusEof
  rcases q2 with ⟨a1, a2, a3⟩ | ⟨a1, a2, a3⟩
  · rw [if_pos a1, if_neg a2]
    exact ⟨false, r.2, rfl, he, fun _ => ⟨a2, a3⟩, (fun h => by cases h)⟩
  · rw [if_neg a1]
    exact ⟨true, r.2, rfl, he, (fun h => by cases h), fun _ => ⟨a2, fun h => by rw [(a3 h).1]; exact hs1.cur⟩⟩

/-- what the acknowledgements of an order not waited for leave -/
theorem R.dropAck {e : PtEnv α} {D : List α} {s : PtSt α} {b : Bool} {k c : Nat} {o : PtOrd} {r0 : List (PtItem α)} (h : R e D s b (k + 1) c)
    (hl : s.lus = .ack o :: r0) (m : Nat) : R e D { s with ign := m, lus := r0 } b k c := by
  obtain ⟨hw, hit, hc, ho⟩ := h.ack hl
  rw [hl] at hit
  have hit' : r0 ++ s.q = List.replicate k (.ack o) := by simpa [List.replicate_succ] using hit
  refine ⟨h.run, h.cur, ⟨[], List.replicate k (.ack o), hit', hc, (fun _ => Or.inr rfl), (fun hx => by simp [hw] at hx), fun _ => ⟨o, rfl, ho⟩⟩,
    h.freshQ, ?_, h.chk, h.reof, (fun hx => by simp [hw] at hx)⟩
  intro i d off hm
  exact h.freshT i d off (by rw [hl]; exact List.mem_of_mem_tail hm)

theorem R.lastAck {e : PtEnv α} {D : List α} {s : PtSt α} {b : Bool} {c : Nat} {o : PtOrd} {r0 : List (PtItem α)} (h : R e D s b 1 c)
    (hl : s.lus = .ack o :: r0) : r0 = [] ∧ s.q = [] ∧ s.wait = true := by
  obtain ⟨hw, hit, hc, ho⟩ := h.ack hl
  rw [hl] at hit
  simp at hit
  exact ⟨hit.1, hit.2, hw⟩

theorem unackLoop_spec {e : PtEnv α} {D : List α} (G : Good e D) (pos : Nat) : ∀ (k : Nat) (look : Bool) (s : PtSt α) (c : Nat),
    R e D s true s.ign c → s.ign ≠ 0 → (look = true → Strong s c) → meas e s < k →
    ∃ f s', s.unackLoop e pos k look = .ok (f, s') ∧ s'.lusEof = s.lusEof ∧ (f = true → Susp D s') ∧
      (f = false → s'.cur = pos ∧ s'.ign ≠ 0 ∧ s'.chk = false ∧ R e D s' true s'.ign pos)
  | 0, _, _, _, _, _, _, hm => absurd hm (Nat.not_lt_zero _)
  | k + 1, look, s, c, hR, hig, hS, hm => by
    obtain ⟨s1, c1, hrf, hR1, hS1, hne, hign, hle, hm1⟩ : ∃ s1 c1, s.refill e = .ok s1 ∧ R e D s1 true s1.ign c1 ∧ (look = true → Strong s1 c1) ∧
        s1.lus ≠ [] ∧ s1.ign = s.ign ∧ s1.lusEof = s.lusEof ∧ meas e s1 ≤ meas e s := by
      by_cases hl : s.lus = []
      · obtain ⟨s1, c1, hrf, hR1, hne, hcur, hign, hle, hp, hch0, hch1⟩ := hR.refill G (by omega) hl
        refine ⟨s1, c1, hrf, by rw [hign]; exact hR1, fun h => strong_refill (hS h) hcur hch0 hch1, hne, hign, hle, ?_⟩
        unfold meas
        simp only [hl, hne, if_true, if_false, hign]
        omega
      · exact ⟨s, c, refill_nonempty e hl, hR, hS, hl, rfl, rfl, Nat.le_refl _⟩
    have hig1 : s1.ign ≠ 0 := by rw [hign]; exact hig
    rw [PtSt.unackLoop]
    rw [hrf]
    dsimp only
    cases hl : s1.lus with
    | nil => exact absurd hl hne
    | cons it r0 =>
      cases it with
      | bad i =>
        obtain ⟨ds, tl, hl', hF, hc, ht1, ht2⟩ := hR1.feeds
        rw [hl] at hl'
        exact (feeds_bad (acks_of_wait (e := e) (D := D) (b := true) (k := s1.ign) ht1 ht2) hl' hF).elim
      | ack o =>
        dsimp only
        rw [if_neg hig1]
        by_cases hi1 : s1.ign = 1
        · rw [if_pos hi1]
          rw [hi1] at hR1
          obtain ⟨h1, h2, h3⟩ := hR1.lastAck hl
          exact ⟨true, _, rfl, hle, fun _ => ⟨rfl, h3, h1, h2, rfl, hR1.cur⟩, (fun h => by cases h)⟩
        · rw [if_neg hi1]
          obtain ⟨n', hn'⟩ : ∃ n', s1.ign = n' + 1 := ⟨s1.ign - 1, by omega⟩
          have hR2 : R e D { s1 with ign := s1.ign - 1, lus := r0 } true (s1.ign - 1) c1 := by
            rw [hn'] at hR1
            have := hR1.dropAck hl (s1.ign - 1)
            rw [hn'] at this ⊢
            exact this
          obtain ⟨f, s', h1, h2, h3, h4⟩ := unackLoop_spec G pos k look { s1 with ign := s1.ign - 1, lus := r0 } c1 hR2 (by dsimp only; omega)
            (fun h hc => hS1 h hc)
            (by
              have hmm : meas e ({ s1 with ign := s1.ign - 1, lus := r0 } : PtSt α) < meas e s1 := by
                have hx : s1.ign - 1 ≠ 0 := by omega
                unfold meas pot
                simp only [hl, List.length_cons, List.cons_ne_nil, if_false, hig1, hx]
                by_cases hr0 : r0 = []
                · simp only [hr0, if_true, List.length_nil]; omega
                · simp only [hr0, if_false]; omega
              omega)
          exact ⟨f, s', h1, by rw [h2]; exact hle, h3, h4⟩
      | data i d off =>
        dsimp only
        have hmp : ∀ t : PtSt α, t = { s1 with cur := t.cur, lus := t.lus } → t.lus.length < s1.lus.length → meas e t < meas e s1 := by
          intro t ht hlt
          have hq : t.q = s1.q := by rw [ht]
          have hw : t.wait = s1.wait := by rw [ht]
          have hx : t.idx = s1.idx := by rw [ht]
          have hi : t.ign = s1.ign := by rw [ht]
          unfold meas pot
          simp only [hq, hw, hx, hi, hne, if_false]
          by_cases ht0 : t.lus = []
          · simp only [ht0, if_true, List.length_nil] at hlt ⊢; omega
          · simp only [ht0, if_false]; omega
        by_cases hlp : (look && decide (pos ≠ 0)) = true
        · rw [if_pos hlp]
          simp only [Bool.and_eq_true] at hlp
          obtain ⟨f, s2, c2, hf, hR2, hS2, hft, hff, hlen, heq⟩ := hR1.find (hS1 hlp.1) pos
          have hi2 : s2.ign = s1.ign := by rw [heq]
          have he2 : s2.lusEof = s1.lusEof := by rw [heq]
          rw [hf]
          cases f with
          | true =>
            obtain ⟨g1, g2, g3⟩ := hft rfl
            have hc2 := hS2 g2
            rw [hc2, g1] at hR2
            exact ⟨false, s2, rfl, by rw [he2, hle], (fun h => by cases h), fun _ => ⟨g1, by rw [hi2]; exact hig1, g2, by rw [hi2]; exact hR2⟩⟩
          | false =>
            dsimp only
            rw [← hi2] at hR2
            have hlt : (∀ i d off l0, s2.lus ≠ .data i d off :: l0) → s2.lus.length < s1.lus.length := by
              intro hnd
              rcases Nat.lt_or_ge s2.lus.length s1.lus.length with h | h
              · exact h
              · exfalso
                have hchk := (hR1.pop hl).1
                have hc1 := hS1 hlp.1 hchk
                have hfd : s1.find pos = (false, s2) := hf
                unfold PtSt.find at hfd
                rw [hl] at hfd
                simp only [ptFind] at hfd
                have hone : ∀ (c : Nat) (l : List (PtItem α)), (ptFind pos c l).2.2.length ≤ l.length := by
                  intro c l
                  induction l generalizing c with
                  | nil => simp [ptFind]
                  | cons x r ih =>
                    cases x with
                    | bad i => simp [ptFind]
                    | ack o => simp [ptFind]
                    | data i d off =>
                      simp only [ptFind]
                      split
                      · split <;> simp
                      · split
                        · simp
                        · split
                          · simp
                          · have := ih (c + (d.length - off)); simp only [List.length_cons]; omega
                by_cases hA : pos < s1.cur
                · by_cases hB : s1.cur ≤ pos + off
                  · simp [hA, hB] at hfd
                  · simp only [hA, hB, if_true, if_false, Prod.mk.injEq, true_and] at hfd
                    exact hnd i d off r0 (by rw [← hfd])
                · by_cases hB : pos < s1.cur + (d.length - off)
                  · simp [hA, hB] at hfd
                  · by_cases hC : s1.cur + (d.length - off) = pos ∧ r0 ≠ []
                    · simp [hA, hC] at hfd
                    · simp only [hA, hB, hC, if_false, Prod.mk.injEq] at hfd
                      have h5 := hone (s1.cur + (d.length - off)) r0
                      have h6 : s2.lus = (ptFind pos (s1.cur + (d.length - off)) r0).2.2 := by rw [← hfd.2]
                      rw [h6, hl] at h
                      simp only [List.length_cons] at h
                      omega
            cases hl2 : s2.lus with
            | nil =>
              dsimp only
              obtain ⟨f, s', h1, h2, h3, h4⟩ := unackLoop_spec G pos k look s2 c2 hR2 (by rw [hi2]; exact hig1) (fun _ => hS2)
                (by have := hmp s2 heq (hlt (by intro i d off l0 hx; rw [hl2] at hx; cases hx)); omega)
              exact ⟨f, s', h1, by rw [h2, he2, hle], h3, h4⟩
            | cons it2 r2 =>
              cases it2 with
              | bad i =>
                obtain ⟨ds, tl, hl', hF, hc, ht1, ht2⟩ := hR2.feeds
                rw [hl2] at hl'
                exact (feeds_bad (acks_of_wait (e := e) (D := D) (b := true) (k := s2.ign) ht1 ht2) hl' hF).elim
              | ack o =>
                dsimp only
                obtain ⟨f, s', h1, h2, h3, h4⟩ := unackLoop_spec G pos k look s2 c2 hR2 (by rw [hi2]; exact hig1) (fun _ => hS2)
                  (by have := hmp s2 heq (hlt (by intro i d off l0 hx; rw [hl2] at hx; cases hx)); omega)
                exact ⟨f, s', h1, by rw [h2, he2, hle], h3, h4⟩
              | data i2 d2 off2 =>
                dsimp only
                obtain ⟨hck, hR3⟩ := hR2.pop hl2
                obtain ⟨f, s', h1, h2, h3, h4⟩ := unackLoop_spec G pos k false { s2 with lus := r2 } _ hR3 (by dsimp only; rw [hi2]; exact hig1) (fun h => by cases h)
                  (by
                    have := hmp { s2 with lus := r2 } (by rw [heq]) (by
                      have : r2.length + 1 = s2.lus.length := by rw [hl2]; rfl
                      dsimp only; omega)
                    omega)
                exact ⟨f, s', h1, by rw [h2]; exact he2.trans hle, h3, h4⟩
        · rw [if_neg hlp]
          obtain ⟨hck, hR3⟩ := hR1.pop hl
          obtain ⟨f, s', h1, h2, h3, h4⟩ := unackLoop_spec G pos k false { s1 with lus := r0 } _ hR3 hig1 (fun h => by cases h)
            (by
              have := hmp { s1 with lus := r0 } rfl (by rw [hl]; simp)
              omega)
          exact ⟨f, s', h1, by rw [h2]; exact hle, h3, h4⟩

theorem unack_spec {e : PtEnv α} {D : List α} (G : Good e D) {s : PtSt α} {c : Nat} (pos : Nat) (hR : R e D s true s.ign c) (hig : s.ign ≠ 0)
    (hS : Strong s c) :
    ∃ f s', s.unack e pos = .ok (f, s') ∧ s'.lusEof = s.lusEof ∧ (f = true → Susp D s') ∧
      (f = false → s'.cur = pos ∧ s'.ign ≠ 0 ∧ s'.chk = false ∧ R e D s' true s'.ign pos) := by
  unfold PtSt.unack
  have hfuel := meas_lt_fuel (e := e) s
  by_cases hp : pos = 0
  · subst hp
    simp only [if_true, Bool.false_eq_true, if_false, hig]
    exact unackLoop_spec G 0 _ true s c hR hig (fun _ => hS) hfuel
  · obtain ⟨f, s2, c2, hf, hR2, hS2, hft, hff, hlen, heq⟩ := hR.find hS pos
    have hi2 : s2.ign = s.ign := by rw [heq]
    have he2 : s2.lusEof = s.lusEof := by rw [heq]
    simp only [hp, if_false, hf]
    cases f with
    | true =>
      obtain ⟨g1, g2, g3⟩ := hft rfl
      have hc2 := hS2 g2
      rw [hc2, g1] at hR2
      exact ⟨false, s2, rfl, he2, (fun h => by cases h), fun _ => ⟨g1, by rw [hi2]; exact hig, g2, by rw [hi2]; exact hR2⟩⟩
    | false =>
      simp only [Bool.false_eq_true, if_false]
      rw [if_neg (by rw [hi2]; exact hig)]
      obtain ⟨f, s', h1, h2, h3, h4⟩ := unackLoop_spec G pos (s.fuel e) true s2 c2 (by rw [hi2]; exact hR2) (by rw [hi2]; exact hig) (fun _ => hS2)
        (by
          have hpot2 : pot e s2 + s.lus.length = pot e s + s2.lus.length := by
            have hq : s2.q = s.q := by rw [heq]
            have hw : s2.wait = s.wait := by rw [heq]
            have hx : s2.idx = s.idx := by rw [heq]
            simp only [pot, hq, hw, hx]; omega
          have : meas e s2 ≤ meas e s + 1 := by
            unfold meas
            simp only [hi2]
            split <;> split <;> omega
          have : meas e s + 2 ≤ s.fuel e := meas_fuel2 s
          omega)
      exact ⟨f, s', h1, by rw [h2, he2], h3, h4⟩

theorem Inv.skip {e : PtEnv α} {D : List α} (G : Good e D) {s : PtSt α} (h : Inv e D s) (pos : Nat) (hp : pos ≤ D.length) :
    ∃ s', s.skip e pos = .ok s' ∧ Inv e D s' ∧ s'.cur = pos := by
  unfold PtSt.skip
  by_cases hc : pos = s.cur
  · rw [if_pos hc]; exact ⟨s, rfl, h, hc.symm⟩
  rw [if_neg hc]
  rcases h with ⟨hS, he⟩ | ⟨he, b, c, hR, hSt, hb⟩
  · have hf : s.find pos = (false, s) := by
      unfold PtSt.find
      rw [hS.lus]
      simp [ptFind, ← hS.lus]
    rw [hf]
    dsimp only
    have hs : s.sendStop e pos = .ok (true, s) := by
      unfold PtSt.sendStop
      rw [if_neg (by simp [hS.run])]
    rw [if_pos hS.ign, hs]
    dsimp only
    exact ⟨_, rfl, Or.inl ⟨⟨hS.run, hS.wait, hS.lus, hS.q, hS.ign, hp⟩, (fun h => by cases h)⟩, rfl⟩
  · obtain ⟨f, s2, c2, hf, hR2, hS2, hft, hff, hlen, heq⟩ := hR.find hSt pos
    have hi2 : s2.ign = s.ign := by rw [heq]
    have he2 : s2.lusEof = s.lusEof := by rw [heq]
    have hp2 : pend e s2 = pend e s := by simp [pend, hi2]
    rw [← hp2] at hR2
    rw [hf]
    cases f with
    | true => exact ⟨s2, rfl, Or.inr ⟨by rw [he2, he], b, c2, hR2, hS2, by rw [hi2]; exact hb⟩, (hft rfl).1⟩
    | false =>
      dsimp only
      by_cases hig : s2.ign = 0
      · rw [if_pos hig]
        obtain ⟨f, s', h1, h2, h3, h4⟩ := sendStop_spec G (pos := pos) hR2 (fun _ => hS2) (Or.inr ⟨hig, hp⟩)
        rw [h1]
        cases f with
        | true =>
          dsimp only
          have hS := (h4 rfl).1
          exact ⟨_, rfl, Or.inl ⟨⟨hS.run, hS.wait, hS.lus, hS.q, hS.ign, hp⟩, (fun h => by cases h)⟩, rfl⟩
        | false =>
          dsimp only
          obtain ⟨-, a1, a2, a3, a4⟩ := h3 rfl
          have hn : s'.ign ≠ 0 := by have := G.npos; omega
          refine ⟨s', rfl, Or.inr ⟨by rw [h2, he2, he], true, pos, ?_, fun _ => a1.symm, ?_⟩, a1⟩
          · have : pend e s' = e.n := by unfold pend; rw [if_neg hn, a2]
            rw [this]; exact a4
          · simp [hn]
      · rw [if_neg hig]
        have hbt : b = true := hb.mpr (by rw [← hi2]; exact hig)
        have hpi : pend e s2 = s2.ign := by simp [pend, hig]
        rw [hbt, hpi] at hR2
        obtain ⟨f, s', h1, h2, h3, h4⟩ := unack_spec G pos hR2 hig hS2
        rw [h1]
        cases f with
        | true =>
          dsimp only
          have hS := h3 rfl
          exact ⟨_, rfl, Or.inl ⟨⟨hS.run, hS.wait, hS.lus, hS.q, hS.ign, hp⟩, (fun h => by cases h)⟩, rfl⟩
        | false =>
          dsimp only
          obtain ⟨a1, a2, a3, a4⟩ := h4 rfl
          refine ⟨s', rfl, Or.inr ⟨by rw [h2, he2, he], true, pos, ?_, fun _ => a1.symm, ?_⟩, a1⟩
          · have : pend e s' = s'.ign := by simp [pend, a2]
            rw [this]; exact a4
          · simp [a2]

theorem Inv.flush {e : PtEnv α} {D : List α} (G : Good e D) {s : PtSt α} (h : Inv e D s) :
    ∃ s', s.flush e = .ok s' ∧ Inv e D s' ∧ s'.cur = s.cur ∧ Susp D s' ∧ s'.lusEof = s.lusEof := by
  unfold PtSt.flush
  rcases h with ⟨hS, he⟩ | ⟨he, b, c, hR, hSt, hb⟩
  · have hs : s.sendStop e 0 = .ok (true, s) := by
      unfold PtSt.sendStop
      rw [if_neg (by simp [hS.run])]
    rw [hs]
    exact ⟨s, rfl, Or.inl ⟨hS, he⟩, rfl, hS, rfl⟩
  · obtain ⟨f, s', h1, h2, h3, h4⟩ := sendStop_spec G (pos := 0) hR (fun h => absurd rfl h) (Or.inl rfl)
    rw [h1]
    cases f with
    | true =>
      obtain ⟨hS, hc⟩ := h4 rfl
      exact ⟨s', rfl, Or.inl ⟨hS, fun h => by rw [h2, he] at h; cases h⟩, hc rfl, hS, h2⟩
    | false => exact absurd rfl (h3 rfl).1

end Pt
end Dar
