import Verif.Lemmas.ParallelSeek2
/- Lemmas for Props/ParallelSeek.lean: purging the pipe. -/
namespace Dar
namespace Pt
variable {α : Type}

/-- the threads are stopped and the pipe is empty -/
structure Susp (D : List α) (s : PtSt α) : Prop where
  run : s.run = false
  wait : s.wait = true
  lus : s.lus = []
  q : s.q = []
  ign : s.ign = 0
  cur : s.cur ≤ D.length

/-- number of acknowledgements due -/
def pend (e : PtEnv α) (s : PtSt α) : Nat := if s.ign = 0 then e.n else s.ign

/-- bound on the turns of the loops -/
def meas (e : PtEnv α) (s : PtSt α) : Nat :=
  2 * pot e s + (if s.lus = [] then 1 else 0) + (if s.ign = 0 then 0 else 2 * (e.nb + e.n) + 1)

theorem pend_pos {e : PtEnv α} {D : List α} (G : Good e D) (s : PtSt α) : 0 < pend e s := by
  unfold pend; have := G.npos; split <;> omega

theorem Susp.goRead {e : PtEnv α} {D : List α} (G : Good e D) {s : PtSt α} (h : Susp D s) :
    ∃ s', s.goRead e = .ok s' ∧ R e D s' false e.n (s.cur - s.cur % e.cb) ∧ s'.chk = true ∧ s'.lus = [] ∧ s'.cur = s.cur ∧ s'.ign = 0 ∧
      s'.lusEof = s.lusEof ∧ pot e s' ≤ e.nb + e.n := by
  have hmod := Nat.mod_lt s.cur G.cbpos
  have hdm := Nat.div_add_mod s.cur e.cb
  have hmul : e.cb * (s.cur / e.cb) = s.cur / e.cb * e.cb := Nat.mul_comm _ _
  have hcur := h.cur
  refine ⟨{ s with run := true, chk := true, flag := .normal, wait := false, idx := s.cur / e.cb, posIn := s.cur % e.cb,
                   reof := if s.weof then false else !e.canSkip (s.cur / e.cb) }, ?_, ?_, ?_, ?_, ?_, ?_, ?_, ?_⟩
  · unfold PtSt.goRead
    simp only [h.run, h.wait, Bool.false_eq_true, if_false, if_true]
  · refine ⟨rfl, h.cur, ⟨[], [], by simp [h.lus, h.q], ?_, (fun _ => Or.inl h.lus), (fun _ => rfl), (fun hx => by cases hx)⟩, ?_, ?_, ?_, ?_, ?_⟩
    · show s.cur - s.cur % e.cb = min (s.cur / e.cb * e.cb) D.length
      omega
    · intro i d off hm; simp [h.q] at hm
    · intro i d off hm; simp [h.lus] at hm
    · intro _; exact ⟨by dsimp only; omega, hmod⟩
    · intro hx
      by_cases hi : s.cur / e.cb < e.nb
      · simp [G.skips _ hi] at hx
      · exact Nat.le_trans G.enough (Nat.mul_le_mul_right _ (by dsimp only; omega))
    · intro _
      exact ⟨rfl, (fun hx => by cases hx), (fun hx => by cases hx), (fun hx => by cases hx)⟩
  · rfl
  · exact h.lus
  · rfl
  · exact h.ign
  · rfl
  · simp [pot, h.lus, h.q]

/-- data or the beginning of the acknowledgements is next; `pos` is where the caller wants to go -/
def PA (e : PtEnv α) (D : List α) (s : PtSt α) (pos : Nat) : Prop :=
  ∃ b c, R e D s b (pend e s) c ∧ (pos = 0 ∨ s.ign = 0 ∧ b = true ∧ pos ≤ D.length ∧
    ((Strong s c ∧ ∀ i d off l0, s.lus = .data i d off :: l0 → pos < s.cur) ∨
     (pos < s.cur ∧ s.chk = false ∧ ∀ i d off, PtItem.data i d off ∈ s.lus → off = 0)))

/-- among the acknowledgements -/
structure PB (e : PtEnv α) (D : List α) (s : PtSt α) (o : PtOrd) (num pos : Nat) : Prop where
  wait : s.wait = true
  cur : s.cur ≤ D.length
  items : s.lus ++ s.q = List.replicate (if s.ign = 0 then num else s.ign) (.ack o)
  npos : 0 < num
  ord : o ≠ .normal
  full : s.ign ≠ 0 → num = e.n ∧ pos = 0

/-- the purge is over: everything is stopped -/
structure Over (D : List α) (s : PtSt α) (o : PtOrd) (r : PtOrd × PtSt α) : Prop where
  eof : r.2.lusEof = s.lusEof
  ret : r.1 ≠ .normal
  susp : Susp D r.2
  cur : r.2.cur = s.cur
  isEof : o = .eof → r.1 = .eof

/-- result of the purge: stopped, or the position was found first -/
def Res (e : PtEnv α) (D : List α) (pos : Nat) (s : PtSt α) (r : PtOrd × PtSt α) : Prop :=
  r.2.lusEof = s.lusEof ∧
  ((r.1 = .normal ∧ pos ≠ 0 ∧ r.2.cur = pos ∧ r.2.ign = e.n ∧ r.2.chk = false ∧ R e D r.2 true e.n pos) ∨
   (r.1 ≠ .normal ∧ Susp D r.2 ∧ (pos = 0 → r.2.cur = s.cur) ∧ ∀ r0, s.lus = .ack .eof :: r0 → r.1 = .eof))

theorem belows_wait (e : PtEnv α) : ∀ (m : Nat) (s : PtSt α), s.wait = true → s.belows e m = s
  | 0, _, _ => rfl
  | m + 1, s, h => by
      have : s.below e = s := by unfold PtSt.below; simp [h]
      show (s.below e).belows e m = s
      rw [this]; exact belows_wait e m s h

/-- an acknowledgement is met -/
theorem purge_ack {e : PtEnv α} {D : List α} (G : Good e D) (k : Nat)
    (ihA : ∀ s pos, PA e D s pos → meas e s < k → ∃ r, s.purgeLoop e k .normal e.n pos = .ok r ∧ Res e D pos s r)
    (ihB : ∀ s o num pos, PB e D s o num pos → meas e s < k → ∃ r, s.purgeLoop e k o num pos = .ok r ∧ Over D s o r)
    (s : PtSt α) (o ret : PtOrd) (num pos : Nat) (r0 : List (PtItem α)) (h : PB e D s o num pos) (hl : s.lus = .ack o :: r0)
    (hret : ret = .normal ∨ ret = o) (hm : meas e s < k + 1) :
    ∃ r, s.purgeLoop e (k + 1) ret num pos = .ok r ∧ Over D s o r := by
  have hnum := h.npos
  have hloop : s.purgeLoop e (k + 1) ret num pos =
      match ({ s with lus := r0 } : PtSt α).purgeAck e o ret num pos with
        | .error x => .error x
        | .ok (s', ret', num', pos') => PtSt.purgeLoop e k ret' num' pos' s' := by
    rw [PtSt.purgeLoop]
    simp only [hl]
    rw [if_neg (by omega)]
    rfl
  have hr1 : ¬ (ret ≠ .normal ∧ ret ≠ o) := by rcases hret with h | h <;> simp [h]
  have hpot : pot e s = r0.length + 1 + s.q.length := by simp [pot, hl, h.wait]
  have hitems := h.items
  rw [hl] at hitems
  have hk1 : 1 ≤ k := by
    unfold meas at hm; rw [hpot] at hm; omega
  obtain ⟨k', rfl⟩ : ∃ k', k = k' + 1 := ⟨k - 1, by omega⟩
  by_cases hig : s.ign = 0
  · rw [if_pos hig] at hitems
    have hrest : r0 ++ s.q = List.replicate (num - 1) (.ack o) := by
      obtain ⟨n', rfl⟩ : ∃ n', num = n' + 1 := ⟨num - 1, by omega⟩
      simpa [List.replicate_succ] using hitems
    have hpa : ({ s with lus := r0 } : PtSt α).purgeAck e o ret num pos =
        .ok ({ s with lus := r0, run := if num = 1 then false else s.run }, o, num - 1, pos) := by
      unfold PtSt.purgeAck
      rw [if_neg hr1]
      rw [if_neg (by dsimp only; omega)]
    rw [hloop, hpa]
    dsimp only
    by_cases hn1 : num = 1
    · subst hn1
      simp only [Nat.sub_self, List.replicate_zero, List.append_eq_nil_iff] at hrest
      rw [show (1 - 1 : Nat) = 0 from rfl, PtSt.purgeLoop]
      simp only [if_true]
      exact ⟨_, rfl, ⟨rfl, h.ord, ⟨rfl, h.wait, hrest.1, hrest.2, hig, h.cur⟩, rfl, fun hx => hx⟩⟩
    · obtain ⟨r, hr, hO⟩ := ihB { s with lus := r0, run := if num = 1 then false else s.run } o (num - 1) pos
        ⟨h.wait, h.cur, by simpa [hig] using hrest, by omega, h.ord, (fun hx => absurd hig hx)⟩
        (by
          unfold meas pot at hm ⊢
          simp only [hl, List.length_cons, List.cons_ne_nil, if_false, h.wait, if_true, hig] at hm ⊢
          split <;> omega)
      exact ⟨r, hr, ⟨hO.eof, hO.ret, hO.susp, hO.cur, hO.isEof⟩⟩
  · rw [if_neg hig] at hitems
    obtain ⟨hnumN, hpos0⟩ := h.full hig
    have hrest : r0 ++ s.q = List.replicate (s.ign - 1) (.ack o) := by
      obtain ⟨n', hn'⟩ : ∃ n', s.ign = n' + 1 := ⟨s.ign - 1, by omega⟩
      rw [hn'] at hitems ⊢
      simpa [List.replicate_succ] using hitems
    by_cases hi1 : s.ign = 1
    · rw [hi1] at hrest
      simp only [Nat.sub_self, List.replicate_zero, List.append_eq_nil_iff] at hrest
      have hsus : Susp D ({ s with lus := r0, ign := 0, run := false } : PtSt α) := ⟨rfl, h.wait, hrest.1, hrest.2, rfl, h.cur⟩
      by_cases ho : o = .eof
      · have hpa : ({ s with lus := r0 } : PtSt α).purgeAck e o ret num pos =
            .ok ({ s with lus := r0, ign := 0, run := false }, o, 0, pos) := by
          unfold PtSt.purgeAck
          rw [if_neg hr1]
          rw [if_pos (by dsimp only; omega)]
          simp [hi1, ho]
        rw [hloop, hpa]
        dsimp only
        rw [PtSt.purgeLoop]
        simp only [if_true]
        exact ⟨_, rfl, ⟨rfl, h.ord, hsus, rfl, fun hx => hx⟩⟩
      · obtain ⟨s', hg, hR, hchk, hlus, hcur, hign, hle, hp⟩ := hsus.goRead G
        have hpa : ({ s with lus := r0 } : PtSt α).purgeAck e o ret num pos = .ok (s', .normal, num, 0) := by
          unfold PtSt.purgeAck
          rw [if_neg hr1]
          rw [if_pos (by dsimp only; omega)]
          simp only [hi1, if_true, ho, if_false, hg]
        rw [hloop, hpa]
        dsimp only
        rw [hnumN]
        obtain ⟨r, hr, hO⟩ := ihA s' 0 ⟨false, _, by simpa [pend, hign] using hR, Or.inl rfl⟩
          (by
            unfold meas at hm ⊢
            rw [hpot] at hm
            simp only [hig, if_false, hl, hlus, hign, if_true] at hm ⊢
            simp only [List.cons_ne_nil, if_false] at hm
            omega)
        refine ⟨r, hr, ?_⟩
        obtain ⟨h1, h2 | h2⟩ := hO
        · exact absurd rfl h2.2.1
        · exact ⟨by rw [h1, hle], h2.1, h2.2.1, by rw [h2.2.2.1 rfl, hcur], fun hx => absurd hx ho⟩
    · have hpa : ({ s with lus := r0 } : PtSt α).purgeAck e o ret num pos =
          .ok ({ s with lus := r0, ign := s.ign - 1 }, o, num, pos) := by
        unfold PtSt.purgeAck
        rw [if_neg hr1]
        rw [if_pos (by dsimp only; omega)]
        rw [if_neg hi1]
      rw [hloop, hpa]
      dsimp only
      have hig2 : s.ign - 1 ≠ 0 := by omega
      obtain ⟨r, hr, hO⟩ := ihB { s with lus := r0, ign := s.ign - 1 } o num pos
        ⟨h.wait, h.cur, by simpa [hig2] using hrest, h.npos, h.ord, fun _ => ⟨hnumN, hpos0⟩⟩
        (by
          unfold meas pot at hm ⊢
          simp only [hl, List.length_cons, List.cons_ne_nil, if_false, h.wait, if_true, hig, hig2] at hm ⊢
          split <;> omega)
      exact ⟨r, hr, ⟨hO.eof, hO.ret, hO.susp, hO.cur, hO.isEof⟩⟩

theorem feeds_data {D : List α} {cb c p : Nat} {ds tl l q : List (PtItem α)} {i : Nat} {d : List α} {off : Nat}
    (htl : ∀ x ∈ tl, ∃ o, x = PtItem.ack o) (hl : .data i d off :: l ++ q = ds ++ tl) (hF : Feeds D cb c ds p) :
    ∃ ds0, ds = .data i d off :: ds0 ∧ l ++ q = ds0 ++ tl ∧ d = blk D cb i ∧ c = i * cb + off ∧ off ≤ d.length ∧ i * cb < D.length ∧
      Feeds D cb (i * cb + d.length) ds0 p := by
  cases ds with
  | nil =>
    obtain ⟨o, ho⟩ := htl (.data i d off) (by rw [← List.nil_append tl, ← hl]; simp)
    cases ho
  | cons x ds0 =>
    simp only [List.cons_append, List.cons.injEq] at hl
    obtain ⟨hx, hl⟩ := hl
    subst hx
    obtain ⟨h1, h2, h3, h4, h5⟩ := hF
    exact ⟨ds0, rfl, hl, h1, h2, h3, h4, h5⟩

theorem feeds_bad {D : List α} {cb c p : Nat} {ds tl l q : List (PtItem α)} {i : Nat}
    (htl : ∀ x ∈ tl, ∃ o, x = PtItem.ack o) (hl : .bad i :: l ++ q = ds ++ tl) (hF : Feeds D cb c ds p) : False := by
  cases ds with
  | nil =>
    obtain ⟨o, ho⟩ := htl (.bad i) (by rw [← List.nil_append tl, ← hl]; simp)
    cases ho
  | cons x y => simp only [List.cons_append, List.cons.injEq] at hl; rw [← hl.1] at hF; exact hF.elim

/-- the head of the pipe is an acknowledgement: nothing else is left -/
theorem R.ack {e : PtEnv α} {D : List α} {s : PtSt α} {b : Bool} {k c : Nat} {o : PtOrd} {r0 : List (PtItem α)} (h : R e D s b k c)
    (hl : s.lus = .ack o :: r0) :
    s.wait = true ∧ s.lus ++ s.q = List.replicate k (.ack o) ∧ c = min (s.idx * e.cb) D.length ∧
      (o = .stop ∧ b = true ∨ o = .eof ∧ D.length ≤ s.idx * e.cb) := by
  obtain ⟨ds, tl, hl', hF, hc, ht1, ht2⟩ := h.feeds
  cases ds with
  | cons x y => rw [hl] at hl'; simp only [List.cons_append, List.cons.injEq] at hl'; rw [← hl'.1] at hF; exact hF.elim
  | nil =>
    rw [List.nil_append] at hl'
    have hw : s.wait = true := by
      cases hw : s.wait with
      | true => rfl
      | false => rw [ht1 hw, hl] at hl'; cases hl'
    obtain ⟨o', ho', h1⟩ := ht2 hw
    have : o' = o := by
      rw [ho', hl] at hl'
      cases k with
      | zero => cases hl'
      | succ k => simp only [List.replicate_succ, List.cons_append, List.cons.injEq, PtItem.ack.injEq] at hl'; exact hl'.1.symm
    subst this
    exact ⟨hw, by rw [hl', ho'], hF, h1⟩

/-- a block is dropped -/
theorem R.pop {e : PtEnv α} {D : List α} {s : PtSt α} {b : Bool} {k c : Nat} {i : Nat} {d : List α} {off : Nat} {r0 : List (PtItem α)}
    (h : R e D s b k c) (hl : s.lus = .data i d off :: r0) :
    s.chk = false ∧ R e D { s with lus := r0 } b k (i * e.cb + d.length) := by
  obtain ⟨ds, tl, hl', hF, hc, ht1, ht2⟩ := h.feeds
  rw [hl] at hl'
  obtain ⟨ds0, h1, h2, h3, h4, h5, h6, h7⟩ := feeds_data (acks_of_wait (e := e) (D := D) (b := b) (k := k) ht1 ht2) hl' hF
  have hchk : s.chk = false := by
    cases hck : s.chk with
    | false => rfl
    | true =>
      rcases hc hck with hx | hx
      · rw [hx] at hl; cases hl
      · rw [hx] at h1; cases h1
  refine ⟨hchk, h.run, h.cur, ⟨ds0, tl, h2, h7, (fun hx => by simp [hchk] at hx), ht1, ht2⟩, h.freshQ, ?_, (fun hx => by simp [hchk] at hx), h.reof, h.noWait⟩
  intro i' d' off' hm
  exact h.freshT i' d' off' (by rw [hl]; exact List.mem_of_mem_tail hm)

theorem purge_loop {e : PtEnv α} {D : List α} (G : Good e D) : ∀ k,
    (∀ s pos, PA e D s pos → meas e s < k → ∃ r, s.purgeLoop e k .normal e.n pos = .ok r ∧ Res e D pos s r) ∧
    (∀ s o num pos, PB e D s o num pos → meas e s < k → ∃ r, s.purgeLoop e k o num pos = .ok r ∧ Over D s o r)
  | 0 => ⟨fun _ _ _ h => absurd h (Nat.not_lt_zero _), fun _ _ _ _ _ h => absurd h (Nat.not_lt_zero _)⟩
  | k + 1 => by
    obtain ⟨ihA, ihB⟩ := purge_loop G k
    have hn := G.npos
    constructor
    · rintro s pos ⟨b, c, hR, hM⟩ hm
      have hn0 : ¬ e.n = 0 := by omega
      cases hl : s.lus with
      | nil =>
        obtain ⟨s1, c1, hrf, hR1, hne, hcur, hign, hle, hp, hch0, hch1⟩ := hR.refill G (pend_pos G s) hl
        have hpend : pend e s1 = pend e s := by simp [pend, hign]
        have hm1 : meas e s1 + 1 ≤ meas e s := by
          unfold meas
          simp only [hl, hne, if_true, if_false, hign]
          omega
        have hloop : s.purgeLoop e (k + 1) .normal e.n pos =
            match s1.lookup e .normal pos with
              | (true, s2) => .ok (.normal, s2)
              | (false, s2) => PtSt.purgeLoop e k .normal e.n pos s2 := by
          rw [PtSt.purgeLoop]
          simp only [hl, hn0, if_false, hrf]
          rfl
        rw [hloop]
        rcases hM with hpos | ⟨hig, hb, hpD, hM⟩
        · subst hpos
          have : s1.lookup e .normal 0 = (false, s1) := by simp [PtSt.lookup]
          rw [this]
          obtain ⟨r, hr, hres⟩ := ihA s1 0 ⟨b, c1, by rw [hpend]; exact hR1, Or.inl rfl⟩ (by omega)
          refine ⟨r, hr, ?_⟩
          obtain ⟨q1, q2 | q2⟩ := hres
          · exact absurd rfl q2.2.1
          · exact ⟨by rw [q1, hle], Or.inr ⟨q2.1, q2.2.1, (fun h => by rw [q2.2.2.1 h, hcur]), (fun r0 hx => by rw [hl] at hx; cases hx)⟩⟩
        · by_cases hp0 : pos = 0
          · subst hp0
            have : s1.lookup e .normal 0 = (false, s1) := by simp [PtSt.lookup]
            rw [this]
            obtain ⟨r, hr, hres⟩ := ihA s1 0 ⟨b, c1, by rw [hpend]; exact hR1, Or.inl rfl⟩ (by omega)
            refine ⟨r, hr, ?_⟩
            obtain ⟨q1, q2 | q2⟩ := hres
            · exact absurd rfl q2.2.1
            · exact ⟨by rw [q1, hle], Or.inr ⟨q2.1, q2.2.1, (fun h => by rw [q2.2.2.1 h, hcur]), (fun r0 hx => by rw [hl] at hx; cases hx)⟩⟩
          · rcases hM with ⟨hS, -⟩ | ⟨hlt, hchk, -⟩
            · have hS1 : Strong s1 c1 := by
                intro hc1
                by_cases hchk : s.chk = true
                · rcases hch1 hchk with ⟨h1, -⟩ | ⟨-, h2⟩
                  · rw [h1] at hc1; cases hc1
                  · rw [h2, hcur]
                · have hchk : s.chk = false := by simpa using hchk
                  rw [(hch0 hchk).2.1, hS hchk, hcur]
              obtain ⟨f, s2, c2, hf, hR2, hS2, hft, hff, hlen, heq⟩ := hR1.find hS1 pos
              have hi2 : s2.ign = s.ign := by rw [heq, hign]
              have he2 : s2.lusEof = s.lusEof := by rw [heq, hle]
              cases f with
              | true =>
                have : s1.lookup e .normal pos = (true, { s2 with ign := e.n }) := by
                  simp [PtSt.lookup, hp0, hf]
                rw [this]
                obtain ⟨g1, g2, g3⟩ := hft rfl
                have hc2 := hS2 g2
                refine ⟨_, rfl, he2, Or.inl ⟨rfl, hp0, g1, rfl, g2, ?_⟩⟩
                subst hb
                rw [hc2, g1] at hR2
                have hpn : pend e s = e.n := by simp [pend, hig]
                rw [hpn] at hR2
                exact ⟨hR2.run, hR2.cur, hR2.feeds, hR2.freshQ, hR2.freshT, hR2.chk, hR2.reof, hR2.noWait⟩
              | false =>
                have : s1.lookup e .normal pos = (false, s2) := by
                  simp [PtSt.lookup, hp0, hf]
                rw [this]
                have hpend2 : pend e s2 = pend e s := by simp [pend, hi2]
                have hpot2 : pot e s2 + s1.lus.length = pot e s1 + s2.lus.length := by
                  have hq : s2.q = s1.q := by rw [heq]
                  have hw : s2.wait = s1.wait := by rw [heq]
                  have hx : s2.idx = s1.idx := by rw [heq]
                  simp only [pot, hq, hw, hx]; omega
                obtain ⟨r, hr, hres⟩ := ihA s2 pos ⟨b, c2, by rw [hpend2]; exact hR2, Or.inr ⟨by rw [hi2, hig], hb, hpD, Or.inl ⟨hS2, hff rfl⟩⟩⟩
                  (by
                    have h1 : s1.lus.length ≠ 0 := by simpa using hne
                    have : meas e s2 ≤ meas e s1 := by
                      unfold meas
                      simp only [hne, if_false, hi2, hign]
                      by_cases hl2 : s2.lus = []
                      · simp only [hl2, if_true, List.length_nil] at hpot2 ⊢; omega
                      · simp only [hl2, if_false]; omega
                    omega)
                refine ⟨r, hr, ?_⟩
                obtain ⟨q1, q2 | q2⟩ := hres
                · exact ⟨by rw [q1, he2], Or.inl q2⟩
                · exact ⟨by rw [q1, he2], Or.inr ⟨q2.1, q2.2.1, (fun h => absurd h hp0), (fun r0 hx => by rw [hl] at hx; cases hx)⟩⟩
            · obtain ⟨hc1, hcc, hfr⟩ := hch0 hchk
              have hfind : s1.find pos = (false, s1) := by
                unfold PtSt.find
                cases hll : s1.lus with
                | nil => exact absurd hll hne
                | cons it r =>
                  cases it with
                  | data i d off =>
                    have : off = 0 := hfr i d off (by rw [hll]; simp)
                    subst this
                    simp [ptFind, hcur, hlt, ← hll, show ¬ s.cur ≤ pos by omega]
                    rw [← hcur]
                  | bad i => simp [ptFind, ← hll]
                  | ack o => simp [ptFind, ← hll]
              have : s1.lookup e .normal pos = (false, s1) := by
                simp [PtSt.lookup, hp0, hfind]
              rw [this]
              obtain ⟨r, hr, hres⟩ := ihA s1 pos ⟨b, c1, by rw [hpend]; exact hR1,
                Or.inr ⟨by rw [hign, hig], hb, hpD, Or.inr ⟨by rw [hcur]; exact hlt, hc1, hfr⟩⟩⟩ (by omega)
              refine ⟨r, hr, ?_⟩
              obtain ⟨q1, q2 | q2⟩ := hres
              · exact ⟨by rw [q1, hle], Or.inl q2⟩
              · exact ⟨by rw [q1, hle], Or.inr ⟨q2.1, q2.2.1, (fun h => absurd h hp0), (fun r0 hx => by rw [hl] at hx; cases hx)⟩⟩
      | cons it r0 =>
        cases it with
        | bad i =>
          obtain ⟨ds, tl, hl', hF, hc, ht1, ht2⟩ := hR.feeds
          rw [hl] at hl'
          exact (feeds_bad (acks_of_wait (e := e) (D := D) (b := b) (k := pend e s) ht1 ht2) hl' hF).elim
        | ack o =>
          obtain ⟨hw, hit, -, ho⟩ := hR.ack hl
          have hB : PB e D s o e.n pos := by
            refine ⟨hw, hR.cur, hit, hn, ?_, ?_⟩
            · rcases ho with ⟨ho, -⟩ | ⟨ho, -⟩ <;> simp [ho]
            · intro hi
              rcases hM with hM | hM
              · exact ⟨rfl, hM⟩
              · exact absurd hM.1 hi
          obtain ⟨r, hr, hO⟩ := purge_ack G k ihA ihB s o .normal e.n pos r0 hB hl (Or.inl rfl) hm
          refine ⟨r, hr, hO.eof, Or.inr ⟨hO.ret, hO.susp, fun _ => hO.cur, ?_⟩⟩
          intro r1 hx
          rw [hl] at hx
          simp only [List.cons.injEq, PtItem.ack.injEq] at hx
          exact hO.isEof hx.1
        | data i d off =>
          obtain ⟨hchk, hR'⟩ := hR.pop hl
          have hloop : s.purgeLoop e (k + 1) .normal e.n pos = PtSt.purgeLoop e k .normal e.n pos { s with lus := r0 } := by
            rw [PtSt.purgeLoop]
            simp only [hl, hn0, if_false]
          rw [hloop]
          obtain ⟨r, hr, hres⟩ := ihA { s with lus := r0 } pos
            ⟨b, _, hR', hM.imp id fun ⟨h1, h2, h3, h4⟩ => ⟨h1, h2, h3, Or.inr (by
              rcases h4 with ⟨-, h4⟩ | ⟨h4, -, h5⟩
              · exact ⟨h4 _ _ _ _ hl, hchk, fun i' d' off' hm => hR.freshT i' d' off' (by rw [hl]; exact hm)⟩
              · exact ⟨h4, hchk, fun i' d' off' hm => h5 i' d' off' (by rw [hl]; exact List.mem_cons_of_mem _ hm)⟩)⟩⟩
            (by
              unfold meas pot at hm ⊢
              simp only [hl, List.length_cons, List.cons_ne_nil, if_false] at hm ⊢
              by_cases hr0 : r0 = []
              · simp only [hr0, if_true, List.length_nil] at hm ⊢; omega
              · simp only [hr0, if_false]; omega)
          refine ⟨r, hr, ?_⟩
          obtain ⟨q1, q2 | q2⟩ := hres
          · exact ⟨q1, Or.inl q2⟩
          · exact ⟨q1, Or.inr ⟨q2.1, q2.2.1, q2.2.2.1, (fun r0 hx => by rw [hl] at hx; cases hx)⟩⟩
    · intro s o num pos h hm
      have hnum := h.npos
      cases hl : s.lus with
      | nil =>
        have hitems := h.items
        rw [hl, List.nil_append] at hitems
        obtain ⟨P, hP, hP0⟩ : ∃ P, s.q = List.replicate P (.ack o) ∧ 0 < P := ⟨_, hitems, by split <;> omega⟩
        obtain ⟨P', rfl⟩ : ∃ P', P = P' + 1 := ⟨P - 1, by omega⟩
        have hrf : s.refill e = .ok { s with lus := s.q.take ((e.sched s.clk).2 + 1), q := s.q.drop ((e.sched s.clk).2 + 1), clk := s.clk + 1 } := by
          have hq : s.q.isEmpty = false := by simp [hP, List.replicate_succ]
          unfold PtSt.refill PtSt.gather
          simp only [hl, List.isEmpty_nil, if_true, belows_wait e _ s h.wait, hq, Bool.false_eq_true, if_false]
          unfold PtSt.adjust
          simp [hP, List.replicate_succ]
        have hloop : s.purgeLoop e (k + 1) o num pos = PtSt.purgeLoop e k o num pos { s with lus := s.q.take ((e.sched s.clk).2 + 1), q := s.q.drop ((e.sched s.clk).2 + 1), clk := s.clk + 1 } := by
          rw [PtSt.purgeLoop]
          rw [if_neg (by omega)]
          simp only [hl, hrf]
          simp [PtSt.lookup, h.ord]
        rw [hloop]
        obtain ⟨r, hr, hO⟩ := ihB { s with lus := s.q.take ((e.sched s.clk).2 + 1), q := s.q.drop ((e.sched s.clk).2 + 1), clk := s.clk + 1 } o num pos
          ⟨h.wait, h.cur, by simpa using hitems, h.npos, h.ord, h.full⟩
          (by
            have hne : s.q.take ((e.sched s.clk).2 + 1) ≠ [] := by simp [hP, List.replicate_succ]
            unfold meas pot at hm ⊢
            simp only [hl, if_true, hne, if_false, h.wait, List.length_nil] at hm ⊢
            simp only [List.length_take, List.length_drop]
            omega)
        exact ⟨r, hr, ⟨hO.eof, hO.ret, hO.susp, hO.cur, hO.isEof⟩⟩
      | cons it r0 =>
        have : it = .ack o := by
          have hitems := h.items
          rw [hl] at hitems
          have : it ∈ List.replicate (if s.ign = 0 then num else s.ign) (PtItem.ack o) := by rw [← hitems]; simp
          exact (List.mem_replicate.mp this).2
        subst this
        exact purge_ack G k ihA ihB s o o num pos r0 h hl (Or.inr rfl) hm

end Pt
end Dar
