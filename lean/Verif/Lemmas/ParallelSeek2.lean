import Verif.Lemmas.ParallelSeek
/- Lemmas for Props/ParallelSeek.lean: refilling from the pipe and searching a position in it. -/
namespace Dar
namespace Pt
variable {α : Type}

theorem acks_of_wait {e : PtEnv α} {D : List α} {s : PtSt α} {b : Bool} {k : Nat} {tl : List (PtItem α)}
    (h1 : s.wait = false → tl = [])
    (h2 : s.wait = true → ∃ o, tl = List.replicate k (.ack o) ∧ (o = .stop ∧ b = true ∨ o = .eof ∧ D.length ≤ s.idx * e.cb)) :
    ∀ x ∈ tl, ∃ o, x = PtItem.ack o := by
  intro x hx
  by_cases hw : s.wait = true
  · obtain ⟨o, ho, _⟩ := h2 hw
    rw [ho] at hx
    exact ⟨o, (List.mem_replicate.mp hx).2⟩
  · rw [h1 (by simpa using hw)] at hx; cases hx

theorem R.q_ne {e : PtEnv α} {D : List α} {s : PtSt α} {b : Bool} {k c : Nat} (h : R e D s b k c) (hk : 0 < k) (hl : s.lus = [])
    (hw : s.wait = true) : s.q ≠ [] := by
  obtain ⟨ds, tl, hl', -, -, -, h2⟩ := h.feeds
  obtain ⟨o, ho, _⟩ := h2 hw
  intro hq
  rw [hl, hq, ho] at hl'
  have := congrArg List.length hl'
  simp at this
  omega

theorem R.gather {e : PtEnv α} {D : List α} (G : Good e D) {s : PtSt α} {b : Bool} {k c : Nat} (h : R e D s b k c) (hk : 0 < k)
    (hl : s.lus = []) :
    ∃ s2 j, R e D s2 b k c ∧ Same s s2 ∧ pot e s2 ≤ pot e s ∧ s2.q ≠ [] ∧
      s.gather e = .ok { s2 with lus := s2.q.take (j + 1), q := s2.q.drop (j + 1), clk := s.clk + 1 } := by
  obtain ⟨h1, hs1, hp1⟩ := R.belows G (e.sched s.clk).1 h
  by_cases hq : ((s.belows e (e.sched s.clk).1).q).isEmpty = true
  · have hw : (s.belows e (e.sched s.clk).1).wait = false := by
      rcases Bool.eq_false_or_eq_true (s.belows e (e.sched s.clk).1).wait with hw | hw
      · have := h1.q_ne hk (by rw [hs1.lus, hl]) hw
        exact absurd (List.isEmpty_iff.mp hq) this
      · exact hw
    have hne := h1.progress G hw
    obtain ⟨h2, hs2, hp2⟩ := R.belows G 3 h1
    refine ⟨_, (e.sched s.clk).2, h2, hs1.trans hs2, Nat.le_trans hp2 hp1, hne, ?_⟩
    unfold PtSt.gather
    simp only [hq, if_true]
    rw [if_neg (by simpa using hne)]
  · refine ⟨_, (e.sched s.clk).2, h1, hs1, hp1, by simpa using hq, ?_⟩
    unfold PtSt.gather
    simp only [hq, Bool.false_eq_true, if_false]

theorem tail_take_sub (l : List (PtItem α)) (j : Nat) : ∀ x ∈ (l.take j).tail, x ∈ l := fun _ hx =>
  List.mem_of_mem_take (List.mem_of_mem_tail hx)

theorem R.refill {e : PtEnv α} {D : List α} (G : Good e D) {s : PtSt α} {b : Bool} {k c : Nat} (h : R e D s b k c) (hk : 0 < k)
    (hl : s.lus = []) :
    ∃ s' c', s.refill e = .ok s' ∧ R e D s' b k c' ∧ s'.lus ≠ [] ∧ s'.cur = s.cur ∧ s'.ign = s.ign ∧ s'.lusEof = s.lusEof ∧
      pot e s' ≤ pot e s ∧ (s.chk = false → s'.chk = false ∧ c' = c ∧ ∀ i d off, PtItem.data i d off ∈ s'.lus → off = 0) ∧
      (s.chk = true → s'.chk = true ∧ c' = c ∨ s'.chk = false ∧ c' = s.cur) := by
  obtain ⟨t, j, ht, hs, hp, hq, hg⟩ := R.gather G h hk hl
  have hr : s.refill e = ({ t with lus := t.q.take (j + 1), q := t.q.drop (j + 1), clk := s.clk + 1 } : PtSt α).adjust := by
    unfold PtSt.refill
    simp only [hl, List.isEmpty_nil, if_true, hg]
  obtain ⟨ds, tl, hl', hF, hc, ht1, ht2⟩ := ht.feeds
  have htl : t.lus = [] := by rw [hs.lus, hl]
  rw [htl, List.nil_append] at hl'
  have hne : t.q.take (j + 1) ≠ [] := by
    intro hx; simp at hx; exact hq hx
  have hpot : ∀ (l : List (PtItem α)), l.length = (t.q.take (j + 1)).length →
      l.length + (t.q.drop (j + 1)).length + (if t.wait then 0 else (e.nb - t.idx) + e.n) ≤ pot e s := by
    intro l hlen
    have : l.length + (t.q.drop (j + 1)).length = t.q.length := by rw [hlen]; simp; omega
    rw [this]
    have : pot e t = t.q.length + (if t.wait then 0 else (e.nb - t.idx) + e.n) := by simp [pot, htl]
    omega
  have hfrQ : ∀ i d off, PtItem.data i d off ∈ t.q.drop (j + 1) → off = 0 := fun i d off hm => ht.freshQ i d off (List.mem_of_mem_drop hm)
  have hfrT : ∀ i d off, PtItem.data i d off ∈ (t.q.take (j + 1)).tail → off = 0 := fun i d off hm => ht.freshQ i d off (tail_take_sub _ _ _ hm)
  have hfrL : ∀ i d off, PtItem.data i d off ∈ t.q.take (j + 1) → off = 0 := fun i d off hm => ht.freshQ i d off (List.mem_of_mem_take hm)
  by_cases hchk : s.chk = true
  · have hchk' : t.chk = true := by rw [hs.chk, hchk]
    obtain ⟨hcp, hcb⟩ := ht.chk hchk'
    cases hqq : t.q with
    | nil => exact absurd hqq hq
    | cons it rest =>
      cases it with
      | bad i =>
        rw [hqq] at hl'
        cases ds with
        | nil =>
          exfalso
          have := acks_of_wait (e := e) (D := D) (b := b) (k := k) ht1 ht2 (.bad i) (by rw [← List.nil_append tl, ← hl']; simp)
          obtain ⟨o, ho⟩ := this; cases ho
        | cons x y => simp only [List.cons_append, List.cons.injEq] at hl'; rw [← hl'.1] at hF; exact hF.elim
      | ack o =>
        have hds : ds = [] := by
          rw [hqq] at hl'
          cases ds with
          | nil => rfl
          | cons x y => simp only [List.cons_append, List.cons.injEq] at hl'; rw [← hl'.1] at hF; exact hF.elim
        refine ⟨{ t with lus := t.q.take (j + 1), q := t.q.drop (j + 1), clk := s.clk + 1 }, c, ?_, ?_, hne, hs.cur, hs.ign, hs.lusEof,
          hpot _ rfl, (fun hx => by rw [hchk] at hx; cases hx), fun _ => Or.inl ⟨hchk', rfl⟩⟩
        · rw [hr]; unfold PtSt.adjust; simp [hchk', hqq]
        · exact ⟨ht.run, ht.cur, ⟨ds, tl, by simpa using hl', hF, fun _ => Or.inr hds, ht1, ht2⟩, hfrQ, hfrT, ht.chk, ht.reof, ht.noWait⟩
      | data i d off =>
        have hoff : off = 0 := ht.freshQ i d off (by rw [hqq]; simp)
        subst hoff
        rw [hqq] at hl'
        cases ds with
        | nil =>
          exfalso
          have := acks_of_wait (e := e) (D := D) (b := b) (k := k) ht1 ht2 (.data i d 0) (by rw [← List.nil_append tl, ← hl']; simp)
          obtain ⟨o, ho⟩ := this; cases ho
        | cons x ds0 =>
          simp only [List.cons_append, List.cons.injEq] at hl'
          obtain ⟨hx, hl'⟩ := hl'
          rw [← hx] at hF
          obtain ⟨hd, hc0, -, hlt, hF⟩ := hF
          have hlen : t.posIn ≤ d.length := by
            have := ht.cur
            rw [hd, blk_length]; omega
          refine ⟨{ t with lus := .data i d t.posIn :: rest.take j, q := rest.drop j, clk := s.clk + 1, chk := false }, s.cur, ?_, ?_, by simp,
            hs.cur, hs.ign, hs.lusEof, ?_, (fun hx => by rw [hchk] at hx; cases hx), fun _ => Or.inr ⟨rfl, rfl⟩⟩
          · rw [hr]; unfold PtSt.adjust
            simp only [hchk', if_true, hqq, List.take_succ_cons, List.drop_succ_cons]
            by_cases hz : t.posIn = 0
            · simp [hz]
            · simp [hz, hlen]
          · refine ⟨ht.run, ht.cur, ⟨.data i d t.posIn :: ds0, tl, ?_, ?_, (fun hx => by cases hx), ht1, ht2⟩, ?_, ?_, (fun hx => by cases hx), ht.reof, ht.noWait⟩
            · simpa using hl'
            · refine ⟨hd, ?_, hlen, hlt, hF⟩
              rw [← hs.cur]; omega
            · intro i d off hm
              exact ht.freshQ i d off (by rw [hqq]; exact List.mem_cons_of_mem _ (List.mem_of_mem_drop hm))
            · intro i d off hm
              exact ht.freshQ i d off (by rw [hqq]; exact List.mem_cons_of_mem _ (List.mem_of_mem_take hm))
          · have := hpot (.data i d t.posIn :: rest.take j) (by simp [hqq])
            simp only [hqq, List.drop_succ_cons] at this
            simpa [pot] using this
  · have hchk : s.chk = false := by simpa using hchk
    have hchk' : t.chk = false := by rw [hs.chk, hchk]
    refine ⟨{ t with lus := t.q.take (j + 1), q := t.q.drop (j + 1), clk := s.clk + 1 }, c, ?_, ?_, hne, hs.cur, hs.ign, hs.lusEof,
      hpot _ rfl, fun _ => ⟨hchk', rfl, hfrL⟩, (fun hx => by rw [hchk] at hx; cases hx)⟩
    · rw [hr]; unfold PtSt.adjust; simp [hchk']
    · exact ⟨ht.run, ht.cur, ⟨ds, tl, by simpa using hl', hF, (fun hx => by simp [hchk'] at hx), ht1, ht2⟩, hfrQ, hfrT,
        (fun hx => by simp [hchk'] at hx), ht.reof, ht.noWait⟩

theorem refill_nonempty (e : PtEnv α) {s : PtSt α} (h : s.lus ≠ []) : s.refill e = .ok s := by
  unfold PtSt.refill
  rw [if_neg (by simpa using h)]

theorem ptFind_spec {D : List α} {cb p : Nat} {q tl : List (PtItem α)} (htl : ∀ x ∈ tl, ∃ o, x = PtItem.ack o) (pos : Nat) :
    ∀ (l : List (PtItem α)) (c : Nat) (ds : List (PtItem α)), l ++ q = ds ++ tl → Feeds D cb c ds p →
    ∃ ds', (ptFind pos c l).2.2 ++ q = ds' ++ tl ∧ Feeds D cb (ptFind pos c l).2.1 ds' p ∧
      ((ptFind pos c l).1 = true → (ptFind pos c l).2.1 = pos ∧ (ptFind pos c l).2.2 ≠ []) ∧
      ((ptFind pos c l).1 = false → ∀ i d off l0, (ptFind pos c l).2.2 = .data i d off :: l0 → pos < (ptFind pos c l).2.1) ∧
      (ptFind pos c l).2.2.length ≤ l.length ∧ ∀ x ∈ (ptFind pos c l).2.2.tail, x ∈ l.tail
  | [], c, ds, hl, hF => by
      refine ⟨ds, ?_, ?_, ?_, ?_, ?_, ?_⟩ <;> simp [ptFind, hl, hF]
  | .bad i :: r, c, ds, hl, hF => by
      cases ds with
      | nil =>
        obtain ⟨o, ho⟩ := htl (.bad i) (by rw [← List.nil_append tl, ← hl]; simp)
        cases ho
      | cons x y => simp only [List.cons_append, List.cons.injEq] at hl; rw [← hl.1] at hF; exact hF.elim
  | .ack o :: r, c, ds, hl, hF => by
      refine ⟨ds, hl, hF, ?_, ?_, ?_, ?_⟩ <;> simp [ptFind]
  | .data i d off :: r, c, ds, hl, hF => by
      cases ds with
      | nil =>
        obtain ⟨o, ho⟩ := htl (.data i d off) (by rw [← List.nil_append tl, ← hl]; simp)
        cases ho
      | cons x ds0 =>
        simp only [List.cons_append, List.cons.injEq] at hl
        obtain ⟨hx, hl⟩ := hl
        subst hx
        obtain ⟨hd, hc, hoff, hlt, hF'⟩ := hF
        by_cases h1 : pos < c
        · by_cases h2 : c ≤ pos + off
          · have hr : ptFind pos c (.data i d off :: r) = (true, pos, .data i d (off - (c - pos)) :: r) := by
              simp [ptFind, h1, h2]
            rw [hr]
            refine ⟨.data i d (off - (c - pos)) :: ds0, by simp [hl], ⟨hd, by dsimp only; omega, by omega, hlt, hF'⟩, (fun _ => ⟨rfl, by simp⟩),
              (fun hx => by cases hx), by simp, fun x hx => hx⟩
          · have hr : ptFind pos c (.data i d off :: r) = (false, c, .data i d off :: r) := by
              simp [ptFind, h1, h2]
            rw [hr]
            exact ⟨.data i d off :: ds0, by simp [hl], ⟨hd, hc, hoff, hlt, hF'⟩, (fun hx => by cases hx), (fun _ _ _ _ _ _ => h1), Nat.le_refl _, fun x hx => hx⟩
        · by_cases h2 : pos < c + (d.length - off)
          · have hr : ptFind pos c (.data i d off :: r) = (true, pos, .data i d (off + pos - c) :: r) := by
              simp [ptFind, h1, h2]
            rw [hr]
            refine ⟨.data i d (off + pos - c) :: ds0, by simp [hl], ⟨hd, by dsimp only; omega, by omega, hlt, hF'⟩, (fun _ => ⟨rfl, by simp⟩),
              (fun hx => by cases hx), by simp, fun x hx => hx⟩
          · have hend : c + (d.length - off) = i * cb + d.length := by omega
            by_cases h3 : c + (d.length - off) = pos ∧ r ≠ []
            · have hr : ptFind pos c (.data i d off :: r) = (true, pos, r) := by
                simp [ptFind, h1, h3]
              rw [hr]
              refine ⟨ds0, hl, ?_, (fun _ => ⟨rfl, h3.2⟩), (fun hx => by cases hx), by simp, fun x hx => List.mem_of_mem_tail hx⟩
              rw [← h3.1, hend]; exact hF'
            · have hr : ptFind pos c (.data i d off :: r) = ptFind pos (c + (d.length - off)) r := by
                simp only [ptFind, h1, h2, h3, if_false]
              rw [hr, hend]
              obtain ⟨ds', a1, a2, a3, a4, a5, a6⟩ := ptFind_spec htl pos r (i * cb + d.length) ds0 hl hF'
              exact ⟨ds', a1, a2, a3, a4, by simp; omega, fun x hx => List.mem_of_mem_tail (a6 x hx)⟩

/-- `c` is the current position, except when the number of bytes to skip in the first block is still to be looked at -/
def Strong (s : PtSt α) (c : Nat) : Prop := s.chk = false → c = s.cur

theorem R.find {e : PtEnv α} {D : List α} {s : PtSt α} {b : Bool} {k c : Nat} (h : R e D s b k c) (hS : Strong s c) (pos : Nat) :
    ∃ f s' c', s.find pos = (f, s') ∧ R e D s' b k c' ∧ Strong s' c' ∧ (f = true → s'.cur = pos ∧ s'.chk = false ∧ s'.lus ≠ []) ∧
      (f = false → ∀ i d off l0, s'.lus = .data i d off :: l0 → pos < s'.cur) ∧
      s'.lus.length ≤ s.lus.length ∧ s' = { s with cur := s'.cur, lus := s'.lus } := by
  obtain ⟨ds, tl, hl, hF, hc, ht1, ht2⟩ := h.feeds
  by_cases hchk : s.chk = true
  · have hnd : ∀ i d off l0, s.lus ≠ .data i d off :: l0 := by
      intro i d off l0 hx
      rcases hc hchk with h1 | h1
      · rw [h1] at hx; cases hx
      · rw [h1, hx] at hl
        obtain ⟨o, ho⟩ := acks_of_wait (e := e) (D := D) (b := b) (k := k) ht1 ht2 (.data i d off) (by rw [← List.nil_append tl, ← hl]; simp)
        cases ho
    have hff : s.find pos = (false, s) := by
      unfold PtSt.find
      cases hll : s.lus with
      | nil => simp [ptFind, ← hll]
      | cons it r =>
        cases it with
        | data i d off => exact absurd hll (hnd i d off r)
        | bad i => simp [ptFind, ← hll]
        | ack o => simp [ptFind, ← hll]
    exact ⟨false, s, c, hff, h, hS, (fun hx => by cases hx), (fun _ i d off l0 hx => absurd hx (hnd i d off l0)), Nat.le_refl _, rfl⟩
  · have hchk : s.chk = false := by simpa using hchk
    have hcc := hS hchk
    subst hcc
    obtain ⟨ds', a1, a2, a3, a4, a5, a6⟩ := ptFind_spec (acks_of_wait (e := e) (D := D) (b := b) (k := k) ht1 ht2) pos s.lus s.cur ds hl hF
    refine ⟨(ptFind pos s.cur s.lus).1, { s with cur := (ptFind pos s.cur s.lus).2.1, lus := (ptFind pos s.cur s.lus).2.2 },
      (ptFind pos s.cur s.lus).2.1, rfl, ?_, fun _ => rfl, fun hf => ⟨(a3 hf).1, hchk, (a3 hf).2⟩, a4, a5, rfl⟩
    refine ⟨h.run, ?_, ⟨ds', tl, a1, a2, (fun hx => by simp [hchk] at hx), ht1, ht2⟩, h.freshQ, fun i d off hm => h.freshT i d off (a6 _ hm),
      (fun hx => by simp [hchk] at hx), h.reof, h.noWait⟩
    have := a2.le
    dsimp only
    omega

end Pt
end Dar
