import Verif.Spec.ParallelSeek
/- Lemmas for Props/ParallelSeek.lean: the invariant of the reading protocol, and "below". -/
namespace Dar
namespace Pt
variable {α : Type}

theorem blk_length (D : List α) (cb i : Nat) : (blk D cb i).length = min cb (D.length - i * cb) := by
  simp [blk]

/-- the blocks follow each other in the data, the first byte to be read is at `c` and the last block ends at `p` -/
def Feeds (D : List α) (cb : Nat) : Nat → List (PtItem α) → Nat → Prop
  | c, [], p => c = p
  | c, .data i d off :: r, p =>
    d = blk D cb i ∧ c = i * cb + off ∧ off ≤ d.length ∧ i * cb < D.length ∧ Feeds D cb (i * cb + d.length) r p
  | _, .bad _ :: _, _ => False
  | _, .ack _ :: _, _ => False

theorem Feeds.append {D : List α} {cb : Nat} {l2 : List (PtItem α)} {p2 : Nat} :
    ∀ {l1 : List (PtItem α)} {c p : Nat}, Feeds D cb c l1 p → Feeds D cb p l2 p2 → Feeds D cb c (l1 ++ l2) p2
  | [], c, p, h, h2 => by simp only [Feeds] at h; subst h; exact h2
  | .data i d off :: r, c, p, h, h2 => by
      obtain ⟨h1, h3, h4, h5, h6⟩ := h
      exact ⟨h1, h3, h4, h5, Feeds.append h6 h2⟩
  | .bad _ :: _, _, _, h, _ => h.elim
  | .ack _ :: _, _, _, h, _ => h.elim

theorem Feeds.le {D : List α} {cb : Nat} : ∀ {l : List (PtItem α)} {c p : Nat}, Feeds D cb c l p → c ≤ p
  | [], c, p, h => Nat.le_of_eq h
  | .data i d off :: r, c, p, h => by
      obtain ⟨h1, h3, h4, h5, h6⟩ := h
      have := Feeds.le h6
      omega
  | .bad _ :: _, _, _, h => h.elim
  | .ack _ :: _, _, _, h => h.elim

/-- the state of the pipe while the threads run: `k` acknowledgements are due, a stop was ordered if `b`, the first byte
the pipe gives is at `c` -/
structure R (e : PtEnv α) (D : List α) (s : PtSt α) (b : Bool) (k c : Nat) : Prop where
  run : s.run = true
  cur : s.cur ≤ D.length
  feeds : ∃ ds tl, s.lus ++ s.q = ds ++ tl ∧ Feeds D e.cb c ds (min (s.idx * e.cb) D.length) ∧
    (s.chk = true → s.lus = [] ∨ ds = []) ∧ (s.wait = false → tl = []) ∧
    (s.wait = true → ∃ o, tl = List.replicate k (.ack o) ∧ (o = .stop ∧ b = true ∨ o = .eof ∧ D.length ≤ s.idx * e.cb))
  freshQ : ∀ i d off, PtItem.data i d off ∈ s.q → off = 0
  freshT : ∀ i d off, PtItem.data i d off ∈ s.lus.tail → off = 0
  chk : s.chk = true → c + s.posIn = s.cur ∧ s.posIn < e.cb
  reof : s.reof = true → D.length ≤ s.idx * e.cb
  noWait : s.wait = false → k = e.n ∧ (s.flag = .stop → b = true) ∧ (b = true → s.flag ≠ .normal) ∧ (s.flag = .eof → s.reof = true)

/-- number of items there are in the pipe or that may come before "below" waits -/
def pot (e : PtEnv α) (s : PtSt α) : Nat := s.lus.length + s.q.length + (if s.wait then 0 else (e.nb - s.idx) + e.n)

/-- what "below" does not touch -/
structure Same (s t : PtSt α) : Prop where
  cur : t.cur = s.cur
  lus : t.lus = s.lus
  lusEof : t.lusEof = s.lusEof
  run : t.run = s.run
  ign : t.ign = s.ign
  chk : t.chk = s.chk
  posIn : t.posIn = s.posIn
  clk : t.clk = s.clk

theorem Same.refl (s : PtSt α) : Same s s := ⟨rfl, rfl, rfl, rfl, rfl, rfl, rfl, rfl⟩
theorem Same.trans {s t u : PtSt α} (h : Same s t) (h' : Same t u) : Same s u :=
  ⟨h'.cur.trans h.cur, h'.lus.trans h.lus, h'.lusEof.trans h.lusEof, h'.run.trans h.run, h'.ign.trans h.ign, h'.chk.trans h.chk,
   h'.posIn.trans h.posIn, h'.clk.trans h.clk⟩

theorem same_below (e : PtEnv α) (s : PtSt α) : Same s (s.below e) := by
  unfold PtSt.below
  split
  · exact Same.refl s
  · split
    · exact ⟨rfl, rfl, rfl, rfl, rfl, rfl, rfl, rfl⟩
    · split <;> exact ⟨rfl, rfl, rfl, rfl, rfl, rfl, rfl, rfl⟩
    · split
      · exact ⟨rfl, rfl, rfl, rfl, rfl, rfl, rfl, rfl⟩
      · split <;> exact ⟨rfl, rfl, rfl, rfl, rfl, rfl, rfl, rfl⟩

theorem pot_below (e : PtEnv α) (s : PtSt α) : pot e (s.below e) ≤ pot e s := by
  unfold PtSt.below
  by_cases hw : s.wait = true
  · simp [hw]
  · simp only [hw, Bool.false_eq_true, if_false]
    cases hf : s.flag with
    | eof => simp [pot, hw]; omega
    | stop =>
      by_cases hr : s.reof = true
      · simp [hr, pot, hw]
      · simp [hr, pot, hw]; omega
    | normal =>
      by_cases hr : s.reof = true
      · simp [hr, pot, hw]
      · by_cases hi : s.idx < e.nb
        · simp [hr, hi, pot, hw]; omega
        · simp [hr, hi, pot, hw]

theorem R.below {e : PtEnv α} {D : List α} (G : Good e D) {s : PtSt α} {b : Bool} {k c : Nat} (h : R e D s b k c) :
    R e D (s.below e) b k c := by
  by_cases hw : s.wait = true
  · unfold PtSt.below; simpa [hw] using h
  have hw : s.wait = false := by simpa using hw
  obtain ⟨hk, hs1, hs2, hs3⟩ := h.noWait hw
  obtain ⟨ds, tl, hl, hF, hc, ht, -⟩ := h.feeds
  have htl := ht hw; subst htl
  simp only [List.append_nil] at hl
  unfold PtSt.below
  simp only [hw, Bool.false_eq_true, if_false]
  cases hf : s.flag with
  | eof =>
    exact ⟨h.run, h.cur, ⟨ds, List.replicate e.n (.ack .eof), by simp [← hl], hF, hc, (fun h => by cases h),
      fun _ => ⟨.eof, by rw [hk], Or.inr ⟨rfl, h.reof (hs3 hf)⟩⟩⟩,
      (by intro i d off hm; simp only [List.mem_append, List.mem_replicate] at hm
          rcases hm with hm | hm
          · exact h.freshQ i d off hm
          · cases hm.2), h.freshT, h.chk, h.reof, (fun h => by cases h)⟩
  | stop =>
    by_cases hr : s.reof = true
    · simp only [hr, if_true]
      exact ⟨h.run, h.cur, ⟨ds, [], by simpa using hl, hF, hc, (fun _ => rfl), (fun hx => by simp [hw] at hx)⟩, h.freshQ, h.freshT, h.chk,
        (fun _ => h.reof hr), fun _ => ⟨hk, (fun h => by cases h), (fun _ h => by cases h), fun _ => rfl⟩⟩
    · simp only [hr, Bool.false_eq_true, if_false]
      exact ⟨h.run, h.cur, ⟨ds, List.replicate e.n (.ack .stop), by simp [← hl], hF, hc, (fun h => by cases h),
        fun _ => ⟨.stop, by rw [hk], Or.inl ⟨rfl, hs1 hf⟩⟩⟩,
        (by intro i d off hm; simp only [List.mem_append, List.mem_replicate] at hm
            rcases hm with hm | hm
            · exact h.freshQ i d off hm
            · cases hm.2), h.freshT, h.chk, (fun h => by cases h), (fun h => by cases h)⟩
  | normal =>
    by_cases hr : s.reof = true
    · simp only [hr, if_true]
      exact ⟨h.run, h.cur, ⟨ds, [], by simpa using hl, hF, hc, (fun _ => rfl), (fun hx => by simp [hw] at hx)⟩, h.freshQ, h.freshT, h.chk,
        (fun _ => h.reof hr), fun _ => ⟨hk, (fun h => by cases h), (fun _ h => by cases h), fun _ => rfl⟩⟩
    · simp only [hr, Bool.false_eq_true, if_false]
      have hb : ¬ b = true := fun hb => hs2 hb hf
      by_cases hi : s.idx < e.nb
      · simp only [hi, if_true]
        have hlt := G.tight _ hi
        have hit : e.item s.idx = .data s.idx (blk D e.cb s.idx) 0 := by simp [PtEnv.item, G.clear _ hi]
        have hend : s.idx * e.cb + (blk D e.cb s.idx).length = min ((s.idx + 1) * e.cb) D.length := by
          rw [blk_length, Nat.succ_mul]; omega
        refine ⟨h.run, h.cur, ⟨ds ++ [e.item s.idx], [], by simp [← hl], ?_, ?_, (fun _ => rfl), (fun hx => by simp [hw] at hx)⟩, ?_, h.freshT, h.chk, ?_, ?_⟩
        · refine Feeds.append hF ?_
          rw [hit]
          refine ⟨rfl, by simp; omega, Nat.zero_le _, hlt, hend⟩
        · intro hx
          rcases hc hx with hx | hx
          · exact Or.inl hx
          · subst hx
            simp only [List.append_eq_nil_iff] at hl
            exact Or.inl hl.1
        · intro i d off hm
          simp only [List.mem_append, List.mem_singleton] at hm
          rcases hm with hm | hm
          · exact h.freshQ i d off hm
          · rw [hit] at hm; cases hm; rfl
        · intro hx
          simp only [Bool.and_eq_true, decide_eq_true_eq] at hx
          have := G.enough
          simp only [hx.2]; exact this
        · intro _
          exact ⟨hk, (fun h => by cases h), (fun hb' => absurd hb' hb), (fun h => by cases h)⟩
      · simp only [hi, if_false]
        have hge : D.length ≤ s.idx * e.cb := Nat.le_trans G.enough (Nat.mul_le_mul_right _ (by omega))
        exact ⟨h.run, h.cur, ⟨ds, [], by simpa using hl, hF, hc, (fun _ => rfl), (fun hx => by simp [hw] at hx)⟩, h.freshQ, h.freshT, h.chk,
          (fun _ => hge), fun _ => ⟨hk, (fun h => by cases h), (fun hb' => absurd hb' hb), fun _ => rfl⟩⟩

theorem R.belows {e : PtEnv α} {D : List α} (G : Good e D) {b : Bool} {k c : Nat} :
    ∀ (m : Nat) {s : PtSt α}, R e D s b k c → R e D (s.belows e m) b k c ∧ Same s (s.belows e m) ∧ pot e (s.belows e m) ≤ pot e s
  | 0, s, h => ⟨h, Same.refl s, Nat.le_refl _⟩
  | m + 1, s, h => by
      obtain ⟨h1, h2, h3⟩ := R.belows G m (h.below G)
      exact ⟨h1, (same_below e s).trans h2, Nat.le_trans h3 (pot_below e s)⟩

/-- three turns of "below" put something in the pipe -/
theorem R.progress {e : PtEnv α} {D : List α} (G : Good e D) {s : PtSt α} {b : Bool} {k c : Nat} (h : R e D s b k c) (hw : s.wait = false) :
    (s.belows e 3).q ≠ [] := by
  have hrep : ∀ o : PtItem α, List.replicate e.n o ≠ [] := by
    intro o hx; simp at hx; have := G.npos; omega
  cases hf : s.flag with
  | eof => simp [PtSt.belows, PtSt.below, hw, hf, hrep]
  | stop =>
    by_cases hr : s.reof = true
    · simp [PtSt.belows, PtSt.below, hw, hf, hr, hrep]
    · simp [PtSt.belows, PtSt.below, hw, hf, hr, hrep]
  | normal =>
    by_cases hr : s.reof = true
    · simp [PtSt.belows, PtSt.below, hw, hf, hr, hrep]
    · by_cases hi : s.idx < e.nb
      · have key : ∀ (t : PtSt α), t.q ≠ [] → (t.below e).q ≠ [] := by
          intro t ht
          unfold PtSt.below
          split
          · exact ht
          · split
            · simp [ht]
            · split
              · exact ht
              · simp [ht]
            · split
              · exact ht
              · split
                · simp
                · exact ht
        show ((((s.below e).below e).below e)).q ≠ []
        apply key; apply key
        simp [PtSt.below, hw, hf, hr, hi]
      · simp [PtSt.belows, PtSt.below, hw, hf, hr, hi, hrep]

end Pt
end Dar
