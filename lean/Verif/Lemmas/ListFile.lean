import Verif.Model.ListFile
/-! Lemmas about the cutting of listing files into lines. -/
namespace Dar.Lf
open Dar

/-- The text is a sequence followed by `over` bytes, at the end of `h`. -/
def EndsWith (h s : Bytes) (over : Nat) : Prop := ∃ pre ov, h = pre ++ s ++ ov ∧ ov.length = over

/-- What a cursor knows about the bytes `h` fed since the detection was reset. -/
structure CurOk (h : Bytes) (c : Cur) : Prop where
  le : c.prog ≤ c.seq.length
  act : c.bypass = false → c.passed = 0 ∧ ∃ pre, h = pre ++ c.seq.take c.prog
  hit : c.bypass = true → c.prog = c.seq.length → EndsWith h c.seq c.passed

theorem take_succ_getD (l : Bytes) (n : Nat) (h : n < l.length) : l.take (n + 1) = l.take n ++ [l.getD n 0] := by
  rw [List.take_succ_eq_append_getElem h]
  simp [List.getD, h]

theorem setBypass_seq (c : Cur) (n : Nat) : (c.setBypass n).seq = c.seq := by
  unfold Cur.setBypass; split
  · rfl
  · split <;> rfl

theorem setBypass_prog (c : Cur) (n : Nat) : (c.setBypass n).prog = c.prog := by
  unfold Cur.setBypass; split
  · rfl
  · split <;> rfl

/-- The cursor after `feed`, and whether it has just matched. -/
def fd (b : UInt8) (c : Cur) : Cur :=
  if c.bypass then (if c.matched then { c with passed := c.passed + 1 } else c)
  else if c.seq.getD c.prog 0 = b then { c with prog := c.prog + 1 }
  else (if c.larger then c.setBypass (c.prog + 1) else Cur.fresh c.seq)

def hitNow (b : UInt8) (c : Cur) : Bool :=
  !c.bypass && decide (c.seq.getD c.prog 0 = b) && decide (c.prog + 1 = c.seq.length)

theorem feed_eq (b : UInt8) (c : Cur) (h : c.bypass = false → c.prog < c.seq.length) :
    c.feed b = .ok (fd b c, hitNow b c) := by
  unfold Cur.feed fd hitNow
  by_cases hb : c.bypass = true
  · simp [hb]
  · simp only [Bool.not_eq_true] at hb
    have hm : c.matched = false := by
      have := h hb
      simp [Cur.matched]; omega
    simp only [hb, hm, Bool.false_eq_true, if_false, Bool.not_false, Bool.true_and]
    by_cases hc : c.seq.getD c.prog 0 = b
    · rw [if_pos hc, if_pos hc, decide_eq_true hc]; rfl
    · rw [if_neg hc, if_neg hc, decide_eq_false hc]; rfl

theorem fd_seq (b : UInt8) (c : Cur) : (fd b c).seq = c.seq := by
  unfold fd
  split
  · split <;> rfl
  · split
    · rfl
    · split
      · exact setBypass_seq _ _
      · rfl

/-- The counter kept while feeding. -/
def refAfter (b : UInt8) (cs : List Cur) (r : Nat) : Nat :=
  cs.foldl (fun r c => if hitNow b c ∧ r < (fd b c).prog then (fd b c).prog else r) r

theorem feedAll_eq (b : UInt8) (cs : List Cur) (h : ∀ c ∈ cs, c.bypass = false → c.prog < c.seq.length) :
    ∀ r, feedAll b cs r = .ok (cs.map (fd b), refAfter b cs r, cs.any (hitNow b)) := by
  induction cs with
  | nil => intro r; rfl
  | cons c cs ih =>
    intro r
    rw [feedAll, feed_eq b c (h c List.mem_cons_self)]
    simp only [bind, Except.bind]
    rw [ih (fun c hc => h c (List.mem_cons_of_mem _ hc))]
    rfl

theorem refAfter_spec (b : UInt8) (cs : List Cur) : ∀ r,
    r ≤ refAfter b cs r ∧ (∀ c ∈ cs, hitNow b c = true → (fd b c).prog ≤ refAfter b cs r) ∧
    (refAfter b cs r = r ∨ ∃ c ∈ cs, hitNow b c = true ∧ (fd b c).prog = refAfter b cs r) := by
  induction cs with
  | nil => intro r; exact ⟨Nat.le_refl _, by simp, Or.inl rfl⟩
  | cons c cs ih =>
    intro r
    obtain ⟨h1, h2, h3⟩ := ih (if hitNow b c ∧ r < (fd b c).prog then (fd b c).prog else r)
    have e : refAfter b (c :: cs) r = refAfter b cs (if hitNow b c ∧ r < (fd b c).prog then (fd b c).prog else r) := rfl
    rw [e]
    by_cases hc : hitNow b c = true ∧ r < (fd b c).prog
    · rw [if_pos hc] at *
      refine ⟨by omega, ?_, ?_⟩
      · intro d hd hh
        rcases List.mem_cons.mp hd with rfl | hd
        · exact h1
        · exact h2 d hd hh
      · rcases h3 with h3 | ⟨d, hd, hh⟩
        · exact Or.inr ⟨c, List.mem_cons_self, hc.1, h3.symm⟩
        · exact Or.inr ⟨d, List.mem_cons_of_mem _ hd, hh⟩
    · rw [if_neg hc] at *
      refine ⟨h1, ?_, ?_⟩
      · intro d hd hh
        rcases List.mem_cons.mp hd with rfl | hd
        · have : ¬ r < (fd b d).prog := fun x => hc ⟨hh, x⟩
          omega
        · exact h2 d hd hh
      · rcases h3 with h3 | ⟨d, hd, hh⟩
        · exact Or.inl h3
        · exact Or.inr ⟨d, List.mem_cons_of_mem _ hd, hh⟩

/-- One cursor, one more byte. -/
theorem fd_ok (b : UInt8) (h : Bytes) (c : Cur) (ok : CurOk h c) (lt : c.bypass = false → c.prog < c.seq.length) :
    CurOk (h ++ [b]) (fd b c) ∧
    (hitNow b c = true → (fd b c).bypass = false ∧ (fd b c).prog = c.seq.length) ∧
    (hitNow b c = false → (fd b c).bypass = false → 0 < c.seq.length → (fd b c).prog < c.seq.length) ∧
    (c.bypass = true → (fd b c).bypass = true ∧ (fd b c).prog = c.prog) ∧
    (c.bypass = false → c.larger = false → (fd b c).bypass = false ∧ (fd b c).larger = false) ∧
    (c.bypass = false → (fd b c).prog = c.seq.length → 0 < c.seq.length → hitNow b c = true) := by
  by_cases hb : c.bypass = true
  · have hh : hitNow b c = false := by simp [hitNow, hb]
    have e : fd b c = if c.matched then { c with passed := c.passed + 1 } else c := by unfold fd; rw [if_pos hb]
    have hby : (fd b c).bypass = true := by rw [e]; split <;> exact hb
    have hpr : (fd b c).prog = c.prog := by rw [e]; split <;> rfl
    refine ⟨⟨by rw [hpr, fd_seq]; exact ok.le, fun x => by (rw [hby] at x; cases x), ?_⟩,
      fun x => by (rw [hh] at x; cases x), fun _ x => by (rw [hby] at x; cases x), fun _ => ⟨hby, hpr⟩,
      fun x => by (rw [hb] at x; cases x), fun x => by (rw [hb] at x; cases x)⟩
    intro _ hp
    rw [hpr, fd_seq] at hp
    obtain ⟨pre, ov, e1, el⟩ := ok.hit hb hp
    have hm : c.matched = true := by simp [Cur.matched, hp]
    rw [e, if_pos hm]
    exact ⟨pre, ov ++ [b], by rw [e1]; simp, by simp [el]⟩
  · simp only [Bool.not_eq_true] at hb
    have hlt := lt hb
    obtain ⟨hp, pre, he⟩ := ok.act hb
    by_cases hc : c.seq.getD c.prog 0 = b
    · have e : fd b c = { c with prog := c.prog + 1 } := by
        unfold fd; rw [if_neg (by rw [hb]; exact Bool.false_ne_true), if_pos hc]
      have hh : hitNow b c = decide (c.prog + 1 = c.seq.length) := by
        unfold hitNow; rw [hb, decide_eq_true hc]; rfl
      rw [e, hh]
      refine ⟨⟨hlt, fun _ => ⟨hp, pre, ?_⟩, ?_⟩, ?_, ?_, ?_, fun _ hl => ⟨hb, hl⟩, ?_⟩
      · show h ++ [b] = pre ++ c.seq.take (c.prog + 1)
        rw [take_succ_getD _ _ hlt, hc, he]; simp
      · intro x
        have x : c.bypass = true := x
        rw [hb] at x; cases x
      · intro x
        exact ⟨hb, of_decide_eq_true x⟩
      · intro x _ _
        have := of_decide_eq_false x
        show c.prog + 1 < _; omega
      · intro x
        rw [hb] at x; cases x
      · intro _ x _
        exact decide_eq_true x
    · have hh : hitNow b c = false := by
        unfold hitNow; rw [decide_eq_false hc]; simp
      rw [hh]
      by_cases hl : c.larger = true
      · have e : fd b c = { c with bypass := true, passed := 0 } := by
          unfold fd; rw [if_neg (by rw [hb]; exact Bool.false_ne_true), if_neg hc, if_pos hl]
          unfold Cur.setBypass
          rw [if_neg (by rw [hb]; exact Bool.false_ne_true), if_pos (Or.inr (by omega))]
        rw [e]
        refine ⟨⟨ok.le, (fun x => by cases x), ?_⟩, (fun x => by cases x), ?_, ?_, ?_, ?_⟩
        · intro _ x
          have x : c.prog = c.seq.length := x
          omega
        · intro _ x; cases x
        · intro _; exact ⟨rfl, rfl⟩
        · intro _ x; rw [hl] at x; cases x
        · intro _ x
          have x : c.prog = c.seq.length := x
          omega
      · have e : fd b c = Cur.fresh c.seq := by
          unfold fd; rw [if_neg (by rw [hb]; exact Bool.false_ne_true), if_neg hc, if_neg hl]
        rw [e]
        refine ⟨⟨Nat.zero_le _, fun _ => ⟨rfl, h ++ [b], by simp [Cur.fresh]⟩, (fun x => by cases x)⟩, (fun x => by cases x), fun _ _ x => x, ?_, fun _ _ => ⟨rfl, rfl⟩, ?_⟩
        · intro x; rw [hb] at x; cases x
        · intro _ x; simp [Cur.fresh] at x; omega

/-- The state of the detection between two bytes, `h` being the bytes fed since the last reset. -/
structure CutOk (seqs : List Bytes) (h : Bytes) (e : Cutter) : Prop where
  seqs_eq : e.curs.map Cur.seq = seqs
  ok : ∀ c ∈ e.curs, CurOk h c
  lt : ∀ c ∈ e.curs, c.bypass = false → c.prog < c.seq.length
  bound : ∀ c ∈ e.curs, c.prog = c.seq.length → c.prog ≤ e.refp
  pend : ((∀ c ∈ e.curs, c.bypass = false ∧ c.larger = false) ∧ e.refp = 0) ∨
    ∃ c ∈ e.curs, c.bypass = true ∧ c.prog = c.seq.length ∧ c.prog = e.refp

/-- The detection at its start. -/
def freshCut (seqs : List Bytes) : Cutter := { curs := seqs.map Cur.fresh, refp := 0 }

theorem freshCut_ok (seqs : List Bytes) (hs : [] ∉ seqs) : CutOk seqs [] (freshCut seqs) := by
  refine ⟨by simp [freshCut, Function.comp_def, Cur.fresh], ?_, ?_, ?_, Or.inl ⟨?_, rfl⟩⟩
  · intro c hc
    obtain ⟨s, _, rfl⟩ := List.mem_map.mp hc
    exact ⟨Nat.zero_le _, fun _ => ⟨rfl, [], by simp [Cur.fresh]⟩, (fun x => by cases x)⟩
  · intro c hc _
    obtain ⟨s, h, rfl⟩ := List.mem_map.mp hc
    have : s ≠ [] := fun x => hs (x ▸ h)
    exact List.length_pos_iff.mpr this
  · intro c hc hp
    obtain ⟨s, h, rfl⟩ := List.mem_map.mp hc
    exact Nat.zero_le _
  · intro c hc
    obtain ⟨s, h, rfl⟩ := List.mem_map.mp hc
    exact ⟨rfl, rfl⟩

theorem reset_eq (e : Cutter) (seqs : List Bytes) (h : e.curs.map Cur.seq = seqs) : e.reset = freshCut seqs := by
  unfold Cutter.reset freshCut
  rw [← h, List.map_map]; rfl

theorem setBypass_cases (c : Cur) (n : Nat) (hb : c.bypass = false) :
    ((c.prog = c.seq.length ∨ c.prog < n) ∧ c.setBypass n = { c with bypass := true, passed := 0 }) ∨
    ((c.prog ≠ c.seq.length ∧ n ≤ c.prog) ∧ c.setBypass n = c) := by
  unfold Cur.setBypass
  by_cases h : c.matched = true ∨ c.prog < n
  · left
    rw [if_neg (by simp [hb]), if_pos h]
    refine ⟨?_, rfl⟩
    rcases h with h | h
    · left; simpa [Cur.matched] using h
    · exact Or.inr h
  · right
    rw [if_neg (by simp [hb]), if_neg h]
    refine ⟨⟨?_, ?_⟩, rfl⟩
    · intro x; exact h (Or.inl (by simp [Cur.matched, x]))
    · exact Nat.le_of_not_lt (fun x => h (Or.inr x))

/-- The cursor left by bypass_or_larger. -/
def afterBy (n : Nat) (c : Cur) : Cur :=
  if (c.setBypass n).bypass then c.setBypass n else { c.setBypass n with larger := true }

theorem afterBy_seq (n : Nat) (c : Cur) : (afterBy n c).seq = c.seq := by
  unfold afterBy; split <;> exact setBypass_seq _ _

theorem afterBy_prog (n : Nat) (c : Cur) : (afterBy n c).prog = c.prog := by
  unfold afterBy; split <;> exact setBypass_prog _ _

theorem afterBy_ok (h : Bytes) (n : Nat) (c : Cur) (ok : CurOk h c) :
    CurOk h (afterBy n c) ∧
    ((afterBy n c).bypass = false → c.bypass = false ∧ c.prog < c.seq.length ∧ n ≤ c.prog) ∧
    (c.prog = c.seq.length → (afterBy n c).bypass = true) ∧
    ((afterBy n c).bypass = (c.setBypass n).bypass) := by
  by_cases hb : c.bypass = true
  · have e : c.setBypass n = c := by unfold Cur.setBypass; rw [if_pos hb]
    have e2 : afterBy n c = c := by unfold afterBy; rw [e, if_pos hb]
    rw [e2, e]
    exact ⟨ok, fun x => absurd x (by simp [hb]), fun _ => hb, rfl⟩
  · simp only [Bool.not_eq_true] at hb
    obtain ⟨hp, pre, he⟩ := ok.act hb
    rcases setBypass_cases c n hb with ⟨h1, e⟩ | ⟨h1, e⟩
    · have e2 : afterBy n c = { c with bypass := true, passed := 0 } := by unfold afterBy; rw [e]; rfl
      rw [e2, e]
      refine ⟨⟨ok.le, (fun x => by cases x), fun _ hm => ?_⟩, (fun x => by cases x), fun _ => rfl, rfl⟩
      have hm : c.prog = c.seq.length := hm
      refine ⟨pre, [], ?_, rfl⟩
      rw [hm, List.take_length] at he
      simp [he]
    · have e2 : afterBy n c = { c with larger := true } := by unfold afterBy; rw [e, if_neg (by rw [hb]; exact Bool.false_ne_true)]
      rw [e2, e]
      refine ⟨⟨ok.le, fun _ => ⟨hp, pre, he⟩, fun x => absurd x (by simp [hb])⟩, fun _ => ⟨hb, ?_, h1.2⟩, fun x => absurd x h1.1, rfl⟩
      have := ok.le
      have := h1.1
      omega

theorem findLarger_eq (cs : List Cur) (n : Nat) (hex : ∃ c ∈ cs, c.prog = c.seq.length ∧ c.prog = n)
    (hb : ∀ c ∈ cs, c.prog = c.seq.length → c.prog ≤ n) :
    ∃ c ∈ cs, c.prog = c.seq.length ∧ c.prog = n ∧ findLarger cs n = .ok (some (c.seq.length, c.passed)) := by
  unfold findLarger
  obtain ⟨c, hc, hm, hn⟩ := hex
  cases hf : cs.find? (fun c => c.matched && !decide (c.prog < n)) with
  | none =>
    have := (List.find?_eq_none.mp hf) c hc
    simp [Cur.matched, hm] at this
    omega
  | some d =>
    have hd := List.mem_of_find?_eq_some hf
    have hp := List.find?_some hf
    simp only [Bool.and_eq_true, Bool.not_eq_true', decide_eq_false_iff_not, Cur.matched, beq_iff_eq] at hp
    have := hb d hd hp.1
    refine ⟨d, hd, hp.1, by omega, ?_⟩
    dsimp only
    rw [if_neg (by omega)]

/-- One more byte. -/
theorem eolReached_ok (seqs : List Bytes) (hs : [] ∉ seqs) (hne : seqs ≠ []) (h : Bytes) (e : Cutter) (b : UInt8)
    (ok : CutOk seqs h e) :
    (∃ e', e.eolReached b = .ok (e', none) ∧ CutOk seqs (h ++ [b]) e') ∨
    (∃ s ∈ seqs, ∃ over, e.eolReached b = .ok (freshCut seqs, some (s.length, over)) ∧ EndsWith (h ++ [b]) s over) := by
  have hpos : ∀ c ∈ e.curs, 0 < c.seq.length := by
    intro c hc
    have : c.seq ∈ seqs := by rw [← ok.seqs_eq]; exact List.mem_map_of_mem hc
    exact List.length_pos_iff.mpr (fun x => hs (x ▸ this))
  have F : ∀ c ∈ e.curs, _ := fun c hc => fd_ok b h c (ok.ok c hc) (ok.lt c hc)
  have hseq : (e.curs.map (fd b)).map Cur.seq = seqs := by
    rw [← ok.seqs_eq, List.map_map]
    exact List.map_congr_left (fun c _ => fd_seq b c)
  obtain ⟨R1, R2, R3⟩ := refAfter_spec b e.curs e.refp
  have hfeed := feedAll_eq b e.curs ok.lt e.refp
  have bound' : ∀ c ∈ e.curs, (fd b c).prog = c.seq.length → (fd b c).prog ≤ refAfter b e.curs e.refp := by
    intro c hc hp
    by_cases hb : c.bypass = true
    · obtain ⟨_, h2⟩ := (F c hc).2.2.2.1 hb
      rw [h2] at hp ⊢
      exact Nat.le_trans (ok.bound c hc hp) R1
    · exact R2 c hc ((F c hc).2.2.2.2.2 (by simpa using hb) hp (hpos c hc))
  unfold Cutter.eolReached
  rw [hfeed]
  simp only [bind, Except.bind]
  by_cases hh : e.curs.any (hitNow b) = true
  · -- a sequence is complete
    simp only [hh, Bool.not_true, Bool.false_and, Bool.or_true, if_true, Bool.false_eq_true, if_false]
    have hex : ∃ c ∈ e.curs, (fd b c).prog = c.seq.length ∧ (fd b c).prog = refAfter b e.curs e.refp := by
      rcases R3 with R3 | ⟨c, hc, hk, hp⟩
      · rcases ok.pend with ⟨_, h0⟩ | ⟨c, hc, h1, h2, h3⟩
        · exfalso
          obtain ⟨c, hc, hk⟩ := List.any_eq_true.mp hh
          have := R2 c hc hk
          have := ((F c hc).2.1 hk).2
          have := hpos c hc
          omega
        · obtain ⟨_, hp⟩ := (F c hc).2.2.2.1 h1
          exact ⟨c, hc, by rw [hp, h2], by rw [hp, h3, R3]⟩
      · exact ⟨c, hc, ((F c hc).2.1 hk).2, hp⟩
    have A : ∀ c ∈ e.curs, _ := fun c hc => afterBy_ok (h ++ [b]) (refAfter b e.curs e.refp) (fd b c) (F c hc).1
    have hmap : (bypassOrLarger (refAfter b e.curs e.refp) (e.curs.map (fd b))).1 =
        (e.curs.map (fd b)).map (afterBy (refAfter b e.curs e.refp)) := rfl
    have hseq2 : ((e.curs.map (fd b)).map (afterBy (refAfter b e.curs e.refp))).map Cur.seq = seqs := by
      rw [← hseq, List.map_map]
      exact List.map_congr_left (fun c _ => afterBy_seq _ c)
    by_cases hall : (bypassOrLarger (refAfter b e.curs e.refp) (e.curs.map (fd b))).2 = true
    · right
      rw [if_pos hall, hmap]
      obtain ⟨d, hd, hm, hn, hf⟩ := findLarger_eq ((e.curs.map (fd b)).map (afterBy (refAfter b e.curs e.refp)))
        (refAfter b e.curs e.refp) (by
          obtain ⟨c, hc, h1, h2⟩ := hex
          exact ⟨_, List.mem_map_of_mem (List.mem_map_of_mem hc), by rw [afterBy_prog, afterBy_seq, fd_seq, h1],
            by rw [afterBy_prog, h2]⟩) (by
          intro c hc hp
          simp only [List.mem_map] at hc
          obtain ⟨_, ⟨c, hc, rfl⟩, rfl⟩ := hc
          rw [afterBy_prog, afterBy_seq, fd_seq] at hp
          rw [afterBy_prog]
          exact bound' c hc hp)
      rw [hf]
      dsimp only
      rw [reset_eq _ seqs hseq2]
      simp only [List.mem_map] at hd
      obtain ⟨_, ⟨c, hc, rfl⟩, rfl⟩ := hd
      refine ⟨(afterBy (refAfter b e.curs e.refp) (fd b c)).seq, ?_, _, rfl, ?_⟩
      · rw [afterBy_seq, fd_seq, ← ok.seqs_eq]; exact List.mem_map_of_mem hc
      · refine (A c hc).1.hit ((A c hc).2.2.1 ?_) hm
        rw [afterBy_prog, afterBy_seq] at hm
        exact hm
    · left
      rw [if_neg hall, hmap]
      refine ⟨_, rfl, ⟨hseq2, ?_, ?_, ?_, Or.inr ?_⟩⟩
      · intro c hc
        simp only [List.mem_map] at hc
        obtain ⟨_, ⟨c, hc, rfl⟩, rfl⟩ := hc
        exact (A c hc).1
      · intro c hc hb
        simp only [List.mem_map] at hc
        obtain ⟨_, ⟨c, hc, rfl⟩, rfl⟩ := hc
        rw [afterBy_prog, afterBy_seq]
        exact ((A c hc).2.1 hb).2.1
      · intro c hc hp
        simp only [List.mem_map] at hc
        obtain ⟨_, ⟨c, hc, rfl⟩, rfl⟩ := hc
        rw [afterBy_prog, afterBy_seq, fd_seq] at hp
        rw [afterBy_prog]
        exact bound' c hc hp
      · obtain ⟨c, hc, h1, h2⟩ := hex
        refine ⟨_, List.mem_map_of_mem (List.mem_map_of_mem hc), (A c hc).2.2.1 (by rw [h1, fd_seq]), ?_, ?_⟩
        · rw [afterBy_prog, afterBy_seq, fd_seq, h1]
        · rw [afterBy_prog, h2]
  · -- none is complete
    simp only [Bool.not_eq_true] at hh
    have hno : ∀ c ∈ e.curs, hitNow b c = false := by
      intro c hc
      cases hk : hitNow b c with
      | false => rfl
      | true => rw [List.any_eq_true.mpr ⟨c, hc, hk⟩] at hh; cases hh
    have hr : refAfter b e.curs e.refp = e.refp := by
      rcases R3 with R3 | ⟨c, hc, hk, _⟩
      · exact R3
      · rw [hno c hc] at hk; cases hk
    simp only [hh, Bool.not_false, Bool.true_and, Bool.or_false]
    by_cases hall : (e.curs.map (fd b)).all (fun c => c.bypass || c.matched) = true
    · right
      simp only [hall, if_true]
      have hby : ∀ c ∈ e.curs, (fd b c).bypass = true := by
        intro c hc
        have h1 := (List.all_eq_true.mp hall) _ (List.mem_map_of_mem hc)
        simp only [Bool.or_eq_true] at h1
        rcases h1 with h1 | h1
        · exact h1
        · cases hb : (fd b c).bypass with
          | true => rfl
          | false =>
            have h2 := (F c hc).2.2.1 (hno c hc) hb (hpos c hc)
            simp only [Cur.matched, beq_iff_eq, fd_seq] at h1
            omega
      have hex : ∃ c ∈ e.curs, (fd b c).prog = c.seq.length ∧ (fd b c).prog = e.refp := by
        rcases ok.pend with ⟨h0, _⟩ | ⟨c, hc, h1, h2, h3⟩
        · exfalso
          cases hcs : e.curs with
          | nil => exact hne (by rw [← ok.seqs_eq, hcs]; rfl)
          | cons c cs =>
            have hc : c ∈ e.curs := by rw [hcs]; exact List.mem_cons_self
            have h1 := (F c hc).2.2.2.2.1 (h0 c hc).1 (h0 c hc).2
            rw [hby c hc] at h1
            cases h1.1
        · obtain ⟨_, hp⟩ := (F c hc).2.2.2.1 h1
          exact ⟨c, hc, by rw [hp, h2], by rw [hp, h3]⟩
      rw [hr] at bound' ⊢
      obtain ⟨d, hd, hm, hn, hf⟩ := findLarger_eq (e.curs.map (fd b)) e.refp (by
          obtain ⟨c, hc, h1, h2⟩ := hex
          exact ⟨_, List.mem_map_of_mem hc, by rw [fd_seq, h1], h2⟩) (by
          intro c hc hp
          obtain ⟨c, hcc, rfl⟩ := List.mem_map.mp hc
          have hc := hcc
          rw [fd_seq] at hp
          exact bound' c hc hp)
      rw [hf]
      dsimp only
      rw [reset_eq _ seqs hseq]
      obtain ⟨c, hc, rfl⟩ := List.mem_map.mp hd
      refine ⟨(fd b c).seq, ?_, _, rfl, ?_⟩
      · rw [fd_seq, ← ok.seqs_eq]; exact List.mem_map_of_mem hc
      · exact (F c hc).1.hit (hby c hc) hm
    · left
      simp only [Bool.not_eq_true] at hall
      simp only [hall, Bool.false_eq_true, if_false]
      refine ⟨_, rfl, ⟨hseq, ?_, ?_, ?_, ?_⟩⟩
      · intro c hc
        obtain ⟨c, hcc, rfl⟩ := List.mem_map.mp hc
        have hc := hcc
        exact (F c hc).1
      · intro c hc hb
        obtain ⟨c, hcc, rfl⟩ := List.mem_map.mp hc
        have hc := hcc
        rw [fd_seq]
        exact (F c hc).2.2.1 (hno c hc) hb (hpos c hc)
      · intro c hc hp
        obtain ⟨c, hcc, rfl⟩ := List.mem_map.mp hc
        have hc := hcc
        rw [fd_seq] at hp
        exact bound' c hc hp
      · rcases ok.pend with ⟨h0, h1⟩ | ⟨c, hc, h1, h2, h3⟩
        · left
          refine ⟨?_, by show refAfter b e.curs e.refp = 0; rw [hr, h1]⟩
          intro c' hc'
          obtain ⟨c, hc, rfl⟩ := List.mem_map.mp hc'
          exact (F c hc).2.2.2.2.1 (h0 c hc).1 (h0 c hc).2
        · right
          obtain ⟨hb, hp⟩ := (F c hc).2.2.2.1 h1
          exact ⟨_, List.mem_map_of_mem hc, hb, by rw [hp, h2, fd_seq], by rw [hp, h3]; exact hr.symm⟩

/-- No sequence is found inside another one, unless at its end. -/
def NoOver (seqs : List Bytes) : Prop := ∀ s ∈ seqs, ∀ t ∈ seqs, ∀ p q, t = p ++ s ++ q → q = []

theorem suffix_take (h pre p2 s t : Bytes) (n : Nat) (h1 : h = pre ++ t.take n) (h2 : h = p2 ++ s)
    (hl : s.length ≤ n) (hn : n < t.length) : ∃ p q, t = p ++ s ++ q ∧ q ≠ [] := by
  have e := h1.symm.trans h2
  have hs : s <:+ t.take n := by
    refine List.suffix_of_suffix_length_le (l₃ := h) ⟨p2, h2.symm⟩ ⟨pre, h1.symm⟩ ?_
    simp; omega
  obtain ⟨p, hp⟩ := hs
  refine ⟨p, t.drop n, by rw [hp]; simp, ?_⟩
  intro x
  have := congrArg List.length x
  simp at this; omega

theorem eolReached_noOver (seqs : List Bytes) (hs : [] ∉ seqs) (hno : NoOver seqs) (h : Bytes) (e : Cutter)
    (b : UInt8) (ok : CutOk seqs h e) (h0 : ∀ c ∈ e.curs, c.bypass = false ∧ c.larger = false) (hr : e.refp = 0)
    (r : Cutter × Option (Nat × Nat)) (hret : e.eolReached b = .ok r) :
    (r.2 = none → ∀ c ∈ r.1.curs, c.bypass = false ∧ c.larger = false) ∧
    (∀ x, r.2 = some x → x.2 = 0) := by
  have hpos : ∀ c ∈ e.curs, 0 < c.seq.length := by
    intro c hc
    have : c.seq ∈ seqs := by rw [← ok.seqs_eq]; exact List.mem_map_of_mem hc
    exact List.length_pos_iff.mpr (fun x => hs (x ▸ this))
  have F : ∀ c ∈ e.curs, _ := fun c hc => fd_ok b h c (ok.ok c hc) (ok.lt c hc)
  obtain ⟨R1, R2, R3⟩ := refAfter_spec b e.curs e.refp
  have hfeed := feedAll_eq b e.curs ok.lt e.refp
  unfold Cutter.eolReached at hret
  rw [hfeed] at hret
  simp only [bind, Except.bind] at hret
  by_cases hh : e.curs.any (hitNow b) = true
  · simp only [hh, Bool.not_true, Bool.false_and, Bool.or_true, if_true, Bool.false_eq_true, if_false] at hret
    have hex : ∃ c ∈ e.curs, hitNow b c = true ∧ (fd b c).prog = refAfter b e.curs e.refp := by
      rcases R3 with R3 | hx
      · exfalso
        obtain ⟨c, hc, hk⟩ := List.any_eq_true.mp hh
        have := R2 c hc hk
        have := ((F c hc).2.1 hk).2
        have := hpos c hc
        omega
      · exact hx
    have A : ∀ c ∈ e.curs, _ := fun c hc => afterBy_ok (h ++ [b]) (refAfter b e.curs e.refp) (fd b c) (F c hc).1
    have hall : (bypassOrLarger (refAfter b e.curs e.refp) (e.curs.map (fd b))).2 = true := by
      unfold bypassOrLarger
      rw [List.all_eq_true]
      intro d' hd'
      obtain ⟨d, hd, rfl⟩ := List.mem_map.mp hd'
      rw [← (A d hd).2.2.2]
      cases hb : (afterBy (refAfter b e.curs e.refp) (fd b d)).bypass with
      | true => rfl
      | false =>
        exfalso
        obtain ⟨hb1, hlt, hge⟩ := (A d hd).2.1 hb
        obtain ⟨c, hc, hk, hp⟩ := hex
        obtain ⟨hcb, hcp⟩ := (F c hc).2.1 hk
        obtain ⟨_, p1, e1⟩ := (F d hd).1.act hb1
        obtain ⟨_, p2, e2⟩ := (F c hc).1.act hcb
        rw [hcp, fd_seq, List.take_length] at e2
        rw [fd_seq] at e1 hlt
        obtain ⟨p, q, e3, hq⟩ := suffix_take _ _ _ _ _ _ e1 e2 (by rw [← hcp, hp]; exact hge) hlt
        exact hq (hno c.seq (by rw [← ok.seqs_eq]; exact List.mem_map_of_mem hc) d.seq
          (by rw [← ok.seqs_eq]; exact List.mem_map_of_mem hd) p q e3)
    rw [if_pos hall] at hret
    cases hf : findLarger (bypassOrLarger (refAfter b e.curs e.refp) (e.curs.map (fd b))).1 (refAfter b e.curs e.refp) with
    | error x => rw [hf] at hret; cases hret
    | ok o =>
      rw [hf] at hret
      cases o with
      | none => cases hret
      | some x =>
        dsimp only at hret
        injection hret with hret
        subst hret
        refine ⟨(fun x => by cases x), ?_⟩
        intro y hy
        injection hy with hy
        subst hy
        unfold findLarger at hf
        cases hc : List.find? (fun c => c.matched && !decide (c.prog < refAfter b e.curs e.refp))
          (bypassOrLarger (refAfter b e.curs e.refp) (e.curs.map (fd b))).1 with
        | none => rw [hc] at hf; cases hf
        | some d =>
          rw [hc] at hf
          dsimp only at hf
          by_cases hgt : d.prog > refAfter b e.curs e.refp
          · rw [if_pos hgt] at hf; cases hf
          · rw [if_neg hgt] at hf
            injection hf with hf
            injection hf with hf
            subst hf
            have hd := List.mem_of_find?_eq_some hc
            have hd' : d ∈ (e.curs.map (fd b)).map (afterBy (refAfter b e.curs e.refp)) := hd
            simp only [List.mem_map] at hd'
            obtain ⟨_, ⟨c, hcc, rfl⟩, rfl⟩ := hd'
            show (afterBy (refAfter b e.curs e.refp) (fd b c)).passed = 0
            have hb1 := ((F c hcc).2.2.2.2.1 (h0 c hcc).1 (h0 c hcc).2).1
            have hp0 := ((F c hcc).1.act hb1).1
            unfold afterBy
            rcases setBypass_cases (fd b c) (refAfter b e.curs e.refp) hb1 with ⟨_, e1⟩ | ⟨_, e1⟩
            · rw [e1]; rfl
            · rw [e1, if_neg (by rw [hb1]; exact Bool.false_ne_true)]; exact hp0
  · simp only [Bool.not_eq_true] at hh
    simp only [hh, Bool.not_false, Bool.true_and, Bool.or_false] at hret
    have hnb : ∀ c ∈ e.curs, (fd b c).bypass = false ∧ (fd b c).larger = false :=
      fun c hc => (F c hc).2.2.2.2.1 (h0 c hc).1 (h0 c hc).2
    by_cases hall : (e.curs.map (fd b)).all (fun c => c.bypass || c.matched) = true
    · simp only [hall, if_true] at hret
      cases hf : findLarger (e.curs.map (fd b)) (refAfter b e.curs e.refp) with
      | error x => rw [hf] at hret; cases hret
      | ok o =>
        rw [hf] at hret
        cases o with
        | none => cases hret
        | some x =>
          dsimp only at hret
          injection hret with hret
          subst hret
          refine ⟨(fun x => by cases x), ?_⟩
          intro y hy
          injection hy with hy
          subst hy
          unfold findLarger at hf
          cases hc : List.find? (fun c => c.matched && !decide (c.prog < refAfter b e.curs e.refp))
            (e.curs.map (fd b)) with
          | none => rw [hc] at hf; cases hf
          | some d =>
            rw [hc] at hf
            dsimp only at hf
            by_cases hgt : d.prog > refAfter b e.curs e.refp
            · rw [if_pos hgt] at hf; cases hf
            · rw [if_neg hgt] at hf
              injection hf with hf
              injection hf with hf
              subst hf
              have hd := List.mem_of_find?_eq_some hc
              obtain ⟨c, hcc, rfl⟩ := List.mem_map.mp hd
              exact ((F c hcc).1.act (hnb c hcc).1).1
    · simp only [Bool.not_eq_true] at hall
      simp only [hall, Bool.false_eq_true, if_false] at hret
      injection hret with hret
      subst hret
      refine ⟨fun _ c hc => ?_, (fun x hx => by cases hx)⟩
      obtain ⟨c, hcc, rfl⟩ := List.mem_map.mp hc
      exact hnb c hcc

/-- A whole run of bytes. -/
theorem scan_ok (seqs : List Bytes) (hs : [] ∉ seqs) (hne : seqs ≠ []) (bs : Bytes) : ∀ (h : Bytes) (e : Cutter),
    CutOk seqs h e →
    (∃ e', scan e bs = .ok (e', bs.length, none) ∧ CutOk seqs (h ++ bs) e') ∨
    (∃ s ∈ seqs, ∃ over i, i < bs.length ∧ scan e bs = .ok (freshCut seqs, i, some (s.length, over)) ∧
      EndsWith (h ++ bs.take (i + 1)) s over) := by
  induction bs with
  | nil => intro h e ok; exact Or.inl ⟨e, rfl, by simpa using ok⟩
  | cons b bs ih =>
    intro h e ok
    rw [scan]
    rcases eolReached_ok seqs hs hne h e b ok with ⟨e', he, ok'⟩ | ⟨s, hm, over, he, hw⟩
    · rw [he]
      simp only [bind, Except.bind]
      rcases ih _ _ ok' with ⟨e2, h2, ok2⟩ | ⟨s, hm, over, i, hi, h2, hw⟩
      · rw [h2]
        exact Or.inl ⟨e2, rfl, by simpa using ok2⟩
      · rw [h2]
        exact Or.inr ⟨s, hm, over, i + 1, by simp; omega, rfl, by simpa using hw⟩
    · rw [he]
      exact Or.inr ⟨s, hm, over, 0, by simp, rfl, by simpa using hw⟩

theorem scan_noOver (seqs : List Bytes) (hs : [] ∉ seqs) (hne : seqs ≠ []) (hno : NoOver seqs) (bs : Bytes) :
    ∀ (h : Bytes) (e : Cutter), CutOk seqs h e → (∀ c ∈ e.curs, c.bypass = false ∧ c.larger = false) →
    ∀ e' i x, scan e bs = .ok (e', i, some x) → x.2 = 0 := by
  induction bs with
  | nil => intro h e ok _ e' i x hx; cases hx
  | cons b bs ih =>
    intro h e ok h0 e' i x hx
    rw [scan] at hx
    have hr : e.refp = 0 := by
      rcases ok.pend with ⟨_, hr⟩ | ⟨c, hc, hb, _⟩
      · exact hr
      · rw [(h0 c hc).1] at hb; cases hb
    rcases eolReached_ok seqs hs hne h e b ok with ⟨e2, he, ok'⟩ | ⟨s, hm, over, he, hw⟩
    · have hN := eolReached_noOver seqs hs hno h e b ok h0 hr _ he
      rw [he] at hx
      simp only [bind, Except.bind] at hx
      cases hsc : scan e2 bs with
      | error y => rw [hsc] at hx; cases hx
      | ok r =>
        obtain ⟨e3, i3, o⟩ := r
        rw [hsc] at hx
        injection hx with hx
        have ho : o = some x := congrArg (fun r : Cutter × Nat × Option (Nat × Nat) => r.2.2) hx
        subst ho
        exact ih _ _ ok' (hN.1 rfl) _ _ _ hsc
    · have hN := eolReached_noOver seqs hs hno h e b ok h0 hr _ he
      rw [he] at hx
      simp only [bind, Except.bind] at hx
      injection hx with hx
      have ho : some (s.length, over) = some x := congrArg (fun r : Cutter × Nat × Option (Nat × Nat) => r.2.2) hx
      exact hN.2 x ho

theorem scan_append (a : Bytes) : ∀ (e e' : Cutter) (n : Nat) (b : Bytes), scan e a = .ok (e', n, none) →
    scan e (a ++ b) = (scan e' b).map (fun t => (t.1, t.2.1 + a.length, t.2.2)) := by
  induction a with
  | nil =>
    intro e e' n b h
    injection h with h
    have h : e = e' := congrArg Prod.fst h
    subst h
    show scan e b = _
    cases scan e b with
    | error x => rfl
    | ok t => rfl
  | cons x a ih =>
    intro e e' n b h
    rw [scan] at h
    rw [List.cons_append, scan]
    cases hx : e.eolReached x with
    | error y => rw [hx] at h; cases h
    | ok r =>
      obtain ⟨r1, r2⟩ := r
      rw [hx] at h
      simp only [bind, Except.bind] at h ⊢
      cases r2 with
      | some y => simp at h
      | none =>
        dsimp only at h ⊢
        cases hy : scan r1 a with
        | error z => rw [hy] at h; cases h
        | ok t =>
          obtain ⟨t1, t2, t3⟩ := t
          rw [hy] at h
          dsimp only at h
          injection h with h
          have h1 : t1 = e' := congrArg Prod.fst h
          have h3 : t3 = none := congrArg (fun r : Cutter × Nat × Option (Nat × Nat) => r.2.2) h
          subst h1; subst h3
          rw [ih _ _ _ b hy]
          cases scan t1 b with
          | error w => rfl
          | ok w => simp [Except.map]; omega

/-- The stream of bytes cut as a whole. -/
def cutStream (up : Bytes → Bytes) (e0 : Cutter) (bs : Bytes) : Res (List Bytes) :=
  match scan e0 bs with
  | .error x => .error x
  | .ok (_, _, none) => .ok (if bs.isEmpty then [] else [bs])
  | .ok (_, i, some (len, over)) =>
    if h : len < i + 1 - over ∧ 0 < bs.length then
      (cutStream up e0 (bs.drop (i + 1 - over))).map (fun r => up (bs.take (i + 1 - over - len)) :: r)
    else .error .bug
termination_by bs.length
decreasing_by simp; omega

theorem cutStream_none (up : Bytes → Bytes) (e0 e' : Cutter) (n : Nat) (bs : Bytes) (h : scan e0 bs = .ok (e', n, none)) :
    cutStream up e0 bs = .ok (if bs.isEmpty then [] else [bs]) := by
  rw [cutStream, h]

theorem cutStream_some (up : Bytes → Bytes) (e0 e' : Cutter) (i len over : Nat) (bs : Bytes)
    (h : scan e0 bs = .ok (e', i, some (len, over))) (hl : len < i + 1 - over) (hb : 0 < bs.length) :
    cutStream up e0 bs =
      (cutStream up e0 (bs.drop (i + 1 - over))).map (fun r => up (bs.take (i + 1 - over - len)) :: r) := by
  conv => lhs; rw [cutStream, h]
  simp only []
  rw [dif_pos ⟨hl, hb⟩]

theorem cutStream_bug (up : Bytes → Bytes) (e0 e' : Cutter) (i len over : Nat) (bs : Bytes)
    (h : scan e0 bs = .ok (e', i, some (len, over))) (hl : ¬ len < i + 1 - over) :
    cutStream up e0 bs = .error .bug := by
  conv => lhs; rw [cutStream, h]
  simp only []
  rw [dif_neg (fun x => hl x.1)]

theorem scan_append_some (a b : Bytes) (e e1 e' : Cutter) (n i : Nat) (x : Nat × Nat)
    (ha : scan e a = .ok (e1, n, none)) (hb : scan e1 b = .ok (e', i, some x)) :
    scan e (a ++ b) = .ok (e', i + a.length, some x) := by
  rw [scan_append a e e1 n b ha, hb]; rfl

theorem scan_some_append (a : Bytes) : ∀ (e e' : Cutter) (i : Nat) (x : Nat × Nat) (b : Bytes),
    scan e a = .ok (e', i, some x) → scan e (a ++ b) = .ok (e', i, some x) := by
  induction a with
  | nil => intro e e' i x b h; cases h
  | cons y a ih =>
    intro e e' i x b h
    rw [scan] at h
    rw [List.cons_append, scan]
    cases hx : e.eolReached y with
    | error z => rw [hx] at h; cases h
    | ok r =>
      obtain ⟨r1, r2⟩ := r
      rw [hx] at h
      simp only [bind, Except.bind] at h ⊢
      cases r2 with
      | some z => exact h
      | none =>
        dsimp only at h ⊢
        cases hy : scan r1 a with
        | error z => rw [hy] at h; cases h
        | ok t =>
          obtain ⟨t1, t2, t3⟩ := t
          rw [hy] at h
          dsimp only at h
          injection h with h
          have h1 : t1 = e' := congrArg Prod.fst h
          have h2 : t2 + 1 = i := congrArg (fun r : Cutter × Nat × Option (Nat × Nat) => r.2.1) h
          have h3 : t3 = some x := congrArg (fun r : Cutter × Nat × Option (Nat × Nat) => r.2.2) h
          subst h1; subst h3; subst h2
          rw [ih _ _ _ _ b hy]

theorem take_drop_eq (b : Bytes) (i j : Nat) (h : i ≤ j) : (b.take j).drop i = (b.drop i).take (j - i) := by
  rw [List.drop_take]

/-- The loop over one buffer, when nothing has to be read again from a former buffer. -/
theorem turns_ok (up : Bytes → Bytes) (hup : ∀ l, l ≠ [] → up l ≠ []) (seqs : List Bytes) (hs : [] ∉ seqs)
    (hne : seqs ≠ []) (buf : Bytes) : ∀ (fuel : Nat) (s : RdSt),
    (s.acc = [] ∨ NoOver seqs) → scan (freshCut seqs) s.acc = .ok (s.cut, s.acc.length, none) →
    s.refill = [] → s.nc = 0 → s.beg = s.curs → s.curs ≤ buf.length → buf.length - s.curs + 1 ≤ fuel →
    (∃ s' ls, RdSt.turns up buf fuel s = .ok s' ∧ s'.lines = s.lines ++ ls ∧
      scan (freshCut seqs) s'.acc = .ok (s'.cut, s'.acc.length, none) ∧
      ∀ fut, cutStream up (freshCut seqs) (s.acc ++ (buf.drop s.curs ++ fut)) =
        (cutStream up (freshCut seqs) (s'.acc ++ fut)).map (ls ++ ·)) ∨
    (RdSt.turns up buf fuel s = .error .bug ∧
      ∀ fut, cutStream up (freshCut seqs) (s.acc ++ (buf.drop s.curs ++ fut)) = .error .bug) := by
  intro fuel
  induction fuel with
  | zero => intro s _ _ _ _ _ _ h; omega
  | succ fuel ih =>
    intro s hcase hscan hrf hnc hbeg hcl hfuel
    have hwf : CutOk seqs s.acc s.cut := by
      rcases scan_ok seqs hs hne s.acc [] _ (freshCut_ok seqs hs) with ⟨e', he, ok⟩ | ⟨t, _, over, i, _, he, _⟩
      · rw [hscan] at he
        injection he with he
        have : s.cut = e' := congrArg Prod.fst he
        rw [this]; simpa using ok
      · rw [hscan] at he
        injection he with he
        have := congrArg (fun r : Cutter × Nat × Option (Nat × Nat) => r.2.2) he
        cases this
    rw [RdSt.turns]
    unfold RdSt.turn
    rw [hrf]
    simp only [List.isEmpty_nil, if_true]
    unfold RdSt.fromBuffer
    rcases scan_ok seqs hs hne (buf.drop s.curs) s.acc s.cut hwf with ⟨e', he, ok⟩ | ⟨t, ht, over, i, hi, he, hw⟩
    · -- no end of line
      left
      rw [he]
      simp only [bind, Except.bind]
      have hlen : s.curs + (buf.drop s.curs).length = buf.length := by simp; omega
      rw [if_neg (by omega)]
      simp only [RdSt.cutLine]
      rw [if_neg (by omega), if_neg (by omega)]
      simp only [hlen, Nat.lt_irrefl, if_false, hrf, List.length_nil, false_or]
      rw [if_neg (by omega)]
      refine ⟨_, [], rfl, (List.append_nil _).symm, ?_, ?_⟩
      · dsimp only
        rw [hbeg, take_drop_eq _ _ _ hcl, List.take_of_length_le (by simp)]
        rw [scan_append s.acc _ _ _ _ hscan, he]
        simp [Except.map]
        omega
      · intro fut
        dsimp only
        rw [hbeg, take_drop_eq _ _ _ hcl, List.take_of_length_le (by simp), List.append_assoc]
        cases cutStream up (freshCut seqs) (s.acc ++ (buf.drop s.curs ++ fut)) with
        | error _ => rfl
        | ok _ => rfl
    · -- an end of line
      have htl : 0 < t.length := List.length_pos_iff.mpr (fun x => hs (x ▸ ht))
      have hdl : (buf.drop s.curs).length = buf.length - s.curs := by simp
      -- where it is
      have hwl : t.length + over ≤ s.acc.length + (i + 1) := by
        obtain ⟨pre, ov, e1, e2⟩ := hw
        have := congrArg List.length e1
        simp only [List.length_append, List.length_take, hdl] at this
        omega
      have hov : over ≤ i := by
        rcases hcase with h0 | hN
        · rw [h0] at hwl
          simp only [List.length_nil] at hwl
          omega
        · have : over = 0 := by
            have hsc := scan_append_some _ _ _ _ _ _ _ _ hscan he
            exact scan_noOver seqs hs hne hN _ [] _ (freshCut_ok seqs hs)
              (by intro c hc; obtain ⟨q, _, rfl⟩ := List.mem_map.mp hc; exact ⟨rfl, rfl⟩) _ _ _ hsc
          omega
      have hsc := fun fut => scan_some_append _ _ _ _ _ fut (scan_append_some _ _ _ _ _ _ _ _ hscan he)
      rw [he]
      simp only [bind, Except.bind, Option.getD_some]
      rw [if_pos (by omega), if_neg (by omega)]
      have hle : over ≤ s.curs + i := by omega
      simp only [hle, if_true]
      have hj : s.curs + i - over < buf.length := by omega
      simp only [hj, if_true]
      rw [if_neg (by omega)]
      -- the text accumulated
      have hacc : s.acc ++ (buf.take (s.curs + i - over + 1)).drop s.beg = s.acc ++ (buf.drop s.curs).take (i + 1 - over) := by
        rw [hbeg, take_drop_eq _ _ _ (by omega)]
        congr 2; omega
      have hal : (s.acc ++ (buf.drop s.curs).take (i + 1 - over)).length = s.acc.length + (i + 1 - over) := by
        simp; omega
      simp only [RdSt.cutLine]
      rw [if_pos (show t.length > 0 from htl)]
      simp only [hacc, hal, Nat.add_zero]
      by_cases hempty : s.acc.length + (i + 1 - over) ≤ t.length
      · right
        rw [if_pos hempty]
        refine ⟨rfl, fun fut => ?_⟩
        rw [← List.append_assoc]
        exact cutStream_bug up _ _ _ _ _ _ (hsc fut) (by omega)
      · rw [if_neg hempty]
        have hcutf : ∀ fut, cutStream up (freshCut seqs) (s.acc ++ (buf.drop s.curs ++ fut)) =
            (cutStream up (freshCut seqs) (buf.drop (s.curs + i - over + 1) ++ fut)).map
              (fun r => up ((s.acc ++ (buf.drop s.curs).take (i + 1 - over)).take (s.acc.length + (i + 1 - over) - t.length)) :: r) := by
          intro fut
          rw [← List.append_assoc, cutStream_some up _ _ _ _ _ _ (hsc fut) (by omega) (by simp; omega)]
          have e1 : (s.acc ++ buf.drop s.curs ++ fut).drop (i + s.acc.length + 1 - over) = buf.drop (s.curs + i - over + 1) ++ fut := by
            rw [List.append_assoc, List.drop_append, List.drop_of_length_le (by omega), List.nil_append,
              List.drop_append, List.drop_drop, hdl]
            have h1 : i + s.acc.length + 1 - over - s.acc.length - (buf.length - s.curs) = 0 := by omega
            have h2 : s.curs + (i + s.acc.length + 1 - over - s.acc.length) = s.curs + i - over + 1 := by omega
            rw [h1, h2]; rfl
          have e2 : (s.acc ++ buf.drop s.curs ++ fut).take (i + s.acc.length + 1 - over - t.length) =
              (s.acc ++ (buf.drop s.curs).take (i + 1 - over)).take (s.acc.length + (i + 1 - over) - t.length) := by
            have h1 : s.acc ++ buf.drop s.curs ++ fut =
                s.acc ++ (buf.drop s.curs).take (i + 1 - over) ++ ((buf.drop s.curs).drop (i + 1 - over) ++ fut) := by
              simp only [List.append_assoc]
              congr 1
              rw [← List.append_assoc, List.take_append_drop]
            rw [h1, List.take_append_of_le_length (by rw [hal]; omega)]
            congr 1; omega
          rw [e1, e2]
        have hln : up ((s.acc ++ (buf.drop s.curs).take (i + 1 - over)).take (s.acc.length + (i + 1 - over) - t.length)) ≠ [] := by
          apply hup
          intro x
          have := congrArg List.length x
          rw [List.length_take, hal] at this
          simp only [List.length_nil] at this
          omega
        generalize hL : up ((s.acc ++ (buf.drop s.curs).take (i + 1 - over)).take (s.acc.length + (i + 1 - over) - t.length)) = L at hcutf hln ⊢
        have hLe : L.isEmpty = false := by cases L with
          | nil => exact absurd rfl hln
          | cons _ _ => rfl
        simp only [Nat.lt_irrefl, gt_iff_lt, if_false, hal, hL, hLe, Bool.false_eq_true, hrf, hnc, List.length_nil, or_false]
        by_cases hmore : s.curs + i - over + 1 < buf.length
        · simp only [hmore, if_true]
          have hscan0 : scan (freshCut seqs) [] = .ok (freshCut seqs, 0, none) := rfl
          rcases ih { cut := freshCut seqs, acc := [], lines := s.lines ++ [L], refill := [], nc := 0, fc := s.fc,
                      curs := s.curs + i - over + 1, beg := s.curs + i - over + 1 }
            (Or.inl rfl) hscan0 rfl rfl rfl (by show s.curs + i - over + 1 ≤ buf.length; omega) (by show buf.length - (s.curs + i - over + 1) + 1 ≤ fuel; omega) with
            ⟨s', ls, h1, h2, h3, h4⟩ | ⟨h1, h2⟩
          · left
            refine ⟨s', L :: ls, h1, by rw [h2]; simp, h3, fun fut => ?_⟩
            rw [hcutf fut]
            have h4 := h4 fut
            dsimp only at h4
            rw [List.nil_append] at h4
            rw [h4]
            cases cutStream up (freshCut seqs) (s'.acc ++ fut) with
            | error _ => rfl
            | ok _ => rfl
          · right
            refine ⟨h1, fun fut => ?_⟩
            have h2 := h2 fut
            dsimp only at h2
            rw [List.nil_append] at h2
            rw [hcutf fut, h2]; rfl
        · left
          simp only [hmore, if_false]
          refine ⟨_, [L], rfl, rfl, rfl, fun fut => ?_⟩
          dsimp only
          rw [hcutf fut, List.drop_of_length_le (by omega)]
          cases cutStream up (freshCut seqs) ([] ++ fut) with
          | error _ => rfl
          | ok _ => rfl

theorem readLoop_ok (up : Bytes → Bytes) (hup : ∀ l, l ≠ [] → up l ≠ []) (seqs : List Bytes) (hs : [] ∉ seqs)
    (hne : seqs ≠ []) (reads : List Bytes) : ∀ (s : RdSt),
    ((s.acc = [] ∧ reads.length ≤ 1) ∨ NoOver seqs) → scan (freshCut seqs) s.acc = .ok (s.cut, s.acc.length, none) →
    (readLoop up reads s >>= fun s => .ok (if s.acc.isEmpty then s.lines else s.lines ++ [s.acc])) =
      (cutStream up (freshCut seqs) (s.acc ++ reads.flatten)).map (s.lines ++ ·) := by
  induction reads with
  | nil =>
    intro s _ hscan
    rw [List.flatten_nil, List.append_nil, cutStream_none up _ _ _ _ hscan]
    show Except.ok _ = Except.ok _
    cases s.acc with
    | nil => simp
    | cons _ _ => simp
  | cons buf more ih =>
    intro s hcase hscan
    rw [readLoop, List.flatten_cons]
    rcases turns_ok up hup seqs hs hne buf (2 * buf.length + 2 * s.acc.length + 2)
        { s with refill := [], nc := 0, fc := 0, curs := 0, beg := 0 }
        (hcase.imp (fun h => h.1) id) hscan rfl rfl rfl (Nat.zero_le _)
        (by show buf.length - 0 + 1 ≤ _; omega) with ⟨s', ls, h1, h2, h3, h4⟩ | ⟨h1, h2⟩
    · rw [h1]
      have h4 := h4 more.flatten
      dsimp only at h4
      rw [List.drop_zero] at h4
      rw [h4]
      show (readLoop up more s' >>= _) = _
      have hc : (s'.acc = [] ∧ more.length ≤ 1) ∨ NoOver seqs ∨ more = [] := by
        rcases hcase with h | h
        · right; right
          have := h.2
          simp only [List.length_cons] at this
          exact List.length_eq_zero_iff.mp (by omega)
        · exact Or.inr (Or.inl h)
      have hfin : (readLoop up more s' >>= fun s => Except.ok (if s.acc.isEmpty then s.lines else s.lines ++ [s.acc])) =
          (cutStream up (freshCut seqs) (s'.acc ++ more.flatten)).map (s'.lines ++ ·) := by
        rcases hc with h | h | h
        · exact ih s' (Or.inl h) h3
        · exact ih s' (Or.inr h) h3
        · subst h
          rw [List.flatten_nil, List.append_nil, cutStream_none up _ _ _ _ h3]
          show Except.ok _ = Except.ok _
          cases s'.acc with
          | nil => simp
          | cons _ _ => simp
      rw [hfin, h2]
      cases cutStream up (freshCut seqs) (s'.acc ++ more.flatten) with
      | error _ => rfl
      | ok r => simp [Except.map]
    · rw [h1]
      have h2 := h2 more.flatten
      dsimp only at h2
      rw [List.drop_zero] at h2
      rw [h2]; rfl

theorem seqsOf_ne (given : List Bytes) : seqsOf given ≠ [] := by
  unfold seqsOf; split <;> simp_all

theorem seqsOf_nil (given : List Bytes) (h : [] ∉ given) : [] ∉ seqsOf given := by
  unfold seqsOf; split
  · decide
  · exact h

/-- The reading of the file comes down to the cutting of its whole contents. -/
theorem linesOf_eq (up : Bytes → Bytes) (hup : ∀ l, l ≠ [] → up l ≠ []) (given : List Bytes) (hs : [] ∉ given)
    (reads : List Bytes) (h : reads.length ≤ 1 ∨ NoOver (seqsOf given)) :
    linesOf up given reads = cutStream up (freshCut (seqsOf given)) reads.flatten := by
  unfold linesOf Cutter.make
  rw [if_neg (seqsOf_nil given hs)]
  show readLines up (freshCut (seqsOf given)) reads = _
  unfold readLines
  rw [readLoop_ok up hup _ (seqsOf_nil given hs) (seqsOf_ne given) reads _ (h.imp (fun h => ⟨rfl, h⟩) id) rfl]
  dsimp only
  rw [List.nil_append]
  cases cutStream up (freshCut (seqsOf given)) reads.flatten with
  | error _ => rfl
  | ok r => simp [Except.map]

end Dar.Lf
