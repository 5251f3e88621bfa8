import Verif.Lemmas.Sparse
import Verif.Props.Marks
import Verif.Props.Checksum
/- Lemmas for Props/Sparse.lean: the reading side. -/
namespace Dar

set_option linter.unusedSectionVars false

variable [EscByte]

theorem escData_length (d : Bytes) : d.length ≤ (escData d).length := by
  induction hn : d.length using Nat.strong_induction_on generalizing d with
  | _ n ih =>
    cases d with
    | nil => simp at hn; omega
    | cons b d =>
      by_cases h : escPattern <+: b :: d
      · obtain ⟨t, ht⟩ := h
        rw [← ht, escData_pattern]
        have hl : n = 5 + t.length := by rw [← hn, ← ht]; simp [escPattern]; omega
        have := ih t.length (by omega) t rfl
        simp [escSeq, escPattern]; omega
      · rw [escData_cons b d h]
        simp at hn
        have := ih d.length (by omega) d rfl
        simp; omega

def streamSize (d : Bytes) (ms : List (SeqT × Bytes)) : Nat := d.length + (ms.map fun m => 6 + m.2.length).sum

theorem encStream_length (d : Bytes) (ms : List (SeqT × Bytes)) : streamSize d ms ≤ (encStream d ms).length := by
  unfold streamSize
  induction ms generalizing d with
  | nil => simp [encStream, encMarks, escData_length]
  | cons m ms ih =>
    obtain ⟨t, x⟩ := m
    have h1 := escData_length d
    have h2 := ih x
    simp [encStream, encMarks, escSeq, escPattern] at h2 ⊢
    omega

theorem rep_len {st : EscRd} {d : Bytes} {ms : List (SeqT × Bytes)} (h : Rep st d ms) :
    streamSize d ms ≤ st.buf.length + st.below.length := by
  obtain ⟨d2, e1, e2⟩ := h.stream
  have h1 := encStream_length d2 ms
  rw [← e2] at h1
  unfold streamSize at *
  rw [e1]
  have := h.escLe
  simp at h1 ⊢
  omega

theorem tailOk_drop {d : Bytes} {ms : List (SeqT × Bytes)} (h : TailOk d ms) (n : Nat) : TailOk (d.drop n) ms :=
  tailOk_suffix (d1 := d.take n) (by rwa [List.take_append_drop])

/-! #### The length of a hole -/

theorem escPreamble_ok (pre : Bytes) : ∀ (f skip : Nat) (st : EscRd) (d : Bytes) (ms : List (SeqT × Bytes)) (n : Nat) (rest : Bytes),
    Rep st d ms → TailOk d ms → readPreamble skip d = .ok (n, rest) → d = pre ++ rest → pre.length < f →
    ∃ st', escPreamble f skip st = .ok (n, st') ∧ Rep st' rest ms ∧ TailOk rest ms := by
  induction pre with
  | nil =>
    intro f skip st d ms n rest hr ht hp hd hf
    exfalso
    have key : ∀ (d : Bytes) (skip : Nat), readPreamble skip d = .ok (n, rest) → rest.length < d.length := by
      intro d
      induction d with
      | nil => intro skip h; cases h
      | cons a d ih =>
        intro skip h
        unfold readPreamble at h
        by_cases ha : a = 0
        · rw [if_pos ha] at h; have := ih _ h; simp; omega
        · rw [if_neg ha] at h
          cases hb : preambleBit a with
          | none => rw [hb] at h; cases h
          | some p => rw [hb] at h; cases h; simp
    have := key d skip hp
    rw [hd] at this; simp at this
  | cons a pre ih =>
    intro f skip st d ms n rest hr ht hp hd hf
    obtain ⟨f, rfl⟩ : ∃ k, f = k + 1 := ⟨f - 1, by simp at hf; omega⟩
    obtain ⟨st1, e1, r1⟩ := escRead_exact st 1 d ms hr ht
    have t1 := tailOk_drop ht 1
    subst hd
    unfold escPreamble
    rw [e1]
    simp only [List.cons_append, List.take_succ_cons, List.take_zero, List.drop_succ_cons, List.drop_zero] at r1 t1 hp ⊢
    show ∃ st', (if a = 0 then _ else _) = _ ∧ _
    unfold readPreamble at hp
    by_cases ha : a = 0
    · rw [if_pos ha] at hp ⊢
      exact ih f (skip + 1) st1 (pre ++ rest) ms n rest r1 t1 hp rfl (by simp at hf; omega)
    · rw [if_neg ha] at hp ⊢
      cases hb : preambleBit a with
      | none => rw [hb] at hp; cases hp
      | some p =>
        rw [hb] at hp
        simp only [Except.ok.injEq, Prod.mk.injEq] at hp
        obtain ⟨h1, h2⟩ := hp
        refine ⟨st1, by dsimp only; rw [h1], ?_, ?_⟩
        · rw [← h2]; exact r1
        · rw [← h2]; exact t1

theorem escGetInt_ok (st : EscRd) (n : Nat) (d : Bytes) (ms : List (SeqT × Bytes))
    (hr : Rep st (putInt n ++ d) ms) (ht : TailOk (putInt n ++ d) ms) :
    ∃ st', escGetInt st = .ok (n, st') ∧ Rep st' d ms ∧ TailOk d ms := by
  have hg := getInt_putInt n d
  unfold getInt Inf.read at hg
  have hlen := rep_len hr
  unfold streamSize at hlen
  cases hp : readPreamble 0 (putInt n ++ d) with
  | error e => rw [hp] at hg; cases hg
  | ok x =>
    obtain ⟨k, rest⟩ := x
    rw [hp] at hg
    have hsuf : ∀ (s : Bytes) (skip : Nat), readPreamble skip s = .ok (k, rest) → ∃ pre, s = pre ++ rest := by
      intro s
      induction s with
      | nil => intro skip h; cases h
      | cons a s ih =>
        intro skip h
        unfold readPreamble at h
        by_cases ha : a = 0
        · rw [if_pos ha] at h
          obtain ⟨p, hp⟩ := ih _ h
          exact ⟨a :: p, by simp [hp]⟩
        · rw [if_neg ha] at h
          cases hb : preambleBit a with
          | none => rw [hb] at h; cases h
          | some p => rw [hb] at h; cases h; exact ⟨[a], rfl⟩
    obtain ⟨pre, hpre⟩ := hsuf _ _ hp
    have hpl : pre.length ≤ (putInt n ++ d).length := by rw [hpre]; simp
    obtain ⟨st1, e1, r1, t1⟩ := escPreamble_ok pre _ 0 st _ ms k rest hr ht hp hpre
      (show pre.length < st.buf.length + st.below.length + 1 by omega)
    obtain ⟨st2, e2, r2⟩ := escRead_exact st1 k rest ms r1 t1
    unfold escGetInt
    rw [e1]
    show ∃ st', (escRead st1 k >>= _) = _ ∧ _
    rw [e2]
    show ∃ st', (if (rest.take k).length < k then _ else _) = _ ∧ _
    unfold readExact at hg
    by_cases hk : k ≤ rest.length
    · rw [if_neg (by rw [List.length_take]; omega)]
      have hg' : (Except.ok ((reduceField (rest.take k)).foldl (fun acc b => acc * 256 + b.toNat) 0, rest.drop k) : Res (Nat × Bytes)) = .ok (n, d) := by
        simpa [hk, bind, Except.bind] using hg
      simp only [Except.ok.injEq, Prod.mk.injEq] at hg'
      refine ⟨st2, by rw [hg'.1], ?_, ?_⟩
      · rw [← hg'.2]; exact r2
      · rw [← hg'.2]; exact tailOk_drop t1 k
    · exfalso
      simp [hk, bind, Except.bind] at hg

/-! #### The reader -/

/-- the state stands for data `d` followed by holes -/
structure SpRep (s : SpRd) (d : Bytes) (hs : List (Nat × Bytes)) : Prop where
  rep : Rep s.esc d (spStream hs)
  tail : TailOk d (spStream hs)
  pos : ∀ h ∈ hs, 0 < h.1
  norm : s.hole = false → s.zc = 0
  pend : s.hole = true → d ≠ [] → s.zc ≠ 0

/-- what remains to be read -/
def SpRd.rest (s : SpRd) (d : Bytes) (hs : List (Nat × Bytes)) : Bytes := List.replicate s.zc 0 ++ spContent d hs

theorem spMark_head (hs : List (Nat × Bytes)) : (spStream hs).head?.map Prod.fst = if hs = [] then none else some .file := by
  cases hs <;> simp [spStream]

theorem escNextMark_nil {st : EscRd} {ms : List (SeqT × Bytes)} (h : Rep st [] ms) :
    ∃ st', escNextMark st = .ok (ms.head?.map Prod.fst, st') ∧ Rep st' [] ms := by
  rcases escNextMark_spec st [] ms h with ⟨st', e, r⟩ | ⟨-, h⟩
  · exact ⟨st', by simpa using e, r⟩
  · simp [escPattern] at h

theorem spHoleStep {st : EscRd} {n : Nat} {x : Bytes} {hs : List (Nat × Bytes)} (h : Rep st [] (spStream ((n, x) :: hs)))
    (ht : TailOk [] (spStream ((n, x) :: hs))) :
    ∃ e1 e2 e3, escNextMark st = .ok (some .file, e1) ∧ escSkip .file false [] e1 = .ok (true, e2) ∧
      escGetInt e2 = .ok (n, e3) ∧ Rep e3 x (spStream hs) ∧ TailOk x (spStream hs) := by
  obtain ⟨e1, h1, r1⟩ := escNextMark_nil h
  obtain ⟨e2, y, h2, r2, hy, -⟩ := escSkip_spec .file false [] e1 _ _ r1
  have hsk : skipSpec .file false [] [] (spStream ((n, x) :: hs)) = (true, (putInt n ++ x, spStream hs)) := by
    simp [spStream, skipSpec]
  rw [hsk] at h2 r2 hy
  have := hy rfl
  subst this
  have ht' : TailOk (putInt n ++ x) (spStream hs) := ht
  obtain ⟨e3, h3, r3, t3⟩ := escGetInt_ok e2 n x _ r2 ht'
  exact ⟨e1, e2, e3, by simpa [spStream] using h1, h2, h3, r3, t3⟩

theorem spReadF_ok : ∀ (f : Nat) (s : SpRd) (need : Nat) (d : Bytes) (hs : List (Nat × Bytes)) (k : Nat), SpRep s d hs → s.offset = k + s.zc →
    need + 2 * hs.length + (if s.hole = true ∧ s.zc = 0 then 0 else 1) < f →
    ∃ s' d' hs', spReadF f s need = .ok ((s.rest d hs).take need, s') ∧ SpRep s' d' hs' ∧ s'.rest d' hs' = (s.rest d hs).drop need ∧
      s'.offset = k + ((s.rest d hs).take need).length + s'.zc := by
  intro f
  induction f with
  | zero => intro s need d hs k h ho hf; omega
  | succ f ih =>
    intro s need d hs k h ho hf
    unfold spReadF
    by_cases hn : need = 0
    · rw [if_pos hn]; subst hn
      exact ⟨s, d, hs, by simp, h, by simp, by simpa using ho⟩
    rw [if_neg hn]
    by_cases hh : s.hole = false
    · rw [if_pos hh]
      have hz := h.norm hh
      rw [hh] at hf
      simp only [Bool.false_eq_true, false_and, if_false] at hf
      have hrest : s.rest d hs = spContent d hs := by unfold SpRd.rest; rw [hz]; simp
      rw [hrest]
      obtain ⟨e1, r1, r2⟩ := escRead_exact s.esc need d _ h.rep h.tail
      rw [r1]
      show ∃ s' d' hs', (if (d.take need).length < need then _ else _) = _ ∧ _
      by_cases hl : (d.take need).length < need
      · rw [if_pos hl]
        have hdl : d.length < need := by rw [List.length_take] at hl; omega
        rw [List.take_of_length_le (by omega)] at *
        rw [List.drop_eq_nil_of_le (by omega)] at r2
        have ht : TailOk [] (spStream hs) := by
          have := tailOk_drop h.tail d.length
          rwa [List.drop_eq_nil_of_le (by omega)] at this
        obtain ⟨s2, d', hs', e2, q1, q2, q3⟩ := ih { s with esc := e1, offset := s.offset + d.length, zc := 0, hole := true } (need - d.length) [] hs
          (k + d.length) ⟨r2, ht, h.pos, (fun h => by cases h), (fun _ h => absurd rfl h)⟩ (by dsimp only; omega)
          (by simp only [true_and, if_true]; omega)
        have hr2 : SpRd.rest { s with esc := e1, offset := s.offset + d.length, zc := 0, hole := true } [] hs = spContent [] hs := by
          simp [SpRd.rest]
        rw [hr2] at e2 q2 q3
        have hc : spContent d hs = d ++ spContent [] hs := by simp [spContent]
        refine ⟨s2, d', hs', ?_, q1, ?_, ?_⟩
        · show (spReadF f _ _ >>= _) = _
          rw [e2]
          show Except.ok _ = _
          rw [hc, List.take_append, List.take_of_length_le (l := d) (by omega)]
        · rw [q2, hc, List.drop_append, List.drop_eq_nil_of_le (as := d) (by omega)]; simp
        · rw [q3, hc, List.take_append, List.take_of_length_le (l := d) (by omega)]; simp only [List.length_append]; omega
      · rw [if_neg hl]
        have hdl : need ≤ d.length := by rw [List.length_take] at hl; omega
        refine ⟨{ s with esc := e1, offset := s.offset + (d.take need).length }, d.drop need, hs, ?_, ⟨r2, tailOk_drop h.tail need, h.pos, (fun _ => hz), (fun h' => by dsimp only at h'; rw [hh] at h'; cases h')⟩, ?_, ?_⟩
        · rw [spContent, List.take_append_of_le_length hdl]
        · simp only [SpRd.rest, hz, List.replicate_zero, List.nil_append, spContent]
          rw [List.drop_append_of_le_length hdl]
        · dsimp only
          rw [spContent, List.take_append_of_le_length hdl, hz]; omega
    · rw [if_neg hh]
      have hh : s.hole = true := by simpa using hh
      by_cases hz : s.zc = 0
      · rw [if_pos hz]
        have hd : d = [] := by
          by_cases hd : d = []
          · exact hd
          · exact absurd hz (h.pend hh hd)
        subst hd
        have hrest : s.rest [] hs = spContent [] hs := by unfold SpRd.rest; rw [hz]; simp
        rw [hrest]
        rw [if_pos ⟨hh, hz⟩] at hf
        unfold spNextHole
        cases hs with
        | nil =>
          obtain ⟨e1, h1, r1⟩ := escNextMark_nil h.rep
          rw [h1]
          refine ⟨{ s with esc := e1 }, [], [], ?_, ⟨r1, h.tail, h.pos, h.norm, h.pend⟩, ?_, ?_⟩
          · simp [spStream, spContent, bind, Except.bind]
          · simp [SpRd.rest, hz, spContent]
          · simp [spContent, hz]; omega
        | cons p hs =>
          obtain ⟨n, x⟩ := p
          obtain ⟨e1, e2, e3, h1, h2, h3, r3, t3⟩ := spHoleStep h.rep h.tail
          have hn0 : 0 < n := h.pos (n, x) (by simp)
          obtain ⟨s2, d', hs', e, q1, q2, q3⟩ := ih { s with esc := e3, zc := n, offset := s.offset + n } need x hs k
            ⟨r3, t3, (fun y hy => h.pos y (by simp [hy])), (fun h' => by dsimp only at h'; rw [hh] at h'; cases h'), (fun _ _ => by dsimp only; omega)⟩
            (by dsimp only; omega) (by
              dsimp only
              rw [if_neg (by omega)]
              simp only [List.length_cons] at hf; omega)
          have hc : SpRd.rest { s with esc := e3, zc := n, offset := s.offset + n } x hs = spContent [] ((n, x) :: hs) := by
            simp [SpRd.rest, spContent]
          rw [hc] at e q2 q3
          refine ⟨s2, d', hs', ?_, q1, q2, q3⟩
          rw [h1]
          show ((escSkip .file false [] e1 >>= _) >>= _) = _
          rw [h2]
          show ((escGetInt e2 >>= _) >>= _) = _
          rw [h3]
          exact e
      · rw [if_neg hz]
        rw [if_neg (by simp [hz])] at hf
        have hmax : 0 < maxUI := by decide
        unfold spZeros
        dsimp only
        generalize hav : min s.zc maxUI = av
        have hav0 : 0 < av := by omega
        have havz : av ≤ s.zc := by omega
        generalize hm : min need av = m
        have hm0 : 0 < m := by omega
        have hzc : s.zc - av + (av - m) = s.zc - m := by omega
        rw [hzc]
        obtain ⟨s2, d', hs', e, q1, q2, q3⟩ := ih { s with zc := s.zc - m, hole := decide (s.zc - m ≠ 0) } (need - m) d hs (k + m)
          ⟨h.rep, h.tail, h.pos, (fun h' => by simpa using h'), (fun h' _ => by simpa using h')⟩ (by dsimp only; omega) (by
            have : ¬ (decide (s.zc - m ≠ 0) = true ∧ s.zc - m = 0) := by simp
            dsimp only
            rw [if_neg this]; omega)
        have hc : s.rest d hs = List.replicate m 0 ++ SpRd.rest { s with zc := s.zc - m, hole := decide (s.zc - m ≠ 0) } d hs := by
          simp only [SpRd.rest]
          rw [← List.append_assoc, List.replicate_append_replicate]
          congr 2; omega
        generalize hsr : SpRd.rest { s with zc := s.zc - m, hole := decide (s.zc - m ≠ 0) } d hs = R at *
        refine ⟨s2, d', hs', ?_, q1, ?_, ?_⟩
        · show (spReadF f _ _ >>= _) = _
          rw [e]
          show Except.ok _ = _
          rw [hc, List.take_append, List.length_replicate, List.take_of_length_le (l := List.replicate m (0 : UInt8)) (by simp; omega)]
        · rw [q2, hc, List.drop_append, List.length_replicate, List.drop_eq_nil_of_le (as := List.replicate m (0 : UInt8)) (by simp; omega)]; simp
        · rw [q3, hc, List.take_append, List.length_replicate, List.take_of_length_le (l := List.replicate m (0 : UInt8)) (by simp; omega)]
          simp only [List.length_append, List.length_replicate]; omega

theorem spStream_size (d : Bytes) (hs : List (Nat × Bytes)) : d.length + 6 * hs.length ≤ streamSize d (spStream hs) := by
  unfold streamSize spStream
  induction hs with
  | nil => simp
  | cons h hs ih => simp at ih ⊢; omega

theorem spRead_ok (s : SpRd) (need : Nat) (d : Bytes) (hs : List (Nat × Bytes)) (k : Nat) (h : SpRep s d hs) (ho : s.offset = k + s.zc) :
    ∃ s' d' hs', spRead s need = .ok ((s.rest d hs).take need, s') ∧ SpRep s' d' hs' ∧ s'.rest d' hs' = (s.rest d hs).drop need ∧
      s'.offset = k + ((s.rest d hs).take need).length + s'.zc := by
  have h1 := rep_len h.rep
  have h2 := spStream_size d hs
  exact spReadF_ok _ s need d hs k h ho (by split <;> omega)

/-! #### copy_to -/

/-- the target represents `c`, up to a hole at its end -/
structure CopyRep (tgt : Flat) (last : Bool) (c : Bytes) : Prop where
  pos : tgt.pos = c.length
  le : tgt.data.length ≤ c.length
  data : tgt.data ++ List.replicate (c.length - tgt.data.length) 0 = c
  done : last = false → tgt.data = c
  hole : last = true → tgt.data.length < c.length

theorem patch_end (data : Bytes) (off : Nat) (b : Bytes) (hb : b ≠ []) (h : data.length ≤ off) :
    patch data off b = data ++ List.replicate (off - data.length) 0 ++ b := by
  unfold patch
  rw [if_neg hb, List.drop_eq_nil_of_le (by omega), List.take_of_length_le (by simp; omega), List.append_nil]

theorem copy_write {tgt : Flat} {last : Bool} {c : Bytes} (h : CopyRep tgt last c) (b : Bytes) (hb : b ≠ []) :
    CopyRep (tgt.write b) false (c ++ b) ∧ (tgt.write b).data = c ++ b := by
  have e : (tgt.write b).data = c ++ b := by
    show patch tgt.data tgt.pos b = _
    rw [h.pos, patch_end _ _ _ hb h.le, h.data]
  refine ⟨⟨?_, ?_, ?_, fun _ => e, (fun h => by cases h)⟩, e⟩
  · show tgt.pos + b.length = _
    rw [h.pos]; simp
  · rw [e]
  · rw [e]; simp

theorem copy_skip {tgt : Flat} {last : Bool} {c : Bytes} (h : CopyRep tgt last c) (n : Nat) (hn : 0 < n) :
    CopyRep (tgt.skip (c.length + n)) true (c ++ List.replicate n 0) := by
  refine ⟨?_, ?_, ?_, (fun h => by cases h), fun _ => ?_⟩
  · simp [Flat.skip]
  · have := h.le; simp [Flat.skip]; omega
  · have := h.le
    show tgt.data ++ List.replicate _ 0 = _
    conv => rhs; rw [← h.data]
    rw [List.append_assoc, List.replicate_append_replicate]
    congr 2
    simp [Flat.skip]; omega
  · have := h.le; simp [Flat.skip]; omega

/-- the checksum bytes of the chunks given -/
def fedByte (w i : Nat) (fed : List (Nat × Bytes)) : UInt8 := fed.foldl (fun a ch => a ^^^ crcByte w i ch.1 ch.2) 0

theorem fedByte_snoc (w i : Nat) (fed : List (Nat × Bytes)) (o : Nat) (b : Bytes) :
    fedByte w i (fed ++ [(o, b)]) = fedByte w i fed ^^^ crcByte w i o b := by simp [fedByte]

theorem crcByte_zeros (w i off n : Nat) : crcByte w i off (List.replicate n 0) = 0 := by
  apply crcByte_zero
  intro k hk _
  simp at hk
  simp [hk]

theorem spCopyF_ok (noSkip : Bool) : ∀ (f : Nat) (s : SpRd) (tgt : Flat) (last : Bool) (fed : List (Nat × Bytes)) (d : Bytes) (hs : List (Nat × Bytes)) (c : Bytes),
    Rep s.esc d (spStream hs) → TailOk d (spStream hs) → (∀ h ∈ hs, 0 < h.1) → CopyRep tgt last c → (noSkip = false → s.offset = c.length) →
    (noSkip = true → last = false) → streamSize d (spStream hs) < f →
    ∃ tgt' fed', spCopyF noSkip f s tgt last fed = .ok (tgt', fed') ∧ tgt'.data = c ++ spContent d hs ∧
      (noSkip = false → ∀ w i, fedByte w i fed = crcByte w i 0 c → fedByte w i fed' = crcByte w i 0 (c ++ spContent d hs)) := by
  intro f
  induction f with
  | zero => intros; omega
  | succ f ih =>
    intro s tgt last fed d hs c hr ht hp hc ho hl hf
    obtain ⟨e1, r1, r2⟩ := escRead_exact s.esc spBuf d _ hr ht
    unfold spCopyF
    rw [r1]
    show ∃ tgt' fed', (if d.take spBuf ≠ [] then _ else _) = _ ∧ _
    by_cases hb : d.take spBuf ≠ []
    · rw [if_pos hb]
      obtain ⟨hc', -⟩ := copy_write hc _ hb
      have hpos : 0 < (d.take spBuf).length := List.length_pos_iff.2 hb
      obtain ⟨tgt', fed', q1, q2, q3⟩ := ih { s with esc := e1, offset := s.offset + (d.take spBuf).length } (tgt.write (d.take spBuf)) false
        (fed ++ [(s.offset, d.take spBuf)]) (d.drop spBuf) hs (c ++ d.take spBuf) r2 (tailOk_drop ht _) hp hc'
        (fun h => by dsimp only; rw [ho h]; simp) (fun _ => rfl) (by
          unfold streamSize at *
          rw [List.length_take] at hpos
          rw [List.length_drop]; omega)
      have hcat : c ++ d.take spBuf ++ spContent (d.drop spBuf) hs = c ++ spContent d hs := by
        unfold spContent
        conv => rhs; rw [← List.take_append_drop spBuf d]
        simp only [List.append_assoc]
      rw [hcat] at q2 q3
      refine ⟨tgt', fed', q1, q2, fun hns w i hw => q3 hns w i ?_⟩
      rw [fedByte_snoc, hw, ho hns, crcByte_append, Nat.zero_add]
    · rw [if_neg hb]
      have hd : d = [] := by
        have : d.take spBuf = [] := by by_contra h; exact hb h
        rcases List.take_eq_nil_iff.1 this with h | h
        · exact absurd h (by decide)
        · exact h
      subst hd
      simp only [List.drop_nil] at r2
      cases hs with
      | nil =>
        obtain ⟨e2, h1, r3⟩ := escNextMark_nil r2
        rw [h1]
        have hcc : c ++ spContent [] [] = c := by simp [spContent]
        rw [hcc]
        show ∃ tgt' fed', (if last = true then _ else _) = _ ∧ _
        by_cases hlast : last = true
        · rw [if_pos hlast]
          have hlt := hc.hole hlast
          refine ⟨_, _, rfl, ?_, fun _ w i hw => hw⟩
          have hp0 : ¬ ((tgt.pos : Int) < -(-1)) := by rw [hc.pos]; omega
          unfold Flat.skipRel
          rw [if_pos (by decide), if_neg hp0]
          show patch tgt.data (tgt.pos - 1) [0] = c
          rw [patch_end _ _ _ (by simp) (by rw [hc.pos]; omega), hc.pos, List.append_assoc]
          conv => rhs; rw [← hc.data]
          congr 1
          rw [show c.length - tgt.data.length = (c.length - 1 - tgt.data.length) + 1 by omega, List.replicate_succ']
        · rw [if_neg hlast]
          exact ⟨tgt, fed, rfl, hc.done (by simpa using hlast), fun _ w i hw => hw⟩
      | cons p hs =>
        obtain ⟨n, x⟩ := p
        obtain ⟨e2, e3, e4, h1, h2, h3, r3, t3⟩ := spHoleStep r2 ht
        have hn0 : 0 < n := hp (n, x) (by simp)
        rw [h1]
        show ∃ tgt' fed', (escSkip .file false [] e2 >>= _) = _ ∧ _
        rw [h2]
        show ∃ tgt' fed', (escGetInt e3 >>= _) = _ ∧ _
        rw [h3]
        have hsz : streamSize x (spStream hs) < f := by
          unfold streamSize spStream at *
          simp at hf ⊢; omega
        have hcat : c ++ List.replicate n 0 ++ spContent x hs = c ++ spContent [] ((n, x) :: hs) := by simp [spContent]
        show ∃ tgt' fed', (if noSkip = true then _ else _) = _ ∧ _
        by_cases hns : noSkip = true
        · rw [if_pos hns]
          have hw := copy_write hc (List.replicate n 0) (by simp; omega)
          obtain ⟨tgt', fed', q1, q2, q3⟩ := ih { s with esc := e4 } (tgt.write (List.replicate n 0)) last fed x hs (c ++ List.replicate n 0) r3 t3
            (fun y hy => hp y (by simp [hy])) (by rw [hl hns]; exact hw.1) (fun h => by rw [hns] at h; cases h) hl hsz
          rw [hcat] at q2
          exact ⟨tgt', fed', q1, q2, fun h => by rw [hns] at h; cases h⟩
        · rw [if_neg hns]
          have hns : noSkip = false := by simpa using hns
          have hoff := ho hns
          obtain ⟨tgt', fed', q1, q2, q3⟩ := ih { s with esc := e4, offset := s.offset + n } (tgt.skip (s.offset + n)) true fed x hs (c ++ List.replicate n 0) r3 t3
            (fun y hy => hp y (by simp [hy])) (by rw [hoff]; exact copy_skip hc n hn0) (fun h => by dsimp only; rw [hoff]; simp)
            (fun h => by rw [hns] at h; cases h) hsz
          rw [hcat] at q2 q3
          refine ⟨tgt', fed', q1, q2, fun h w i hw => q3 h w i ?_⟩
          rw [hw, crcByte_append, crcByte_zeros]; simp

end Dar
