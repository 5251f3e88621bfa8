import Verif.Spec.Sparse
import Verif.Lemmas.Infinint4
import Verif.Lemmas.Escape3
/- Lemmas for Props/Sparse.lean: the writing side. -/
namespace Dar

/-! #### What successive calls mean -/

def appLast : Bytes → List (SeqT × Bytes) → Bytes → MarkStream
  | d, [], a => (d ++ a, [])
  | d, (t, x) :: ms, a => (d, (t, (appLast x ms a).1) :: (appLast x ms a).2)

theorem appLast_pre (b d : Bytes) (ms : List (SeqT × Bytes)) (a : Bytes) :
    appLast (b ++ d) ms a = (b ++ (appLast d ms a).1, (appLast d ms a).2) := by
  cases ms with
  | nil => simp [appLast]
  | cons m ms => rfl

theorem opsMeaning_snoc_write (ops : List EscOp) (a : Bytes) :
    opsMeaning (ops ++ [.write a]) = appLast (opsMeaning ops).1 (opsMeaning ops).2 a := by
  induction ops with
  | nil => simp [opsMeaning, appLast]
  | cons op ops ih =>
    cases op with
    | write b => simp only [List.cons_append, opsMeaning, ih, appLast_pre]
    | sync => simp only [List.cons_append, opsMeaning, ih]
    | mark t => simp only [List.cons_append, opsMeaning, ih, appLast]

theorem opsMeaning_snoc_mark (ops : List EscOp) (t : SeqT) :
    opsMeaning (ops ++ [.mark t]) = ((opsMeaning ops).1, (opsMeaning ops).2 ++ [(t, [])]) := by
  induction ops with
  | nil => rfl
  | cons op ops ih =>
    cases op with
    | write b => simp only [List.cons_append, opsMeaning, ih]
    | sync => simp only [List.cons_append, opsMeaning, ih]
    | mark u => simp only [List.cons_append, opsMeaning, ih]

theorem appLast_snoc (d : Bytes) (ms : List (SeqT × Bytes)) (t : SeqT) (x a : Bytes) :
    appLast d (ms ++ [(t, x)]) a = (d, ms ++ [(t, x ++ a)]) := by
  induction ms generalizing d with
  | nil => simp [appLast]
  | cons m ms ih => simp only [List.cons_append, appLast, ih]

theorem appLast_content (d : Bytes) (hs : List (Nat × Bytes)) (a : Bytes) :
    ∃ d' hs', appLast d (spStream hs) a = (d', spStream hs') ∧ spContent d' hs' = spContent d hs ++ a ∧
      hs'.map Prod.fst = hs.map Prod.fst := by
  rcases List.eq_nil_or_concat hs with h | ⟨l, ⟨n, x⟩, h⟩
  · subst h
    exact ⟨d ++ a, [], by simp [spStream, appLast], by simp [spContent], rfl⟩
  · subst h
    refine ⟨d, l ++ [(n, x ++ a)], ?_, ?_, ?_⟩
    · simp only [spStream, List.concat_eq_append, List.map_append, List.map_cons, List.map_nil]
      rw [appLast_snoc]
      simp [List.append_assoc]
    · simp [spContent, List.flatMap_append]
    · simp

/-- the calls made so far stand for `content`, with holes longer than `m` only -/
def OpsOk (m : Nat) (ops : List EscOp) (content : Bytes) : Prop :=
  EscOp.sync ∉ ops ∧ EscOp.mark .notASequence ∉ ops ∧
  ∃ d hs, opsMeaning ops = (d, spStream hs) ∧ spContent d hs = content ∧ (∀ h ∈ hs, m < h.1) ∧ (uiMin m = 0 → hs = [])

theorem opsOk_write {m : Nat} {ops : List EscOp} {content : Bytes} (h : OpsOk m ops content) (a : Bytes) :
    OpsOk m (ops ++ [.write a]) (content ++ a) := by
  obtain ⟨h1, h2, d, hs, h3, h4, h5, h6⟩ := h
  obtain ⟨d', hs', e1, e2, e3⟩ := appLast_content d hs a
  refine ⟨by simp [h1], by simp [h2], d', hs', ?_, by rw [e2, h4], ?_, ?_⟩
  · rw [opsMeaning_snoc_write, h3, e1]
  · intro x hx
    have : x.1 ∈ hs'.map Prod.fst := List.mem_map_of_mem hx
    rw [e3] at this
    obtain ⟨y, hy, e⟩ := List.mem_map.1 this
    rw [← e]; exact h5 y hy
  · intro hu
    rw [h6 hu] at e3
    simpa using e3

theorem opsOk_hole {m : Nat} {ops : List EscOp} {content : Bytes} (h : OpsOk m ops content) (n : Nat) (hn : m < n) (hu : uiMin m ≠ 0) :
    OpsOk m (ops ++ [.mark .file, .write (putInt n)]) (content ++ List.replicate n 0) := by
  obtain ⟨h1, h2, d, hs, h3, h4, h5, h6⟩ := h
  refine ⟨by simp [h1], by simp [h2], d, hs ++ [(n, [])], ?_, ?_, ?_, fun h => absurd h hu⟩
  · rw [show ops ++ [EscOp.mark .file, EscOp.write (putInt n)] = (ops ++ [EscOp.mark .file]) ++ [EscOp.write (putInt n)] by simp,
      opsMeaning_snoc_write, opsMeaning_snoc_mark, h3]
    dsimp only
    rw [appLast_snoc]
    simp [spStream]
  · rw [← h4]; simp [spContent, List.flatMap_append]
  · intro x hx
    rcases List.mem_append.1 hx with h | h
    · exact h5 x h
    · simp at h; subst h; exact hn

/-! #### The search for holes -/

theorem takeWhile_zero (a : Bytes) : a.takeWhile (· = 0) = List.replicate (a.takeWhile (· = 0)).length 0 := by
  rw [List.eq_replicate_iff]
  refine ⟨rfl, fun b hb => ?_⟩
  have := List.all_takeWhile (p := fun b : UInt8 => decide (b = 0)) (l := a)
  rw [List.all_eq_true] at this
  simpa using this b hb

theorem lookForHole_spec (min base : Nat) (a : Bytes) (s l : Nat) (h : lookForHole min base a = some (s, l)) :
    ∃ p, s = base + p ∧ a = a.take p ++ List.replicate l 0 ++ a.drop (p + l) ∧ p + l ≤ a.length ∧ min < l ∧ 0 < min := by
  induction hn : a.length using Nat.strong_induction_on generalizing a base with
  | _ n ih =>
    rw [lookForHole] at h
    by_cases ha : a = []
    · rw [dif_pos ha] at h; cases h
    · rw [dif_neg ha] at h
      dsimp only at h
      generalize hp : (a.takeWhile (· ≠ 0)).length = p at h
      generalize hz : ((a.drop p).takeWhile (· = 0)).length = z at h
      have hple : p ≤ a.length := by rw [← hp]; exact (List.takeWhile_prefix _).length_le
      have hzle : p + z ≤ a.length := by
        have := (List.takeWhile_prefix (fun b : UInt8 => decide (b = 0)) (l := a.drop p)).length_le
        rw [hz, List.length_drop] at this; omega
      by_cases hc : 0 < min ∧ min < z
      · rw [if_pos hc] at h
        simp only [Option.some.injEq, Prod.mk.injEq] at h
        obtain ⟨h1, h2⟩ := h
        subst h1 h2
        refine ⟨p, rfl, ?_, hn ▸ hzle, hc.2, hc.1⟩
        have e1 := List.take_append_drop p a
        have e2 : (a.drop p) = List.replicate z 0 ++ (a.drop (p + z)) := by
          have := List.takeWhile_append_dropWhile (p := fun b : UInt8 => decide (b = 0)) (l := a.drop p)
          have e3 : (a.drop p).dropWhile (fun b : UInt8 => decide (b = 0)) = a.drop (p + z) := by
            have e4 := congrArg (List.drop z) this
            rw [List.drop_append_of_le_length (by omega), List.drop_eq_nil_of_le (by omega), List.nil_append, List.drop_drop] at e4
            exact e4
          rw [e3, takeWhile_zero, hz] at this
          exact this.symm
        rw [List.append_assoc, ← e2, e1]
      · rw [if_neg hc] at h
        have hpos : 0 < a.length := List.length_pos_iff.2 ha
        obtain ⟨q, h1, h2, h3, h4, h5⟩ := ih (a.drop (p + z + 1)).length (by rw [List.length_drop]; omega) _ _ h rfl
        refine ⟨p + z + 1 + q, by omega, ?_, by rw [List.length_drop] at h3; omega, h4, h5⟩
        have e1 := List.take_append_drop (p + z + 1) a
        rw [List.drop_drop] at h2
        have e2 : a.take (p + z + 1 + q) = a.take (p + z + 1) ++ (a.drop (p + z + 1)).take q := by
          rw [List.take_add]
        rw [e2]
        conv => lhs; rw [← e1, h2]
        simp only [List.append_assoc, Nat.add_assoc]

theorem lookForHole_zero (base : Nat) (a : Bytes) : lookForHole 0 base a = none := by
  cases h : lookForHole 0 base a with
  | none => rfl
  | some x => obtain ⟨p, -, -, -, -, h5⟩ := lookForHole_spec 0 base a x.1 x.2 h; omega

/-! #### The writer -/

structure SpOk (m : Nat) (s : SpWr) (content : Bytes) : Prop where
  ops : ∃ c0, OpsOk m s.ops c0 ∧ content = c0 ++ List.replicate s.zc 0
  off : s.offset + s.zc = content.length
  norm : s.hole = false → s.zc = 0
  dis : s.hole = true → uiMin m ≠ 0

theorem uiMin_le {m l : Nat} (h : uiMin m < l) (hu : uiMin m ≠ 0) : m < l := by
  unfold uiMin at *
  by_cases h' : m ≤ maxUI
  · rw [if_pos h'] at h; exact h
  · rw [if_neg h'] at hu; exact absurd rfl hu

theorem spWriteNormal_ok (m : Nat) (a : Bytes) : ∀ (k w : Nat) (s : SpWr) (c0 : Bytes), a.length - w = k → w ≤ a.length →
    OpsOk m s.ops (c0 ++ a.take w) → s.hole = false → s.zc = 0 → (w < a.length) → s.offset = c0.length →
    ∃ s', spWriteNormal m a w s = .ok s' ∧ SpOk m s' (c0 ++ a) := by
  intro k
  induction k using Nat.strong_induction_on with
  | _ k ih =>
    intro w s c0 hk hw ho hh hz hlt hoff
    rw [spWriteNormal]
    rw [dif_neg (by omega)]
    cases hl : lookForHole (uiMin m) 0 (a.drop w) with
    | none =>
      dsimp only
      refine ⟨_, rfl, ⟨_, opsOk_write ho (a.drop w), ?_⟩, ?_, fun _ => hz, fun h => ?_⟩
      · dsimp only; rw [hz]; simp
      · dsimp only; rw [hz, hoff]; simp
      · dsimp only at h; rw [hh] at h; cases h
    | some x =>
      obtain ⟨start, len⟩ := x
      obtain ⟨p, h1, h2, h3, h4, h5⟩ := lookForHole_spec _ _ _ _ _ hl
      rw [Nat.zero_add] at h1
      subst h1
      dsimp only
      rw [if_neg (by omega), dif_neg (by omega)]
      have hlen : start + len ≤ a.length - w := by rw [List.length_drop] at h3; exact h3
      have htake : a.take (w + start + len) = a.take w ++ (a.drop w).take start ++ List.replicate len 0 := by
        rw [Nat.add_assoc, List.take_add, List.append_assoc]
        congr 1
        have e : ((a.drop w).take start ++ List.replicate len (0 : UInt8)).length = start + len := by
          rw [List.length_append, List.length_take, List.length_replicate, List.length_drop]; omega
        conv => lhs; rw [h2]
        exact List.take_left' e
      have ho1 := opsOk_write ho ((a.drop w).take start)
      by_cases hin : w + start + len < a.length
      · rw [if_pos hin]
        have hu : uiMin m ≠ 0 := by omega
        have ho2 := opsOk_hole ho1 len (uiMin_le h4 hu) hu
        refine ih (a.length - (w + start + len)) (by omega) _ _ _ rfl (by omega) ?_ hh hz hin hoff
        show OpsOk m (s.ops ++ [EscOp.write ((a.drop w).take start)] ++ [EscOp.mark .file, EscOp.write (putInt len)]) _
        rw [htake]
        simpa [List.append_assoc] using ho2
      · rw [if_neg hin]
        refine ⟨_, rfl, ⟨_, ho1, ?_⟩, ?_, ?_, fun _ => by omega⟩
        · dsimp only
          have : a = a.take (w + start + len) := by rw [List.take_of_length_le (by omega)]
          conv => lhs; rw [this, htake]
          simp [List.append_assoc]
        · dsimp only
          rw [hoff, List.length_append]; omega
        · intro h; cases h

theorem countZeros_spec (a : Bytes) : a = List.replicate (countZeros a) 0 ++ a.drop (countZeros a) ∧ countZeros a ≤ a.length := by
  unfold countZeros
  have h2 := (List.takeWhile_prefix (fun b : UInt8 => decide (b = 0)) (l := a)).length_le
  refine ⟨?_, h2⟩
  have := List.takeWhile_append_dropWhile (p := fun b : UInt8 => decide (b = 0)) (l := a)
  generalize hz : (a.takeWhile (fun b : UInt8 => decide (b = 0))).length = z at *
  have e3 : a.dropWhile (fun b : UInt8 => decide (b = 0)) = a.drop z := by
    have e4 := congrArg (List.drop z) this
    rw [List.drop_append_of_le_length (by omega), List.drop_eq_nil_of_le (by omega), List.nil_append] at e4
    exact e4
  rw [e3, takeWhile_zero, hz] at this
  exact this.symm

theorem spDump_ok {m : Nat} {s : SpWr} {content : Bytes} (h : SpOk m s content) (hh : s.hole = true) :
    ∃ s', s.dumpZeros m = .ok s' ∧ OpsOk m s'.ops content ∧ s'.hole = false ∧ s'.zc = 0 ∧ s'.offset = content.length := by
  obtain ⟨⟨c0, ho, hc⟩, hoff, -, hd⟩ := h
  unfold SpWr.dumpZeros
  rw [if_neg (by rw [hh]; simp)]
  dsimp only
  by_cases hz : s.zc ≤ m
  · rw [if_pos hz]
    refine ⟨_, rfl, ?_, rfl, rfl, hoff⟩
    rw [hc]; exact opsOk_write ho _
  · rw [if_neg hz]
    refine ⟨_, rfl, ?_, rfl, rfl, hoff⟩
    rw [hc]; exact opsOk_hole ho _ (by omega) (hd hh)

theorem spWrite_ok {m : Nat} {s : SpWr} {content : Bytes} (h : SpOk m s content) (a : Bytes) :
    ∃ s', spWrite m a s = .ok s' ∧ SpOk m s' (content ++ a) := by
  unfold spWrite
  by_cases ha : a = []
  · rw [if_pos ha]; subst ha; exact ⟨s, rfl, by simpa using h⟩
  rw [if_neg ha]
  have hpos : 0 < a.length := List.length_pos_iff.2 ha
  by_cases hh : s.hole = true
  · rw [if_pos hh]
    obtain ⟨e1, e2⟩ := countZeros_spec a
    dsimp only
    generalize hw : countZeros a = w at *
    by_cases hlt : w < a.length
    · rw [if_pos hlt]
      have h1 : SpOk m { s with zc := s.zc + w } (content ++ List.replicate w 0) := by
        obtain ⟨⟨c0, ho, hc⟩, hoff, -, hd⟩ := h
        refine ⟨⟨c0, ho, ?_⟩, ?_, (fun h => by dsimp only at h; rw [hh] at h; cases h), hd⟩
        · dsimp only; rw [hc, ← List.replicate_append_replicate, List.append_assoc]
        · simp only [List.length_append, List.length_replicate]; omega
      obtain ⟨s1, e, o1, o2, o3, o4⟩ := spDump_ok h1 hh
      rw [e]
      have htk : a.take w = List.replicate w 0 := by
        conv => lhs; rw [e1]
        rw [List.take_append_of_le_length (by simp), List.take_of_length_le (by simp)]
      refine spWriteNormal_ok m a _ w { s1 with offset := s1.offset - w } content rfl (by omega) (by rw [htk]; exact o1) o2 o3 hlt ?_
      dsimp only
      rw [o4]; simp
    · rw [if_neg hlt]
      have hwe : w = a.length := by omega
      have hae : a = List.replicate a.length 0 := by
        conv => lhs; rw [e1]
        rw [hwe]; simp
      obtain ⟨⟨c0, ho, hc⟩, hoff, -, hd⟩ := h
      refine ⟨_, rfl, ⟨c0, ho, ?_⟩, ?_, (fun h => by dsimp only at h; rw [hh] at h; cases h), hd⟩
      · dsimp only
        conv => lhs; rw [hae, hc, List.append_assoc, List.replicate_append_replicate]
      · simp only [List.length_append]; omega
  · rw [if_neg hh]
    have hh : s.hole = false := by simpa using hh
    obtain ⟨⟨c0, ho, hc⟩, hoff, hn, hd⟩ := h
    have hz := hn hh
    rw [hz] at hc hoff
    simp only [List.replicate_zero, List.append_nil] at hc
    subst hc
    exact spWriteNormal_ok m a _ 0 s content rfl (by omega) (by simpa using ho) hh hz hpos (by omega)

theorem spWrites_ok {m : Nat} (chunks : List Bytes) : ∀ {s : SpWr} {content : Bytes}, SpOk m s content →
    ∃ s', spWrites m chunks s = .ok s' ∧ SpOk m s' (content ++ chunks.flatten) := by
  induction chunks with
  | nil => intro s content h; exact ⟨s, rfl, by simpa using h⟩
  | cons a l ih =>
    intro s content h
    obtain ⟨s1, e1, h1⟩ := spWrite_ok h a
    obtain ⟨s2, e2, h2⟩ := ih h1
    refine ⟨s2, ?_, by simpa [List.append_assoc] using h2⟩
    show (spWrite m a s >>= fun s1 => spWrites m l s1) = _
    rw [e1]; exact e2

theorem spOk_init (m : Nat) : SpOk m SpWr.init [] := by
  refine ⟨⟨[], ⟨by simp [SpWr.init], by simp [SpWr.init], [], [], rfl, rfl, by simp, fun _ => rfl⟩, rfl⟩, rfl, fun _ => rfl, fun h => by cases h⟩

end Dar
