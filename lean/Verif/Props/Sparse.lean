import Verif.Lemmas.Sparse2
/- Property C12: files with holes are given back exactly as they were. -/
namespace Dar

section
variable [EscByte]

/-- An incomplete pattern at the end of the data is still there in the stored form. -/
theorem endsPartial_escData (d : Bytes) (h : endsPartial d) : endsPartial (escData d) := by
  induction hn : d.length using Nat.strong_induction_on generalizing d with
  | _ n ih =>
    cases d with
    | nil =>
      obtain ⟨k, h1, h2, h3⟩ := h
      have := h3.length_le
      simp [escPattern] at this; omega
    | cons b d =>
      by_cases hp : escPattern <+: b :: d
      · obtain ⟨t, ht⟩ := hp
        have hl : n = 5 + t.length := by rw [← hn, ← ht]; simp [escPattern]; omega
        rw [← ht] at h ⊢
        rw [escData_pattern]
        have ht' : endsPartial t := by
          obtain ⟨k, h1, h2, h3⟩ := h
          refine ⟨k, h1, h2, ?_⟩
          rcases Nat.lt_or_ge t.length k with hlt | hge
          · exfalso
            obtain ⟨u, hu⟩ := h3
            have hul : u.length + k = 5 + t.length := by
              have := congrArg List.length hu
              have hk : (escPattern.take k).length = k := by simp [escPattern]; omega
              simp only [List.length_append, hk] at this
              simpa [escPattern, Nat.add_comm] using this
            have h5 : (u ++ escPattern.take k)[u.length]? = some EscByte.b := by
              rw [List.getElem?_append_right (Nat.le_refl _), Nat.sub_self]
              obtain ⟨k, rfl⟩ : ∃ j, k = j + 1 := ⟨k - 1, by omega⟩
              simp [escPattern]
            rw [hu, List.getElem?_append_left (by simp [escPattern]; omega)] at h5
            have hr : 1 ≤ u.length ∧ u.length < 5 := by omega
            generalize u.length = j at h5 hr
            have ok := EscByte.ok
            have : j = 1 ∨ j = 2 ∨ j = 3 ∨ j = 4 := by omega
            rcases this with rfl | rfl | rfl | rfl <;> simp [escPattern] at h5 <;> simp_all
          · have hk : (escPattern.take k).length = k := by simp [escPattern]; omega
            exact List.suffix_of_suffix_length_le h3 (List.suffix_append _ _) (by rw [hk]; exact hge)
        obtain ⟨k, h1, h2, h3⟩ := ih t.length (by omega) t ht' rfl
        exact ⟨k, h1, h2, h3.trans (List.suffix_append _ _)⟩
      · rw [escData_cons b d hp]
        obtain ⟨k, h1, h2, h3⟩ := h
        rcases List.suffix_cons_iff.1 h3 with h4 | h4
        · have hk : (escPattern.take k).length = k := by simp [escPattern]; omega
          have hs : escData (b :: d) = b :: d := escData_short _ (by rw [← h4, hk]; exact h2)
          rw [escData_cons b d hp] at hs
          rw [hs]
          exact ⟨k, h1, h2, h3⟩
        · obtain ⟨k, h1, h2, h3⟩ := ih d.length (by simp at hn; omega) d ⟨k, h1, h2, h4⟩ rfl
          exact ⟨k, h1, h2, h3.trans (List.suffix_cons _ _)⟩

theorem tailOk_of_stored (d : Bytes) (ms : List (SeqT × Bytes)) (h : ¬ endsPartial (encStream d ms)) : TailOk d ms := by
  induction ms generalizing d with
  | nil =>
    intro hd
    apply h
    rw [encStream_nil]
    exact endsPartial_escData d hd
  | cons m ms ih =>
    obtain ⟨t, x⟩ := m
    apply ih x
    rintro ⟨k, h1, h2, h3⟩
    apply h
    refine ⟨k, h1, h2, h3.trans ?_⟩
    exact ⟨escData d ++ escSeq t, by simp [encStream, encMarks]⟩

theorem escRun_append (ops ops' : List EscOp) (st : Bytes × Bytes) :
    escRun st (ops ++ ops') = (escRun st ops >>= fun st => escRun st ops') := by
  induction ops generalizing st with
  | nil => rfl
  | cons op ops ih =>
    rw [List.cons_append, escRun, escRun]
    cases escStep st op with
    | error e => rfl
    | ok st' => exact ih st'

theorem escProduce_sync (ops : List EscOp) : escProduce (ops ++ [.sync]) = escProduce ops := by
  unfold escProduce
  rw [escRun_append]
  cases escRun ([], []) ops with
  | error e => rfl
  | ok x => obtain ⟨o, p⟩ := x; simp [escRun, escStep, bind, Except.bind]

/-- What is stored: data and holes, whatever the way the data was cut in writes. -/
theorem spProduce_spec (m : Nat) (chunks : List Bytes) :
    ∃ d hs, spProduce m chunks = .ok (encStream d (spStream hs)) ∧ spContent d hs = chunks.flatten ∧ (∀ h ∈ hs, m < h.1) ∧
      (uiMin m = 0 → hs = []) := by
  obtain ⟨s, e, h⟩ := spWrites_ok (m := m) chunks (spOk_init m)
  rw [List.nil_append] at h
  have hs : ∃ s', spSync m s = .ok s' ∧ ∃ ops, s'.ops = ops ++ [.sync] ∧ OpsOk m ops chunks.flatten := by
    unfold spSync
    by_cases hh : s.hole = true
    · obtain ⟨s1, e1, o1, -⟩ := spDump_ok h hh
      rw [if_pos hh, e1]
      exact ⟨_, rfl, s1.ops, rfl, o1⟩
    · rw [if_neg hh]
      obtain ⟨⟨c0, ho, hc⟩, -, hn, -⟩ := h
      rw [hn (by simpa using hh)] at hc
      refine ⟨_, rfl, s.ops, rfl, ?_⟩
      rw [hc]; simpa using ho
  obtain ⟨s', e', ops, ho, h1, h2, d, hs, h3, h4, h5, h6⟩ := hs
  refine ⟨d, hs, ?_, h4, h5, h6⟩
  unfold spProduce
  rw [e]
  show (spSync m s >>= fun s => escProduce s.ops) = _
  rw [e']
  show escProduce s'.ops = _
  rw [ho, escProduce_sync, escProduce_spec ops h1 h2, h3]

/-- Successive reads of the given sizes, until an error. -/
def spSession : SpRd → List Nat → Res (List Bytes × SpRd)
  | s, [] => .ok ([], s)
  | s, n :: l => do
    let (b, s1) ← spRead s n
    let (r, s2) ← spSession s1 l
    .ok (b :: r, s2)

/-- What successive reads of these sizes have to give for a file of this content. -/
def cuts : List Nat → Bytes → List Bytes
  | [], _ => []
  | n :: l, c => c.take n :: cuts l (c.drop n)

theorem spReal (hs : List (Nat × Bytes)) : RealMarks (spStream hs) := by
  intro x hx
  obtain ⟨h, -, e⟩ := List.mem_map.1 hx
  rw [← e]; simp

theorem spSession_ok (l : List Nat) : ∀ (s : SpRd) (d : Bytes) (hs : List (Nat × Bytes)) (k : Nat), SpRep s d hs → s.offset = k + s.zc →
    ∃ s', spSession s l = .ok (cuts l (s.rest d hs), s') ∧ s'.offset = k + (cuts l (s.rest d hs)).flatten.length + s'.zc := by
  induction l with
  | nil => intro s d hs k h ho; exact ⟨s, rfl, by simpa [cuts] using ho⟩
  | cons n l ih =>
    intro s d hs k h ho
    obtain ⟨s1, d1, hs1, e1, r1, c1, o1⟩ := spRead_ok s n d hs k h ho
    obtain ⟨s2, e2, o2⟩ := ih s1 d1 hs1 _ r1 o1
    refine ⟨s2, ?_, ?_⟩
    · unfold spSession
      rw [e1]
      show (spSession s1 l >>= _) = _
      rw [e2, c1]; rfl
    · rw [o2, c1]
      simp only [cuts, List.flatten_cons, List.length_append]; omega

theorem spRep_open (d : Bytes) (hs : List (Nat × Bytes)) (ht : TailOk d (spStream hs)) (hp : ∀ h ∈ hs, 0 < h.1) :
    SpRep (SpRd.init (encStream d (spStream hs))) d hs ∧ (SpRd.init (encStream d (spStream hs))).rest d hs = spContent d hs := by
  refine ⟨⟨rep_open _ _ (spReal hs), ht, hp, fun _ => rfl, (fun h => by cases h)⟩, by simp [SpRd.rest, SpRd.init]⟩

/-- C12: whatever the content of the file, the minimum hole size and the way the data was cut in writes, the archiving never fails
and successive reads of any sizes give the content back, in order; get_position gives the number of bytes read.
Partial: when the stored form ends with an incomplete occurrence of the escape pattern the end of the file may be lost, or an
error may be reported (see the two counterexamples below). -/
theorem C12_roundtrip_partial (minHole : Nat) (chunks : List Bytes) :
    ∃ file, spProduce minHole chunks = .ok file ∧
      (¬ endsPartial file → ∀ sizes, ∃ s', spSession (SpRd.init file) sizes = .ok (cuts sizes chunks.flatten, s') ∧
        s'.position = .ok (cuts sizes chunks.flatten).flatten.length) := by
  obtain ⟨d, hs, e, hc, hm, -⟩ := spProduce_spec minHole chunks
  refine ⟨_, e, fun ht sizes => ?_⟩
  obtain ⟨r, hr⟩ := spRep_open d hs (tailOk_of_stored _ _ ht) (fun h hh => by have := hm h hh; omega)
  obtain ⟨s', e', ho⟩ := spSession_ok sizes _ d hs 0 r (by simp [SpRd.init])
  rw [hr, hc] at e' ho
  refine ⟨s', e', ?_⟩
  unfold SpRd.position
  rw [if_neg (by omega)]
  congr 1; omega

/-- C12: what is stored is data and holes whose concatenation is the content, and only runs of zeros longer than the minimum
are stored as holes; with a minimum of zero, or too large, the file is stored as plain (escaped) data. -/
theorem C12_holes (minHole : Nat) (chunks : List Bytes) :
    ∃ d hs, spProduce minHole chunks = .ok (encStream d (spStream hs)) ∧ spContent d hs = chunks.flatten ∧ (∀ h ∈ hs, minHole < h.1) ∧
      (minHole = 0 ∨ 2 ^ 32 - 1 < minHole → hs = [] ∧ spProduce minHole chunks = .ok (escData chunks.flatten)) := by
  obtain ⟨d, hs, e, hc, hm, hu⟩ := spProduce_spec minHole chunks
  refine ⟨d, hs, e, hc, hm, fun h => ?_⟩
  have h0 : hs = [] := by
    apply hu
    unfold uiMin maxUI
    rcases h with h | h
    · rw [h]; rfl
    · rw [if_neg (by omega)]
  subst h0
  refine ⟨rfl, ?_⟩
  rw [e, ← hc]
  simp [spStream, encStream_nil, spContent]

/-- C12: while writing, get_position gives the number of bytes written so far, holes included. -/
theorem C12_write_position (minHole : Nat) (chunks : List Bytes) :
    ∃ s, spWrites minHole chunks SpWr.init = .ok s ∧ s.position = chunks.flatten.length := by
  obtain ⟨s, e, h⟩ := spWrites_ok (m := minHole) chunks (spOk_init minHole)
  exact ⟨s, e, by simpa [SpWr.position] using h.off⟩

/-- C12: copy_to gives the content back in an empty file, be it with or without restoration of the holes.
Partial: as for C12_roundtrip_partial. -/
theorem C12_copy_to_partial (minHole : Nat) (chunks : List Bytes) (noSkip : Bool) :
    ∃ file, spProduce minHole chunks = .ok file ∧
      (¬ endsPartial file → ∃ tgt fed, spCopyTo noSkip (SpRd.init file) ⟨[], 0⟩ = .ok (tgt, fed) ∧ tgt.data = chunks.flatten) := by
  obtain ⟨d, hs, e, hc, hm, -⟩ := spProduce_spec minHole chunks
  refine ⟨_, e, fun ht => ?_⟩
  have hl := rep_len (rep_open d (spStream hs) (spReal hs))
  obtain ⟨tgt, fed, q1, q2, -⟩ := spCopyF_ok noSkip (((SpRd.init (encStream d (spStream hs))).esc.buf.length + (SpRd.init (encStream d (spStream hs))).esc.below.length + 3))
    (SpRd.init (encStream d (spStream hs))) ⟨[], 0⟩ false [] d hs [] (rep_open _ _ (spReal hs)) (tailOk_of_stored _ _ ht)
    (fun h hh => by have := hm h hh; omega) ⟨rfl, by simp, by simp, fun _ => rfl, (fun h => by cases h)⟩ (fun _ => rfl) (fun _ => rfl)
    (by show _ < (escOpen _).buf.length + (escOpen _).below.length + 3; omega)
  exact ⟨tgt, fed, q1, by rw [q2, List.nil_append, hc]⟩

/-- computing a checksum on chunks given with their offset (the value of copy_to) -/
theorem fed_crc (w : Nat) (hw : 0 < w) (impl : CrcImpl) (addr : Nat) (fed : List (Nat × Bytes)) :
    ∃ c : Crc, fed.foldlM (fun (c : Crc) (ch : Nat × Bytes) => c.computeAt ch.1 addr ch.2) ⟨impl, ⟨List.replicate w 0, 0⟩⟩ = .ok c ∧
      c.st.cyc = (List.range w).map fun i => fedByte w i fed := by
  have gen : ∀ (fed : List (Nat × Bytes)) (c : Crc) (acc : Nat → UInt8), c.st.cyc = (List.range w).map acc →
      ∃ c' : Crc, fed.foldlM (fun (c : Crc) (ch : Nat × Bytes) => c.computeAt ch.1 addr ch.2) c = .ok c' ∧
        c'.st.cyc = (List.range w).map fun i => fed.foldl (fun a ch => a ^^^ crcByte w i ch.1 ch.2) (acc i) := by
    intro fed
    induction fed with
    | nil => intro c acc h; exact ⟨c, rfl, h⟩
    | cons ch l ih =>
      intro c acc h
      have hlen : c.st.cyc.length = w := by rw [h]; simp
      have hca : c.computeAt ch.1 addr ch.2 = .ok ⟨c.impl, ⟨(List.range c.st.cyc.length).map (fun i => c.st.cyc.getD i 0 ^^^ crcByte c.st.cyc.length i ch.1 ch.2), (ch.1 + ch.2.length) % c.st.cyc.length⟩⟩ := by
        unfold Crc.computeAt
        rw [if_neg (by omega), Crc.compute_eq _ (by exact Nat.mod_lt _ (by omega))]
        simp only [crcFold_spec ch.2 c.st.cyc ch.1 (by omega)]
      obtain ⟨c', e', h'⟩ := ih ⟨c.impl, ⟨(List.range c.st.cyc.length).map (fun i => c.st.cyc.getD i 0 ^^^ crcByte c.st.cyc.length i ch.1 ch.2), (ch.1 + ch.2.length) % c.st.cyc.length⟩⟩
        (fun i => acc i ^^^ crcByte w i ch.1 ch.2) (by
          dsimp only
          rw [hlen]
          apply List.map_congr_left
          intro i hi
          rw [h]
          rw [List.mem_range] at hi
          simp [hi])
      refine ⟨c', ?_, h'⟩
      rw [List.foldlM_cons, hca]
      exact e'
  obtain ⟨c, e, h⟩ := gen fed ⟨impl, ⟨List.replicate w 0, 0⟩⟩ (fun _ => 0) (by
    dsimp only
    symm
    rw [List.eq_replicate_iff]
    simp)
  exact ⟨c, e, h⟩

/-- C12: when holes are restored by skipping, the checksum computed by copy_to is the one of the whole content, holes included. -/
theorem C12_copy_checksum_partial (minHole : Nat) (chunks : List Bytes) (w : Nat) (hw : 0 < w) (impl : CrcImpl) (addr : Nat) :
    ∃ file, spProduce minHole chunks = .ok file ∧
      (¬ endsPartial file → ∃ tgt fed c, spCopyTo false (SpRd.init file) ⟨[], 0⟩ = .ok (tgt, fed) ∧
        fed.foldlM (fun (c : Crc) (ch : Nat × Bytes) => c.computeAt ch.1 addr ch.2) ⟨impl, ⟨List.replicate w 0, 0⟩⟩ = .ok c ∧
        c.st.cyc = crcSpec w chunks.flatten) := by
  obtain ⟨d, hs, e, hc, hm, -⟩ := spProduce_spec minHole chunks
  refine ⟨_, e, fun ht => ?_⟩
  have hl := rep_len (rep_open d (spStream hs) (spReal hs))
  obtain ⟨tgt, fed, q1, q2, q3⟩ := spCopyF_ok false (((SpRd.init (encStream d (spStream hs))).esc.buf.length + (SpRd.init (encStream d (spStream hs))).esc.below.length + 3))
    (SpRd.init (encStream d (spStream hs))) ⟨[], 0⟩ false [] d hs [] (rep_open _ _ (spReal hs)) (tailOk_of_stored _ _ ht)
    (fun h hh => by have := hm h hh; omega) ⟨rfl, by simp, by simp, fun _ => rfl, (fun h => by cases h)⟩ (fun _ => rfl) (fun _ => rfl)
    (by show _ < (escOpen _).buf.length + (escOpen _).below.length + 3; omega)
  obtain ⟨c, e1, e2⟩ := fed_crc w hw impl addr fed
  refine ⟨tgt, fed, c, q1, e1, ?_⟩
  rw [e2]
  unfold crcSpec
  apply List.map_congr_left
  intro i _
  rw [q3 rfl w i rfl, List.nil_append, hc]

end

section
attribute [local instance] escSparse

/-- the content of a file with holes, its data `x` being between two of them -/
def C12_content (x : Bytes) : Bytes := [7, 8] ++ List.replicate 20 0 ++ x ++ List.replicate 12 0

/-- Not trivial: a file with a hole in the middle, written in two pieces cut inside the hole, and one at its end. -/
theorem C12_example_write :
    (spProduce 10 [(C12_content [0xAE, 9]).take 9, (C12_content [0xAE, 9]).drop 9]).toOption =
      some ([7, 8] ++ List.replicate 7 0 ++ escSeq .file ++ putInt 13 ++ [0xAE, 9] ++ escSeq .file ++ putInt 12) := by decide +kernel

def C12_stored : Bytes := [7, 8] ++ escSeq .file ++ putInt 20 ++ escSeq .notASequence ++ [0x46] ++ escSeq .file ++ putInt 12

/-- The same with the escape pattern in the data. -/
theorem C12_example_read :
    ((spSession (SpRd.init C12_stored) [5, 30, 30]).toOption.map Prod.fst) = some (cuts [5, 30, 30] (C12_content [0xAE, 0xFD, 0xEA, 0x77, 0x21, 0x46])) ∧
    ((spCopyTo false (SpRd.init C12_stored) ⟨[], 0⟩).toOption.map fun x => x.1.data) = some (C12_content [0xAE, 0xFD, 0xEA, 0x77, 0x21, 0x46]) ∧
    C12_stored.drop (C12_stored.length - 4) = [0, 0, 0, 12] := by decide +kernel

/-- C12 does not hold of the code when the stored form ends with an incomplete pattern: in a file of the single byte 0xAE, read
one byte at a time, no byte is ever found. -/
theorem C12_tail_counterexample :
    spProduce 10 [[0xAE]] = .ok [0xAE] ∧
    (match spSession (SpRd.init [0xAE]) [1, 1, 1] with | .ok (l, _) => l | .error _ => [[1]]) = [[], [], []] := by
  constructor
  · obtain ⟨d, hs, e, hc, hm, -⟩ := spProduce_spec 10 [[0xAE]]
    have h0 : hs = [] := by
      cases hs with
      | nil => rfl
      | cons h l =>
        have h1 := hm h (by simp)
        have := congrArg List.length hc
        simp [spContent] at this
        omega
    subst h0
    rw [e]
    simp [spContent] at hc
    rw [hc]
    simp [spStream, encStream_nil, escData_short]
  · decide +kernel

/-- C12 does not hold of the code for a hole at the end of a file when the bytes of its length end with an incomplete
pattern: the archive is written without error and cannot be read. -/
def C12_hole_length : Nat := 2 ^ 32 + 0xAEFDEA

theorem C12_hole_length_counterexample :
    (match escProduce [EscOp.write [1], EscOp.mark .file, EscOp.write (putInt C12_hole_length)] with
     | .ok file => (match spRead (SpRd.init file) 2 with | .ok _ => none | .error e => some e)
     | .error _ => none) = some .range := by decide +kernel

/-- Without restoration of the holes (copy_to_no_skip) the offsets given to the checksum ignore the holes: the value of copy_to is
not the checksum of the content. -/
theorem C12_no_skip_checksum_counterexample :
    (match spProduce 2 [[1, 0, 0, 0, 2]] with
     | .ok file => (match spCopyTo true (SpRd.init file) ⟨[], 0⟩ with | .ok (t, fed) => (t.data, fedByte 2 0 fed) | .error _ => ([], 0))
     | .error _ => ([], 0)) = ([1, 0, 0, 0, 2], 1) ∧ crcByte 2 0 0 [1, 0, 0, 0, 2] = 3 := by decide +kernel

end
end Dar
