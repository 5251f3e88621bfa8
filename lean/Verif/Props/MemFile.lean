import Verif.Model.MemFile
import Verif.Props.Storage
/- Property theorems C17 (in-memory files behave like files). -/
namespace Dar

/-- Operations of the user of a memory file. -/
inductive MemOp where
  | read (n : Nat) | write (b : Bytes) | skip (p : Nat) | toEof | rel (x : Int) | trunc (p : Nat)
  deriving Repr

/-- The answer: data read, success or failure of a seek, refusal by an exception -/
inductive MemAns where
  | data (b : Bytes) | flag (ok : Bool) | fail (e : Err)
  deriving DecidableEq, Repr

/-- The same operation on a byte array with a position: seeks stay inside the array and succeed when the place asked for is
inside (for an absolute seek, strictly); truncating at or after the end is refused. -/
def memStep (f : Flat) : MemOp → Flat × MemAns
  | .read n => ((f.read n).1, .data (f.read n).2)
  | .write b => (f.write b, .flag true)
  | .skip p => (⟨f.data, min p f.data.length⟩, .flag (decide (p < f.data.length)))
  | .toEof => (⟨f.data, f.data.length⟩, .flag true)
  | .rel x => (⟨f.data, min ((f.pos : Int) + x).toNat f.data.length⟩, .flag (decide (0 ≤ (f.pos : Int) + x ∧ (f.pos : Int) + x ≤ f.data.length)))
  | .trunc p => if p < f.data.length then (⟨f.data.take p, min f.pos p⟩, .flag true) else (f, .fail .bug)
def memRun (f : Flat) : List MemOp → Flat × List MemAns
  | [] => (f, [])
  | o :: l => ((memRun (memStep f o).1 l).1, (memStep f o).2 :: (memRun (memStep f o).1 l).2)

/-- memory allocations succeed and give one block -/
def okAll : Nat → Bool := fun _ => true
def oneBlock : Nat → List Nat := fun n => [n]

/-- One operation on the memory file of the code. -/
def MemFile.step (m : MemFile) : MemOp → Res (MemFile × MemAns)
  | .read n => do let (m, b) ← m.read n; .ok (m, .data b)
  | .write b => do let m ← m.write okAll oneBlock b; .ok (m, .flag true)
  | .skip p => .ok ((m.skip p).1, .flag (m.skip p).2)
  | .toEof => .ok (m.skipEof, .flag true)
  | .rel x => .ok ((m.skipRel x).1, .flag (m.skipRel x).2)
  | .trunc p => match m.truncate okAll p with | .ok m => .ok (m, .flag true) | .error e => .ok (m, .fail e)
def MemFile.run (m : MemFile) : List MemOp → Res (MemFile × List MemAns)
  | [] => .ok (m, [])
  | o :: l => do let (m, a) ← m.step o; let (m, as) ← m.run l; .ok (m, a :: as)

structure MemFile.Inv (m : MemFile) : Prop where
  one : m.data.length ≤ 1
  size : m.data.flatten.length = m.size
  pos : m.pos ≤ m.size
  big : m.size < 2 ^ 32 - 1

def MemFile.abs (m : MemFile) : Flat := ⟨m.data.flatten, m.pos⟩

theorem mem_data {m : MemFile} (h : m.Inv) : m.data = [] ∨ ∃ d, m.data = [d] ∧ d.length = m.size := by
  have h1 := h.one
  have h2 := h.size
  match hd : m.data with
  | [] => exact .inl rfl
  | [d] => rw [hd] at h2; exact .inr ⟨d, rfl, by simpa using h2⟩
  | _ :: _ :: _ => rw [hd] at h1; simp at h1

theorem mem_single {m : MemFile} (h : m.Inv) (hp : 0 < m.size) : ∃ d, m.data = [d] ∧ d.length = m.size := by
  rcases mem_data h with hd | hd
  · have := h.size; rw [hd] at this; simp at this; omega
  · exact hd

theorem mem_read : ∀ (n : Nat) (m : MemFile), m.Inv →
    ∃ m', m.read n = .ok (m', (m.abs.read n).2) ∧ m'.Inv ∧ m'.abs = (m.abs.read n).1 := by
  intro n
  induction n with
  | zero => intro m h; exact ⟨m, by simp [MemFile.read, Flat.read], h, by simp [Flat.read]⟩
  | succ n ih =>
    intro m h
    rw [MemFile.read]
    by_cases hp : m.pos < m.size
    · rw [if_pos hp]
      obtain ⟨d, hd, hl⟩ := mem_single h (by omega)
      have hat : stAt m.data m.pos = .ok (m.data.flatten[m.pos]'(by rw [h.size]; exact hp)) := by
        apply C50_index_partial m.data m.pos (by rw [h.size]; exact hp) (by have := h.big; omega)
        intro i hi hle
        have : i = 1 := by rw [hd] at hle; simp at hle; omega
        subst this
        rw [hd]; simp; omega
      rw [hat]
      obtain ⟨m', r1, r2, r3⟩ := ih { m with pos := m.pos + 1 } ⟨h.one, h.size, by simp only; omega, h.big⟩
      have hlen : m.pos < m.data.flatten.length := by rw [h.size]; exact hp
      have e : (m.data.flatten.drop m.pos).take (n + 1) = m.data.flatten[m.pos] :: (m.data.flatten.drop (m.pos + 1)).take n := by
        rw [List.drop_eq_getElem_cons hlen, List.take_succ_cons]
      refine ⟨m', ?_, r2, ?_⟩
      · simp only [bind, Except.bind, r1, Flat.read, MemFile.abs, e]
      · rw [r3]; simp only [Flat.read, MemFile.abs, e, List.length_cons]; congr 1; omega
    · rw [if_neg hp]
      have hd : m.data.flatten.drop m.pos = [] := List.drop_eq_nil_of_le (by rw [h.size]; omega)
      exact ⟨m, by simp [Flat.read, MemFile.abs, hd], h, by simp [Flat.read, MemFile.abs, hd]⟩

theorem min_cases' (a k : Nat) : (a ≤ k ∧ min a k = a) ∨ (k < a ∧ min a k = k) := by
  rcases Nat.lt_or_ge k a with h | h
  · exact .inr ⟨h, Nat.min_eq_right (by omega)⟩
  · exact .inl ⟨h, Nat.min_eq_left h⟩

theorem mem_over : ∀ (b : Bytes) (m : MemFile), m.Inv →
    ∃ m', m.overwrite b = .ok (m', b.drop (m.size - m.pos)) ∧ m'.Inv ∧ m'.size = m.size ∧ m'.pos = m.pos + min b.length (m.size - m.pos) ∧
      m'.data.flatten = m.data.flatten.take m.pos ++ b.take (m.size - m.pos) ++ m.data.flatten.drop (m.pos + min b.length (m.size - m.pos)) := by
  intro b
  induction b with
  | nil => intro m h; exact ⟨m, by simp [MemFile.overwrite], h, rfl, by simp, by simp⟩
  | cons v b ih =>
    intro m h
    rw [MemFile.overwrite]
    by_cases hp : m.pos < m.size
    · rw [if_pos hp]
      obtain ⟨d, hd, hl⟩ := mem_single h (by omega)
      have hset : stSet m.data m.pos v = .ok [d.set m.pos v] := by
        have hb := h.big
        unfold stSet
        rw [hd, if_neg (by simp), show min m.pos (2 ^ 32 - 1) = m.pos by omega, stSetIndex, if_neg (by omega), if_pos (by omega)]
      rw [hset]
      obtain ⟨m', r1, r2, r3, r4, r5⟩ := ih ⟨[d.set m.pos v], m.size, m.pos + 1⟩ ⟨by simp, by simp [hl], by simp only; omega, h.big⟩
      simp only at r1 r3 r4 r5
      refine ⟨m', ?_, r2, r3, ?_, ?_⟩
      · simp only [bind, Except.bind, r1]
        rw [show m.size - m.pos = (m.size - (m.pos + 1)) + 1 by omega, List.drop_succ_cons]
      · rw [r4, List.length_cons]; omega
      · rw [r5, hd]
        simp only [List.flatten_cons, List.flatten_nil, List.append_nil]
        rw [show m.size - m.pos = (m.size - (m.pos + 1)) + 1 by omega, List.take_succ_cons, List.length_cons]
        have e1 : (d.set m.pos v).take (m.pos + 1) = d.take m.pos ++ [v] := by
          rw [List.take_set, List.take_succ, List.getElem?_eq_getElem (by omega)]
          simp only [Option.toList]
          rw [List.set_append_right _ _ (by simp)]
          simp; rw [show m.pos - min m.pos d.length = 0 by omega]; rfl
        have e2 : ∀ k, (d.set m.pos v).drop (m.pos + 1 + k) = d.drop (m.pos + 1 + k) := by
          intro k; rw [List.drop_set_of_lt (by omega)]
        have e3 : m.pos + 1 + min b.length (m.size - (m.pos + 1)) = m.pos + min (b.length + 1) (m.size - (m.pos + 1) + 1) := by
          rcases min_cases' b.length (m.size - (m.pos + 1)) with hc | hc <;>
            rcases min_cases' (b.length + 1) (m.size - (m.pos + 1) + 1) with hc' | hc' <;> rw [hc.2, hc'.2] <;> omega
        rw [e1, e2, e3]
        simp
    · rw [if_neg hp]
      have h0 : m.size - m.pos = 0 := by omega
      refine ⟨m, by rw [h0]; rfl, h, rfl, by rw [h0]; simp, by rw [h0]; simp⟩

theorem mem_write (m : MemFile) (h : m.Inv) (b : Bytes) (hb : m.pos + b.length < 2 ^ 32 - 1) :
    ∃ m', m.write okAll oneBlock b = .ok m' ∧ m'.Inv ∧ m'.abs = m.abs.write b := by
  unfold MemFile.write
  by_cases h0 : b = []
  · rw [if_pos h0, h0]; exact ⟨m, rfl, h, by simp [Flat.write, patch_nil, MemFile.abs]⟩
  · rw [if_neg h0]
    obtain ⟨m1, r1, r2, r3, r4, r5⟩ := mem_over b m h
    rw [r1]
    have hpos := h.pos
    generalize hk : m.size - m.pos = k at *
    have hmc := min_cases' b.length k
    generalize hmn : min b.length k = mn at *
    simp only [bind, Except.bind]
    have hins : (stInsert okAll (oneBlock (b.drop k).length) m1.data .stop (b.drop k)).flatten = m1.data.flatten ++ b.drop k := by
      rw [C50_insert okAll _ m1.data .stop trivial (b.drop k) (by simp [oneBlock])]
      simp only [StIter.pos, List.take_length, List.drop_length, List.append_nil]
    have hpatch : m1.data.flatten ++ b.drop k = patch m.data.flatten m.pos b := by
      have hs := h.size
      unfold patch
      rw [if_neg h0, show m.pos - m.data.flatten.length = 0 by omega, List.replicate_zero, List.append_nil, r5]
      by_cases hle : b.length ≤ k
      · rw [List.drop_eq_nil_of_le hle, List.take_of_length_le hle, show mn = b.length by omega]; simp
      · have d1 : m.data.flatten.drop m.size = [] := List.drop_eq_nil_of_le (by omega)
        have d2 : m.data.flatten.drop (m.pos + b.length) = [] := List.drop_eq_nil_of_le (by omega)
        rw [show m.pos + mn = m.size by omega, d1, d2]
        simp
    refine ⟨_, rfl, ⟨?_, ?_, ?_, ?_⟩, ?_⟩
    · simp only
      unfold stInsert
      by_cases hd : b.drop k = []
      · rw [if_pos hd]; exact r2.one
      · rw [if_neg hd]
        have hone := r2.one
        simp only [oneBlock, stNew, List.map_cons, List.map_nil, stBegin, stWrite, List.drop_zero, List.take_zero, List.nil_append, stWriteFrom,
          List.length_replicate, Nat.sub_zero]
        rw [if_pos (le_refl _)]
        rcases mem_data r2 with hh | ⟨d, hh, hl⟩
        · rw [hh]; simp [stReduce, stReduceFrom]
        · rw [hh]
          simp only [List.cons_append, List.nil_append, stReduce, stReduceFrom, okAll, if_true]
          have hkb : k < b.length := by by_contra hc; exact hd (List.drop_eq_nil_of_le (by omega))
          have hsz : (List.take 0 (List.replicate (b.drop k).length (0 : UInt8)) ++ b.drop k ++ List.drop (0 + (b.drop k).length) (List.replicate (b.drop k).length 0)).length = b.length - k := by simp
          rw [if_pos (by simp at hsz ⊢; omega)]
          simp
    · simp only
      rw [hins, List.length_append, r2.size, r3, List.length_drop, r4]
      split_ifs <;> omega
    · simp only; split_ifs <;> omega
    · simp only [r3, r4, List.length_drop]
      have := h.big
      split_ifs <;> omega
    · simp only [MemFile.abs, Flat.write, hins, hpatch]
      congr 1
      rw [r4, List.length_drop]; omega

/-- the size stays below the limit of one memory block during the session -/
def Below (f : Flat) : List MemOp → Prop
  | [] => True
  | .write b :: l => f.pos + b.length < 2 ^ 32 - 1 ∧ Below (f.write b) l
  | o :: l => Below (memStep f o).1 l

theorem mem_step (m : MemFile) (h : m.Inv) (o : MemOp) (hb : ∀ b, o = .write b → m.pos + b.length < 2 ^ 32 - 1) :
    ∃ m', m.step o = .ok (m', (memStep m.abs o).2) ∧ m'.Inv ∧ m'.abs = (memStep m.abs o).1 := by
  have hs := h.size
  have hp := h.pos
  have hbig := h.big
  cases o with
  | read n =>
    obtain ⟨m', r1, r2, r3⟩ := mem_read n m h
    exact ⟨m', by simp only [MemFile.step, r1, bind, Except.bind, memStep], r2, r3⟩
  | write b =>
    obtain ⟨m', r1, r2, r3⟩ := mem_write m h b (hb b rfl)
    exact ⟨m', by simp only [MemFile.step, r1, bind, Except.bind, memStep], r2, r3⟩
  | skip p =>
    refine ⟨(m.skip p).1, ?_, ?_⟩
    · simp only [MemFile.step, memStep, MemFile.abs, MemFile.skip, hs]
      congr 3
      split_ifs <;> simp <;> omega
    · simp only [memStep, MemFile.abs, MemFile.skip, hs]
      rcases min_cases' p m.size with hc | hc
      · by_cases hp2 : p ≥ m.size
        · rw [if_pos hp2]; exact ⟨⟨h.one, h.size, le_refl _, hbig⟩, by simp only; congr 1; omega⟩
        · rw [if_neg hp2]; exact ⟨⟨h.one, h.size, by simp only; omega, hbig⟩, by simp only; congr 1; omega⟩
      · rw [if_pos (by omega)]; exact ⟨⟨h.one, h.size, le_refl _, hbig⟩, by simp only; congr 1; omega⟩
  | toEof => exact ⟨_, rfl, ⟨h.one, h.size, le_refl _, hbig⟩, by simp only [memStep, MemFile.abs, MemFile.skipEof, hs]⟩
  | rel x =>
    refine ⟨(m.skipRel x).1, ?_, ?_⟩
    · simp only [MemFile.step, memStep, MemFile.abs, hs, MemFile.skipRel]
      congr 3
      split_ifs <;> simp <;> omega
    · simp only [memStep, MemFile.abs, MemFile.skipRel, hs]
      split_ifs <;> (refine ⟨⟨h.one, h.size, by simp only; omega, hbig⟩, ?_⟩) <;> (simp only; congr 1; omega)
  | trunc p =>
    have ht : m.truncate okAll p = if p ≥ m.size then .error .bug else .ok ⟨stTruncate okAll m.data p, p, if m.pos > p then p else m.pos⟩ := rfl
    by_cases hc : p ≥ m.size
    · rw [if_pos hc] at ht
      refine ⟨m, ?_, h, ?_⟩
      · simp only [MemFile.step, ht, memStep, MemFile.abs, hs]; rw [if_neg (by omega)]
      · simp only [memStep, MemFile.abs, hs]; rw [if_neg (by omega)]
    · rw [if_neg hc] at ht
      refine ⟨⟨stTruncate okAll m.data p, p, if m.pos > p then p else m.pos⟩, ?_, ?_, ?_⟩
      · simp only [MemFile.step, ht, memStep, MemFile.abs, hs, show p < m.size by omega, if_true]
      · have hfl := C50_truncate okAll m.data p
        refine ⟨?_, by simp only; rw [hfl, List.length_take, hs]; exact Nat.min_eq_left (by omega), by simp only; split_ifs <;> omega, by simp only; omega⟩
        obtain ⟨d, hd, hl⟩ := mem_single h (by omega)
        simp only [hd, stTruncate, stSize, stSkipTo, stSkipFrom]
        rw [if_pos (by omega)]
        split_ifs
        · simp only [stRemove, List.take_zero, List.drop_zero, List.nil_append, stRemoveFrom]
          split_ifs <;> simp [stReduce, stReduceFrom]
        · simp [StIter.next, stRemove, stReduce, stReduceFrom]
        · simp only [stRemove, List.take_zero, List.drop_zero, List.nil_append, stRemoveFrom]
          split_ifs <;> simp [stReduce, stReduceFrom]
      · simp only [memStep, MemFile.abs, hs, C50_truncate, show p < m.size by omega, if_true]
        congr 1
        rcases min_cases' m.pos p with hc | hc <;> rw [hc.2] <;> split_ifs <;> omega

/-- **C17**: any session on a memory file gives what the same session gives on a byte array with a position. -/
theorem C17_session (l : List MemOp) : ∀ (m : MemFile), m.Inv → Below m.abs l →
    ∃ m', m.run l = .ok (m', (memRun m.abs l).2) ∧ m'.Inv ∧ m'.abs = (memRun m.abs l).1 := by
  induction l with
  | nil => intro m h _; exact ⟨m, rfl, h, rfl⟩
  | cons o l ih =>
    intro m h hbel
    have hw : ∀ b, o = .write b → m.pos + b.length < 2 ^ 32 - 1 := by
      intro b hb; subst hb; exact hbel.1
    have hnext : Below (memStep m.abs o).1 l := by
      cases o <;> first | exact hbel.2 | exact hbel
    obtain ⟨m1, s1, i1, a1⟩ := mem_step m h o hw
    obtain ⟨m2, r1, r2, r3⟩ := ih m1 i1 (by rw [a1]; exact hnext)
    rw [a1] at r1 r3
    refine ⟨m2, ?_, r2, r3⟩
    rw [MemFile.run, s1]
    change (m1.run l >>= fun x => Except.ok (x.1, (memStep m.abs o).2 :: x.2)) = _
    rw [r1]; rfl

theorem C17_new : memNew.Inv ∧ memNew.abs = ⟨[], 0⟩ := ⟨⟨by simp [memNew], rfl, le_refl _, by simp [memNew]⟩, rfl⟩

def c17Ops : List MemOp := [.write [1, 2, 3, 4], .skip 2, .write [9, 8, 7], .skip 5, .rel (-4), .read 10, .trunc 3, .rel 2, .toEof, .write [6], .skip 0, .read 9]
example : Below ⟨[], 0⟩ c17Ops := by simp [Below, c17Ops, memStep, Flat.write, Flat.read, patch]
example : (memRun ⟨[], 0⟩ c17Ops).2 = [.flag true, .flag true, .flag true, .flag false, .flag true, .data [2, 9, 8, 7], .flag true, .flag false,
    .flag true, .flag true, .flag true, .data [1, 2, 9, 6]] := by decide

/-- **C17** (a defect of the code): once truncated to nothing, copying the content of a memory file out fails. -/
theorem C17_dump_counterexample : ∃ m m', memNew.write okAll oneBlock [1, 2] = .ok m ∧ m.truncate okAll 0 = .ok m' ∧ m'.Inv ∧
    m'.dumpTo = .error .range ∧ memNew.dumpTo = .ok [] :=
  ⟨⟨[[1, 2]], 2, 2⟩, ⟨[[]], 0, 0⟩, rfl, rfl, ⟨by simp, rfl, le_refl _, by simp⟩, rfl, rfl⟩

/-- **C17**: in the other cases (no empty block), and however the content is cut in blocks, copying the content out gives the content. -/
theorem C17_dump_to (m : MemFile) (hm : [] ∉ m.data) : m.dumpTo = .ok m.abs.data := by
  have key : ∀ c : Cells, [] ∉ c → memCopy c = .ok c.flatten := by
    intro c
    induction c with
    | nil => intro _; rfl
    | cons a c ih =>
      intro h
      rw [List.mem_cons, not_or] at h
      unfold memCopy
      rw [if_neg (fun e => h.1 e.symm), ih h.2]
      rfl
  exact key m.data hm

/-- a content in three blocks -/
example : ([] : Bytes) ∉ (⟨[[1, 2], [3], [4, 5]], 5, 0⟩ : MemFile).data ∧ (⟨[[1, 2], [3], [4, 5]], 5, 0⟩ : MemFile).dumpTo = .ok [1, 2, 3, 4, 5] :=
  ⟨by decide, rfl⟩

end Dar
