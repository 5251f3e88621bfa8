import Verif.Spec.Marks
import Verif.Lemmas.Escape3
/-
Properties C10 (the mark layer is transparent) and C11 (skipping to a mark).
-/
namespace Dar

section
variable [EscByte]

/-- The calls a reader makes. -/
inductive RdCall where
  | read (n : Nat)
  | skipTo (t : SeqT) (jump : Bool) (unjumpable : List SeqT)
  deriving DecidableEq, Repr

/-- The answers it gets. -/
inductive RdAns where
  | data (b : Bytes)
  | found (b : Bool)
  deriving DecidableEq, Repr

/-- A reading session on an escape object (model of the code). -/
def escSession : EscRd → List RdCall → Res (List RdAns)
  | _, [] => .ok []
  | st, .read n :: cs =>
      match escRead st n with
      | .error e => .error e
      | .ok (b, st') => match escSession st' cs with
          | .error e => .error e
          | .ok as => .ok (.data b :: as)
  | st, .skipTo t j u :: cs =>
      match escSkip t j u st with
      | .error e => .error e
      | .ok (b, st') => match escSession st' cs with
          | .error e => .error e
          | .ok as => .ok (.found b :: as)

/-- What a reading session must answer on a logical stream.  A read of `n` bytes delivers as much as
remains of the current data, up to `n`; it may deliver less only if `short` holds of what remains.  A
successful skip leads just after the mark; an unsuccessful one stops at the blocking mark (some of the data
before it may remain readable) or at the end. -/
inductive RdSpec (short : Bytes → List (SeqT × Bytes) → Prop) : MarkStream → List RdCall → List RdAns → Prop
  | done (s : MarkStream) : RdSpec short s [] []
  | read (d : Bytes) (ms : List (SeqT × Bytes)) (n m : Nat) (cs : List RdCall) (as : List RdAns) :
      (m = n ∨ (m < n ∧ short (d.drop m) ms)) →
      RdSpec short (d.drop m, ms) cs as → RdSpec short (d, ms) (.read n :: cs) (.data (d.take m) :: as)
  | skipFound (d : Bytes) (ms : List (SeqT × Bytes)) (t : SeqT) (j : Bool) (u : List SeqT) (s : MarkStream)
      (cs : List RdCall) (as : List RdAns) :
      skipSpec t j u d ms = (true, s) → RdSpec short s cs as →
      RdSpec short (d, ms) (.skipTo t j u :: cs) (.found true :: as)
  | skipMissed (d : Bytes) (ms : List (SeqT × Bytes)) (t : SeqT) (j : Bool) (u : List SeqT) (s : MarkStream)
      (x : Bytes) (cs : List RdCall) (as : List RdAns) :
      skipSpec t j u d ms = (false, s) → x <:+ s.1 → RdSpec short (x, s.2) cs as →
      RdSpec short (d, ms) (.skipTo t j u :: cs) (.found false :: as)

/-- No read is allowed to be short. -/
def neverShort : Bytes → List (SeqT × Bytes) → Prop := fun _ _ => False

/-- The calls a writer is allowed to make here: anything but a flush to the layer below in the middle of
the data and the explicit addition of the reserved mark type. -/
def PlainOps (ops : List EscOp) : Prop := EscOp.sync ∉ ops ∧ EscOp.mark .notASequence ∉ ops

theorem opsMeaning_real (ops : List EscOp) (h : PlainOps ops) : RealMarks (opsMeaning ops).2 := by
  induction ops with
  | nil => simp [opsMeaning, RealMarks]
  | cons op ops ih =>
      have h' : PlainOps ops :=
        ⟨fun hh => h.1 (List.mem_cons_of_mem _ hh), fun hh => h.2 (List.mem_cons_of_mem _ hh)⟩
      cases op with
      | write a => exact ih h'
      | sync => exact ih h'
      | mark t =>
          intro m hm
          simp only [opsMeaning] at hm
          rcases List.mem_cons.mp hm with hm | hm
          · subst hm
            intro ht; apply h.2; simp at ht; subst ht; exact List.mem_cons_self
          · exact ih h' m hm

theorem escSession_rep (cs : List RdCall) (st : EscRd) (d : Bytes) (ms : List (SeqT × Bytes))
    (h : Rep st d ms) : ∃ as, escSession st cs = .ok as ∧ RdSpec OnlyPartial (d, ms) cs as := by
  induction cs generalizing st d ms with
  | nil => exact ⟨[], rfl, .done _⟩
  | cons c cs ih =>
      cases c with
      | read n =>
          obtain ⟨st', m, e, r, hm, ho⟩ := escRead_spec st n d ms h
          obtain ⟨as, e', r'⟩ := ih st' _ _ r
          refine ⟨.data (d.take m) :: as, ?_, .read _ _ n m _ _ ?_ r'⟩
          · simp [escSession, e, e']
          · by_cases hn : m = n
            · exact Or.inl hn
            · right; exact ⟨by omega, by rcases ho with h | h <;> [exact absurd h hn; exact h]⟩
      | skipTo t j u =>
          obtain ⟨st', x, e, r, hx, hsuf⟩ := escSkip_spec t j u st d ms h
          obtain ⟨as, e', r'⟩ := ih st' _ _ r
          refine ⟨.found (skipSpec t j u d ms).1 :: as, ?_, ?_⟩
          · simp [escSession, e, e']
          · cases hb : (skipSpec t j u d ms).1 with
            | true =>
                refine .skipFound d ms t j u (skipSpec t j u d ms).2 _ _ ?_ ?_
                · rw [← hb]
                · have := hx hb
                  rw [this] at r'; exact r'
            | false =>
                refine .skipMissed d ms t j u (skipSpec t j u d ms).2 x _ _ ?_ hsuf r'
                rw [← hb]

theorem skipSpec_tail (t : SeqT) (j : Bool) (u : List SeqT) (d : Bytes) (ms : List (SeqT × Bytes))
    (ht : TailOk d ms) : TailOk (skipSpec t j u d ms).2.1 (skipSpec t j u d ms).2.2 := by
  induction ms generalizing d with
  | nil =>
      simp only [skipSpec]
      rintro ⟨k, h1, h2, h3⟩
      have := h3.length_le
      simp [escPattern] at this; omega
  | cons m ms ih =>
      obtain ⟨t', d'⟩ := m
      simp only [skipSpec]
      split
      · exact ht
      · split
        · exact ih d' ht
        · exact ht

/-- When the stream does not end with an incomplete pattern no read is short. -/
theorem rdSpec_exact (cs : List RdCall) (as : List RdAns) (d : Bytes) (ms : List (SeqT × Bytes))
    (ht : TailOk d ms) (h : RdSpec OnlyPartial (d, ms) cs as) : RdSpec neverShort (d, ms) cs as := by
  induction cs generalizing d ms as with
  | nil => cases h; exact .done _
  | cons c cs ih =>
      cases h with
      | read d ms n m cs as hm hr =>
          refine .read _ _ n m _ _ ?_ (ih _ _ _ ?_ hr)
          · rcases hm with h | ⟨_, h⟩
            · exact Or.inl h
            · exact absurd h (not_onlyPartial ht m)
          · exact tailOk_suffix (d1 := d.take m) (by rw [List.take_append_drop]; exact ht)
      | skipFound d ms t j u s cs as he hr =>
          refine .skipFound _ _ _ _ _ s _ _ he (ih _ s.1 s.2 ?_ hr)
          have := skipSpec_tail t j u d ms ht
          rw [he] at this; exact this
      | skipMissed d ms t j u s x cs as he hx hr =>
          refine .skipMissed _ _ _ _ _ s x _ _ he hx (ih _ x s.2 ?_ hr)
          have := skipSpec_tail t j u d ms ht
          rw [he] at this
          obtain ⟨y, hy⟩ := hx
          rw [← hy] at this
          exact tailOk_suffix this

/-- C10: the bytes produced by any sequence of writes and marks depend only on the data and the marks,
not on how the data was cut into writes; no call fails. -/
theorem C10_write_canonical (ops : List EscOp) (h : PlainOps ops) :
    escProduce ops = .ok (encStream (opsMeaning ops).1 (opsMeaning ops).2) :=
  escProduce_spec ops h.1 h.2

/-- C10 (and C11): whatever was written, cut in writes in any manner, whatever it contains, any session of
reads of any sizes and of skips gives the data written, in order, segment by segment.  A read may be short
before the end of a segment only when all that remains of the whole stream is an incomplete escape pattern
(see the counterexample below).
Partial: for the short reads, and because no flush may happen inside the data. -/
theorem C10_roundtrip_partial (ops : List EscOp) (h : PlainOps ops) :
    ∃ file, escProduce ops = .ok file ∧
      ∀ calls, ∃ answers, escSession (escOpen file) calls = .ok answers ∧
        RdSpec OnlyPartial (opsMeaning ops) calls answers :=
  ⟨_, C10_write_canonical ops h, fun calls =>
    escSession_rep calls _ _ _ (rep_open _ _ (opsMeaning_real ops h))⟩

/-- C10, with no short read, when the last data does not end with an incomplete pattern. -/
theorem C10_roundtrip_exact (ops : List EscOp) (h : PlainOps ops)
    (ht : TailOk (opsMeaning ops).1 (opsMeaning ops).2) :
    ∃ file, escProduce ops = .ok file ∧
      ∀ calls, ∃ answers, escSession (escOpen file) calls = .ok answers ∧
        RdSpec neverShort (opsMeaning ops) calls answers := by
  obtain ⟨file, e, hh⟩ := C10_roundtrip_partial ops h
  refine ⟨file, e, fun calls => ?_⟩
  obtain ⟨as, e', h'⟩ := hh calls
  exact ⟨as, e', rdSpec_exact _ _ _ _ ht h'⟩

/-- When the written data is followed by a mark the condition on the end of the data always holds. -/
theorem tailOk_of_mark (ops : List EscOp) (t : SeqT) :
    TailOk (opsMeaning (ops ++ [.mark t])).1 (opsMeaning (ops ++ [.mark t])).2 := by
  have aux : ∀ (ops : List EscOp), TailOk (opsMeaning (ops ++ [.mark t])).1 (opsMeaning (ops ++ [.mark t])).2 ∧
      (opsMeaning (ops ++ [.mark t])).2 ≠ [] := by
    intro ops
    induction ops with
    | nil =>
        refine ⟨?_, by simp [opsMeaning]⟩
        simp only [List.nil_append, opsMeaning, TailOk]
        rintro ⟨k, h1, h2, h3⟩
        have := h3.length_le
        simp [escPattern] at this; omega
    | cons op ops ih =>
        cases op with
        | write a =>
            refine ⟨?_, ih.2⟩
            simp only [List.cons_append, opsMeaning]
            cases hm : (opsMeaning (ops ++ [.mark t])).2 with
            | nil => exact absurd hm ih.2
            | cons m ms => have := ih.1; rw [hm] at this; exact this
        | sync => exact ih
        | mark t' => exact ⟨ih.1, by simp [opsMeaning]⟩
  exact (aux ops).1

/-- C10, the case of real archives, where the last thing written through the layer is a mark followed by
data that the layer above delimits: data cut anyhow, then a mark, is always read back exactly, up to the
mark, whatever the sizes of the reads. -/
theorem C10_data_then_mark (chunks : List Bytes) (t : SeqT) (ht : t ≠ .notASequence) :
    ∃ file, escProduce (chunks.map .write ++ [.mark t]) = .ok file ∧
      ∀ sizes : List Nat, ∃ answers,
        escSession (escOpen file) (sizes.map .read) = .ok answers ∧
        RdSpec neverShort (chunks.flatten, [(t, [])]) (sizes.map .read) answers := by
  have hm : opsMeaning (chunks.map .write ++ [.mark t]) = (chunks.flatten, [(t, [])]) := by
    induction chunks with
    | nil => rfl
    | cons a l ih => simp [opsMeaning, ih]
  have hp : PlainOps (chunks.map .write ++ [.mark t]) := by
    constructor
    · simp
    · simp; exact fun h => ht h.symm
  obtain ⟨file, e, h⟩ := C10_roundtrip_exact _ hp (tailOk_of_mark _ t)
  refine ⟨file, e, fun sizes => ?_⟩
  have := h (sizes.map .read)
  rw [hm] at this; exact this

/-- C11: skipping to a mark, whatever was read before. -/
theorem C11_skip_partial (ops : List EscOp) (h : PlainOps ops)
    (ht : TailOk (opsMeaning ops).1 (opsMeaning ops).2) (t : SeqT) (jump : Bool) (unj : List SeqT) (n : Nat) :
    ∃ file, escProduce ops = .ok file ∧
      ∃ st st' b, escRead (escOpen file) n = .ok ((opsMeaning ops).1.take n, st) ∧
        escSkip t jump unj st = .ok (b, st') ∧
        b = (skipSpec t jump unj ((opsMeaning ops).1.drop n) (opsMeaning ops).2).1 ∧
        (b = true → ∀ m, ∃ st'', escRead st' m =
          .ok ((skipSpec t jump unj ((opsMeaning ops).1.drop n) (opsMeaning ops).2).2.1.take m, st'')) := by
  refine ⟨_, C10_write_canonical ops h, ?_⟩
  obtain ⟨st, e, r⟩ := escRead_exact _ n _ _ (rep_open _ _ (opsMeaning_real ops h)) ht
  obtain ⟨st', x, e', r', hx, _⟩ := escSkip_spec t jump unj st _ _ r
  refine ⟨st, st', _, e, e', rfl, ?_⟩
  intro hb m
  have htail : TailOk x (skipSpec t jump unj ((opsMeaning ops).1.drop n) (opsMeaning ops).2).2.2 := by
    rw [hx hb]
    exact skipSpec_tail _ _ _ _ _ (tailOk_suffix (d1 := (opsMeaning ops).1.take n) (by rw [List.take_append_drop]; exact ht))
  obtain ⟨st'', e'', _⟩ := escRead_exact st' m _ _ r' htail
  exact ⟨st'', by rw [e'', hx hb]⟩

/-- C11: asking which mark comes next.  The answer, when there is one, is right; the only other outcome is
an internal error, and it needs data starting with the escape pattern at that place. -/
theorem C11_next_mark_partial (ops : List EscOp) (h : PlainOps ops)
    (ht : TailOk (opsMeaning ops).1 (opsMeaning ops).2) (n : Nat) :
    ∃ file, escProduce ops = .ok file ∧
      ∃ st, escRead (escOpen file) n = .ok ((opsMeaning ops).1.take n, st) ∧
        ((∃ st', escNextMark st = .ok
            (if (opsMeaning ops).1.drop n = [] then (opsMeaning ops).2.head?.map Prod.fst else none, st')) ∨
         (escNextMark st = .error .bug ∧ escPattern <+: (opsMeaning ops).1.drop n)) := by
  refine ⟨_, C10_write_canonical ops h, ?_⟩
  obtain ⟨st, e, r⟩ := escRead_exact _ n _ _ (rep_open _ _ (opsMeaning_real ops h)) ht
  refine ⟨st, e, ?_⟩
  rcases escNextMark_spec st _ _ r with ⟨st', q, _⟩ | q
  · exact Or.inl ⟨st', q⟩
  · exact Or.inr q

end

/-! Concrete cases, with the pattern used for archives. -/

section
attribute [local instance] escNormal

theorem escPattern_normal : escPattern = [0xAD, 0xFD, 0xEA, 0x77, 0x21] := rfl

/-- Writing a data that contains the pattern, cut in two in its middle, then a mark, then data: the
hypotheses of C10_roundtrip_exact hold. -/
example : PlainOps [.write [1, 0xAD, 0xFD], .write [0xEA, 0x77, 0x21, 0x46], .mark .file, .write [7]] ∧
    TailOk (opsMeaning [.write [1, 0xAD, 0xFD], .write [0xEA, 0x77, 0x21, 0x46], .mark .file, .write [7]]).1
      (opsMeaning [.write [1, 0xAD, 0xFD], .write [0xEA, 0x77, 0x21, 0x46], .mark .file, .write [7]]).2 := by
  refine ⟨by constructor <;> decide, ?_⟩
  simp only [opsMeaning, TailOk]
  rintro ⟨k, h1, h2, h3⟩
  have := h3.length_le
  simp [escPattern] at this
  have hk : k = 1 := by omega
  subst hk
  revert h3; decide

/-- C10 does not hold of the code at the very end of the file: when the data ends with an incomplete
pattern and is read by small amounts, a read answers "nothing left" while one byte remains (the next read
delivers it). -/
theorem C10_tail_counterexample :
    escProduce [.write [0xAD]] = .ok [0xAD] ∧
    escSession (escOpen [0xAD]) [.read 1, .read 1] = .ok [.data [], .data [0xAD]] := by
  constructor
  · rw [C10_write_canonical _ ⟨by decide, by decide⟩]; 
    simp [opsMeaning, encStream, encMarks, escData_short]
  · simp [escSession, escRead, escOpen, escReadF, escServe, escDirect, miniRead, removeMarks, trouveAmorce,
      trouveLoop, trouveEnd, escPattern_normal]

/-- C10 does not hold when the layer is asked to flush (sync_write) in the middle of a pattern: the two
halves are written unprotected, and reading fails or finds a mark that was never written. -/
theorem C10_sync_counterexample :
    escProduce [.write [0xAD, 0xFD], .sync, .write [0xEA, 0x77, 0x21, 0x46]] = .ok (escSeq .file) := by
  simp [escProduce, escRun, escStep, escWrite, escWriteLoop, trouveAmorce,
      trouveLoop, trouveEnd, escPattern_normal, escSeq, type2char]

/-- C11 does not hold of the code for next_to_read_is_which_mark: when the data to come starts with the
escape pattern and is not yet in the buffer, the question ends in an internal error. -/
theorem C11_next_mark_counterexample :
    escProduce [.write (escPattern ++ [1])] = .ok (escSeq .notASequence ++ [1]) ∧
    escNextMark (escOpen (escSeq .notASequence ++ [1])) = .error .bug := by
  constructor
  · rw [C10_write_canonical _ ⟨by decide, by decide⟩]
    simp [opsMeaning, encStream, encMarks, escData_pattern, escData_short]
  · simp [escNextMark, escOpen, miniRead, removeMarks, trouveAmorce, escSeq, type2char, char2type,
      trouveLoop, trouveEnd, escPattern_normal]

end

end Dar
