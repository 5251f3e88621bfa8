import Verif.Lemmas.Layers
import Verif.Props.BlockCipher
import Verif.Props.Terminateur
import Verif.Props.Headers
/- Lemmas for Props/Layers.lean: the writing side. -/
namespace Dar

section
attribute [local instance] escNormal

/-! ### The terminator -/

theorem putInt_length_small (p : Nat) (h : p < 2 ^ 64) : (putInt p).length ≤ 16 := by
  rw [putInt_eq]
  have hc := (Inf.ofNat_spec p).1
  have hv : beVal (Inf.ofNat p).field = p := (Inf.ofNat_spec p).2
  have hl : (Inf.ofNat p).field.length ≤ 8 := by
    by_contra hn
    have h0 : beVal (Inf.ofNat p).field ≠ 0 := by
      intro h0
      rcases hc with hc | ⟨b, t, hc, hb⟩
      · rw [hc] at hn; simp at hn
      · have := beVal_pos_of_head b t hb
        rw [← hc, h0] at this
        have h2 : 0 < 256 ^ t.length := Nat.pow_pos (by omega)
        omega
    have h1 := canon_of_pos_head hc h0
    rw [hv] at h1
    have : 256 ^ 8 ≤ 256 ^ ((Inf.ofNat p).field.length - 1) := Nat.pow_le_pow_right (by omega) (by omega)
    omega
  generalize (Inf.ofNat p).field = f at hl
  have key : ∀ n ≤ 8, (dumpPreamble n).length + n ≤ 16 := by decide
  rw [List.length_append]
  exact key _ hl

theorem termDump_length_small (p : Nat) (h : p < 2 ^ 64) : (termDump p).length < 2 ^ 31 := by
  have h1 := putInt_length_small p h
  unfold termDump termBlock
  simp only [List.length_append, List.length_replicate, List.length_cons, List.length_nil]
  have h2 : ((if (putInt p).length % 4 ≠ 0 then List.replicate (4 - (putInt p).length % 4 % 4) 0 else [] : Bytes)).length ≤ 4 := by
    split
    · rw [List.length_replicate]; omega
    · simp
  have h3 : (if (putInt p).length % 4 ≠ 0 then (putInt p).length / 4 + 1 else (putInt p).length / 4) ≤ 5 := by split <;> omega
  omega

/-- Not a byte of the pattern. -/
def NotPat (b : UInt8) : Prop := b ∉ escPattern

theorem dumpPreamble_head (n : Nat) : ∃ b t, dumpPreamble n = b :: t ∧ NotPat b := by
  unfold dumpPreamble
  dsimp only
  have hk : ∀ k ≤ 7, NotPat ((0x80 : UInt8) >>> (UInt8.ofNat k)) := by unfold NotPat; decide
  have h0 : NotPat 0 := by unfold NotPat; decide
  generalize n / TG + (if n % TG ≠ 0 then 1 else 0) = w
  generalize (if n % TG ≠ 0 then List.replicate (TG - n % TG) 0 else [] : Bytes) = j
  by_cases hp : w % 8 = 0
  · simp only [if_pos hp]
    cases w / 8 - 1 with
    | zero => exact ⟨_, _, rfl, hk 7 (by omega)⟩
    | succ k => exact ⟨0, _, rfl, h0⟩
  · simp only [if_neg hp]
    cases w / 8 with
    | zero => exact ⟨_, _, rfl, hk (w % 8 - 1) (by omega)⟩
    | succ k => exact ⟨0, _, rfl, h0⟩

theorem termDump_head (p : Nat) : ∃ b t, termDump p = b :: t ∧ NotPat b := by
  obtain ⟨b, t, e, hb⟩ := dumpPreamble_head (Inf.ofNat p).field.length
  unfold termDump
  dsimp only
  rw [putInt_eq, e]
  exact ⟨b, _, rfl, hb⟩

/-! ### The layer under the marks -/

/-- The layer under the marks has received `C`; `hb` is the header already written. -/
def BotInv (env : ArcEnv) (h : HdrBase) (hb : Bytes) (b : Bot) (C : Bytes) : Prop :=
  match b with
  | .plain f => h.sym = .none ∧ f = ⟨C, C.length⟩
  | .crypt t => h.sym ≠ .none ∧ ∃ t0 l, troNew env.cipher env.block hb.length none ⟨hb, hb.length⟩ = .ok t0 ∧ t0.writes l = .ok t ∧ l.flatten = C

theorem troWrites_snoc (l : List Bytes) (a : Bytes) : ∀ t0 t2 : Tro, t0.writes (l ++ [a]) = .ok t2 → ∀ t1, t0.writes l = .ok t1 → t1.write a = .ok t2 := by
  induction l with
  | nil =>
    intro t0 t2 h t1 h1
    cases h1
    simp only [List.nil_append, Tro.writes] at h
    cases hw : t0.write a with
    | error e => rw [hw] at h; cases h
    | ok t => rw [hw] at h; exact h
  | cons x l ih =>
    intro t0 t2 h t1 h1
    simp only [List.cons_append, Tro.writes] at h h1
    cases hw : t0.write x with
    | error e => rw [hw] at h; cases h
    | ok t => rw [hw] at h h1; exact ih t t2 h t1 h1

theorem BotInv.write {env : ArcEnv} {h : HdrBase} {hb : Bytes} (hblk : 0 < env.block) {b : Bot} {C : Bytes} (hi : BotInv env h hb b C) (a : Bytes) :
    ∃ b', b.write a = .ok b' ∧ BotInv env h hb b' (C ++ a) := by
  cases b with
  | plain f =>
    obtain ⟨h1, h2⟩ := hi
    subst h2
    refine ⟨.plain (Flat.write ⟨C, C.length⟩ a), rfl, h1, ?_⟩
    exact flat_write_end C a
  | crypt t =>
    obtain ⟨h1, t0, l, e1, e2, e3⟩ := hi
    obtain ⟨u0, u, d1, d2, _, _, _⟩ := C18_write env.cipher env.block hb.length hblk none hb (l ++ [a])
    rw [e1] at d1
    cases d1
    have := troWrites_snoc l a _ _ d2 _ e2
    refine ⟨.crypt u, by unfold Bot.write; simp only [this, Except.map], h1, t0, l ++ [a], e1, d2, by simp [e3]⟩

theorem BotInv.pos {env : ArcEnv} {h : HdrBase} {hb : Bytes} (hblk : 0 < env.block) {b : Bot} {C : Bytes} (hi : BotInv env h hb b C) : b.pos = C.length := by
  cases b with
  | plain f => rw [hi.2]; rfl
  | crypt t =>
    obtain ⟨h1, t0, l, e1, e2, e3⟩ := hi
    obtain ⟨u0, u, d1, d2, _, d3, _⟩ := C18_write env.cipher env.block hb.length hblk none hb l
    rw [e1] at d1
    cases d1
    rw [e2] at d2
    cases d2
    rw [← e3]; exact d3

/-! ### The marks -/

/-- Only data. -/
def OnlyWrites (B : List EscOp) : Prop := ∀ o ∈ B, ∃ a, o = .write a

/-- What is under the mark layer after some operations on it. -/
def lowEnc (marks : Bool) (eops : List EscOp) : Bytes := if marks then encOps eops else untilMark eops

/-- A list of operations cut after its last mark. -/
def CutMark (eops A B : List EscOp) : Prop := eops = A ++ B ∧ (A = [] ∨ ∃ A' t, A = A' ++ [.mark t]) ∧ OnlyWrites B

theorem untilMark_append (A B : List EscOp) (h : OnlyWrites A) : untilMark (A ++ B) = untilMark A ++ untilMark B := by
  induction A with
  | nil => rfl
  | cons o A ih =>
    obtain ⟨a, rfl⟩ := h o (by simp)
    simp only [List.cons_append, untilMark, ih (fun x hx => h x (by simp [hx])), List.append_assoc]

theorem opsMeaning_append (A B : List EscOp) (h : OnlyWrites A) : opsMeaning (A ++ B) = (untilMark A ++ (opsMeaning B).1, (opsMeaning B).2) := by
  induction A with
  | nil => rfl
  | cons o A ih =>
    obtain ⟨a, rfl⟩ := h o (by simp)
    simp only [List.cons_append, opsMeaning, untilMark, ih (fun x hx => h x (by simp [hx])), List.append_assoc]

theorem sinceMark_writes (B : List EscOp) (acc : Bytes) (h : OnlyWrites B) : sinceMark acc B = acc ++ untilMark B := by
  induction B generalizing acc with
  | nil => simp [sinceMark, untilMark]
  | cons o B ih =>
    obtain ⟨a, rfl⟩ := h o (by simp)
    simp only [sinceMark, untilMark, ih _ (fun x hx => h x (by simp [hx])), List.append_assoc]

theorem CutMark.since {eops A B : List EscOp} (h : CutMark eops A B) : sinceMark [] eops = untilMark B := by
  obtain ⟨rfl, hA | ⟨A', t, rfl⟩, hB⟩ := h
  · subst hA; simpa using sinceMark_writes B [] hB
  · rw [List.append_assoc, List.singleton_append, sinceMark_mark, sinceMark_writes B [] hB, List.nil_append]

theorem CutMark.enc {eops A B : List EscOp} (h : CutMark eops A B) (C : List EscOp) : encOps (eops ++ C) = encOps A ++ encOps (B ++ C) := by
  obtain ⟨rfl, hA | ⟨A', t, rfl⟩, hB⟩ := h
  · subst hA; simp [encOps, opsMeaning, encStream, encMarks, escData_nil]
  · rw [List.append_assoc, List.append_assoc, List.singleton_append, encOps_mark_append]

/-- The state of the stack under the compressor after the operations `eops`; `P` is the start of the data (header or padding). -/
structure LowInv (env : ArcEnv) (h : HdrBase) (hb P : Bytes) (s : Stk) (eops : List EscOp) : Prop where
  unmarked : s.esc = none → h.tapeMarks = false ∧ OnlyWrites eops ∧ BotInv env h hb s.bot (P ++ untilMark eops)
  marked : ∀ e, s.esc = some e → h.tapeMarks = true ∧ e.pend.length < 5 ∧ EscOp.sync ∉ eops ∧ EscOp.mark .notASequence ∉ eops ∧
    ∃ o A B, escRun ([], []) eops = .ok (o, e.pend) ∧ BotInv env h hb s.bot (P ++ o) ∧ e.below = P.length + o.length ∧ CutMark eops A B ∧
      o.length + e.pend.length = (encOps A).length + (untilMark B).length + e.cnt

theorem LowInv.write {env : ArcEnv} {h : HdrBase} {hb P : Bytes} {s : Stk} {eops : List EscOp} (hblk : 0 < env.block) (hi : LowInv env h hb P s eops) (a : Bytes) :
    ∃ s', s.below a = .ok s' ∧ LowInv env h hb P s' (eops ++ [.write a]) ∧ s'.comp = s.comp := by
  unfold Stk.below
  cases he : s.esc with
  | none =>
    obtain ⟨h1, h2, h3⟩ := hi.unmarked he
    obtain ⟨b', e1, h4⟩ := h3.write hblk a
    refine ⟨{ s with bot := b' }, by rw [e1]; simp [Except.map, he], ⟨fun _ => ⟨h1, ?_, ?_⟩, fun e hh => ?_⟩, rfl⟩
    · intro o ho
      rw [List.mem_append, List.mem_singleton] at ho
      exact ho.elim (h2 o) (fun h => ⟨a, h⟩)
    · rw [untilMark_append _ _ h2, ← List.append_assoc]
      simpa [untilMark] using h4
    · simp only [he] at hh; cases hh
  | some e =>
    obtain ⟨h1, h2, h3, h4, o, A, B, e1, h5, h6, h7, h8⟩ := hi.marked e he
    obtain ⟨o', p, e2, h9, _⟩ := escWrite_spec e.pend a h2
    obtain ⟨b', e3, h10⟩ := h5.write hblk o'
    refine ⟨{ s with bot := b', esc := some ⟨p, e.cnt + escCount e.pend a, e.below + o'.length⟩ }, by simp only [e2, e3, Except.map], ⟨fun hh => ?_, fun e' hh => ?_⟩, rfl⟩
    · cases hh
    · cases hh
      refine ⟨h1, h9, by simp [h3], by simp [h4], o ++ o', A, B ++ [.write a], ?_, by rwa [← List.append_assoc], ?_, ?_, ?_⟩
      · rw [escRun_app, e1]
        simp only [escRun, escStep, e2]
      · simp only [h6, List.length_append]; omega
      · obtain ⟨q1, q2, q3⟩ := h7
        refine ⟨by rw [q1, List.append_assoc], q2, ?_⟩
        intro x hx
        rw [List.mem_append, List.mem_singleton] at hx
        exact hx.elim (q3 x) (fun h => ⟨a, h⟩)
      · have := escCount_spec e.pend a o' p e2
        rw [untilMark_append _ _ h7.2.2]
        simp only [untilMark, List.append_nil, List.length_append]
        omega

/-- The position reported under the compressor. -/
theorem LowInv.pos {env : ArcEnv} {h : HdrBase} {hb P : Bytes} {s : Stk} {eops : List EscOp} (hblk : 0 < env.block) (hi : LowInv env h hb P s eops) :
    ∃ A B, CutMark eops A B ∧ (h.tapeMarks = false → A = []) ∧ s.belowPos = P.length + (lowEnc h.tapeMarks A).length + (untilMark B).length := by
  unfold Stk.belowPos
  cases he : s.esc with
  | none =>
    obtain ⟨h1, h2, h3⟩ := hi.unmarked he
    refine ⟨[], eops, ⟨rfl, Or.inl rfl, h2⟩, fun _ => rfl, ?_⟩
    rw [h3.pos hblk, h1]
    simp [lowEnc, untilMark]
  | some e =>
    obtain ⟨h1, h2, h3, h4, o, A, B, e1, h5, h6, h7, h8⟩ := hi.marked e he
    refine ⟨A, B, h7, (fun h => by rw [h1] at h; cases h), ?_⟩
    rw [h1]
    simp only [lowEnc, if_true]
    omega

/-- Adding a mark. -/
theorem LowInv.mark {env : ArcEnv} {h : HdrBase} {hb P : Bytes} {s : Stk} {eops : List EscOp} (hblk : 0 < env.block) (hi : LowInv env h hb P s eops)
    {e : EscW} (he : s.esc = some e) {t : SeqT} (ht : t ≠ .notASequence) :
    ∃ b', s.bot.write (e.pend ++ escSeq t) = .ok b' ∧
      ∀ s' : Stk, s'.bot = b' → s'.esc = some ⟨[], 0, e.below + (e.pend ++ escSeq t).length⟩ → LowInv env h hb P s' (eops ++ [.mark t]) := by
  obtain ⟨h1, h2, h3, h4, o, A, B, e1, h5, h6, h7, h8⟩ := hi.marked e he
  obtain ⟨b', e3, h10⟩ := h5.write hblk (e.pend ++ escSeq t)
  refine ⟨b', e3, fun s' hs1 hs2 => ⟨fun hh => ?_, fun e' hh => ?_⟩⟩
  · rw [hs2] at hh; cases hh
  · rw [hs2] at hh; cases hh
    have hrun : escRun ([], []) (eops ++ [.mark t]) = .ok (o ++ (e.pend ++ escSeq t), []) := by
      rw [escRun_app, e1]
      simp only [escRun, escStep, if_neg ht, List.append_assoc]
    have hns : EscOp.sync ∉ eops ++ [.mark t] := by simp [h3]
    have hnm : EscOp.mark .notASequence ∉ eops ++ [.mark t] := by
      simp only [List.mem_append, List.mem_singleton, not_or]
      exact ⟨h4, by rintro h; cases h; exact ht rfl⟩
    refine ⟨h1, by simp, hns, hnm, o ++ (e.pend ++ escSeq t), eops ++ [.mark t], [], hrun, ?_, ?_, ⟨by simp, Or.inr ⟨_, _, rfl⟩, fun x hx => by cases hx⟩, ?_⟩
    · rw [hs1, ← List.append_assoc P]; exact h10
    · simp only [h6, List.length_append]; omega
    · obtain ⟨o2, p2, q1, q2⟩ := escRun_spec _ hns hnm [] [] (by simp)
      rw [hrun] at q1
      cases q1
      simp only [List.nil_append, List.append_nil] at q2
      show _ = (encOps _).length + 0 + 0
      unfold encOps encStream
      rw [← q2]; simp

/-! ### The compressor -/

theorem BotInv.write_nil {env : ArcEnv} {h : HdrBase} {hb : Bytes} (hblk : 0 < env.block) {b : Bot} {C : Bytes} (hi : BotInv env h hb b C) : b.write [] = .ok b := by
  cases b with
  | plain f =>
    obtain ⟨h1, h2⟩ := hi
    subst h2
    unfold Bot.write
    simp only [flat_write_end, List.append_nil]
  | crypt t =>
    obtain ⟨b', e, _⟩ := hi.write hblk []
    unfold Bot.write at e ⊢
    simp only at e ⊢
    unfold Tro.write at e ⊢
    by_cases hw : t.weof = true
    · rw [if_pos hw] at e; cases e
    · rw [if_neg hw]
      unfold Tro.writeLoop
      simp [Except.map]

theorem LowInv.write_nil {env : ArcEnv} {h : HdrBase} {hb P : Bytes} {s : Stk} {eops : List EscOp} (hblk : 0 < env.block) (hi : LowInv env h hb P s eops) :
    s.below [] = .ok s := by
  unfold Stk.below
  cases he : s.esc with
  | none =>
    obtain ⟨h1, h2, h3⟩ := hi.unmarked he
    simp only [h3.write_nil hblk, Except.map]
    rw [← he]
  | some e =>
    obtain ⟨h1, h2, h3, h4, o, A, B, e1, h5, h6, h7, h8⟩ := hi.marked e he
    simp only [escWrite, if_true, h5.write_nil hblk, Except.map, escCount, List.length_nil, Nat.add_zero]
    rw [← he]

/-- The compressor has nothing to write. -/
def CompIdle (z : Option (Codec × Nat)) (c : Option BComp) : Prop :=
  match z, c with
  | none, none => True
  | some (cd, B), some b => b.codec = cd ∧ b.B = B ∧ b.ro = false ∧ b.needEof = false ∧ b.clear = [] ∧ b.file = ⟨[], 0⟩
  | _, _ => False

/-- The settings are correct. -/
def ZOk (z : Option (Codec × Nat)) : Prop := ∀ c B, z = some (c, B) → 100 ≤ B ∧ c.Lawful B

theorem LowInv.of_comp {env : ArcEnv} {h : HdrBase} {hb P : Bytes} {s s' : Stk} {eops : List EscOp} (hi : LowInv env h hb P s eops) (h1 : s'.bot = s.bot) (h2 : s'.esc = s.esc) :
    LowInv env h hb P s' eops := ⟨fun hh => by rw [h1]; exact hi.unmarked (by rw [← h2, hh]), fun e hh => by rw [h1]; exact hi.marked e (by rw [← h2, hh])⟩

theorem sync_idle {env : ArcEnv} {h : HdrBase} {hb P : Bytes} {s : Stk} {eops : List EscOp} {z : Option (Codec × Nat)} (hblk : 0 < env.block)
    (hi : LowInv env h hb P s eops) (hc : CompIdle z s.comp) : s.sync = .ok s := by
  unfold Stk.sync
  cases hs : s.comp with
  | none => rfl
  | some b =>
    rw [hs] at hc
    cases z with
    | none => exact hc.elim
    | some cb =>
      obtain ⟨c, B⟩ := cb
      obtain ⟨h1, h2, h3, h4, h5, h6⟩ := hc
      have hsy : b.syncWrite = .ok b := by
        unfold BComp.syncWrite BComp.flushBlock
        simp [h3, h4, h5]
      simp only [hsy, Stk.drain, h6, hi.write_nil hblk, Except.map]
      rw [← h6, ← hs]

theorem switch_idle {env : ArcEnv} {h : HdrBase} {hb P : Bytes} {s : Stk} {eops : List EscOp} {z : Option (Codec × Nat)} (hblk : 0 < env.block)
    (hi : LowInv env h hb P s eops) (hc : CompIdle z s.comp) (stored : Bool) :
    ∃ s', s.switch stored = .ok s' ∧ s'.bot = s.bot ∧ s'.esc = s.esc ∧ CompIdle z s'.comp ∧ ∀ b, s'.comp = some b → b.suspended = stored := by
  unfold Stk.switch
  cases hs : s.comp with
  | none =>
    refine ⟨s, rfl, rfl, rfl, by rw [hs] at hc ⊢; exact hc, fun b hb => by rw [hs] at hb; cases hb⟩
  | some b =>
    rw [hs] at hc
    cases z with
    | none => exact hc.elim
    | some cb =>
      obtain ⟨c, B⟩ := cb
      obtain ⟨h1, h2, h3, h4, h5, h6⟩ := hc
      cases stored with
      | false =>
        refine ⟨{ s with comp := some b.resume }, rfl, rfl, rfl, ⟨h1, h2, h3, h4, h5, h6⟩, ?_⟩
        rintro b' hb'
        cases hb'; rfl
      | true =>
        have hsy : b.syncWrite = .ok b := by
          unfold BComp.syncWrite BComp.flushBlock
          simp [h3, h4, h5]
        obtain ⟨b1, e1, k1, k2⟩ : ∃ b1, b.suspend = .ok b1 ∧ CompIdle (some (c, B)) (some b1) ∧ b1.suspended = true := by
          unfold BComp.suspend
          by_cases hsp : b.suspended = true
          · rw [if_pos hsp]; exact ⟨b, rfl, ⟨h1, h2, h3, h4, h5, h6⟩, hsp⟩
          · rw [if_neg hsp, hsy]
            simp only [BComp.flushRead, h3, Bool.false_eq_true, if_false]
            exact ⟨_, rfl, ⟨h1, h2, rfl, h4, h5, h6⟩, rfl⟩
        have k3 : b1.file = ⟨[], 0⟩ := k1.2.2.2.2.2
        simp only [if_true, e1, Stk.drain, k3, hi.write_nil hblk, Except.map]
        refine ⟨_, rfl, rfl, rfl, ?_, ?_⟩
        · obtain ⟨q1, q2, q3, q4, q5, q6⟩ := k1
          exact ⟨q1, q2, q3, q4, q5, rfl⟩
        · rintro b' hb'
          cases hb'; exact k2

theorem bcWrites_suspended (l : List Bytes) : ∀ (b : BComp) (d : Bytes), b.suspended = true → b.file = ⟨d, d.length⟩ →
    b.writes l = .ok { b with file := ⟨d ++ l.flatten, (d ++ l.flatten).length⟩ } := by
  induction l with
  | nil => intro b d hs hf; simp [BComp.writes, ← hf]
  | cons a l ih =>
    intro b d hs hf
    simp only [BComp.writes]
    unfold BComp.write
    simp only [if_pos hs, hf, flat_write_end]
    rw [ih { b with file := ⟨d ++ a, (d ++ a).length⟩ } (d ++ a) hs rfl]
    simp [List.append_assoc]

theorem item_idle {env : ArcEnv} {h : HdrBase} {hb P : Bytes} {s : Stk} {eops : List EscOp} {z : Option (Codec × Nat)} (hblk : 0 < env.block) (hz : ZOk z)
    (hi : LowInv env h hb P s eops) (hc : CompIdle z s.comp) (stored : Bool) (l : List Bytes) :
    ∃ s', s.item stored l = .ok (s', s.belowPos) ∧ LowInv env h hb P s' (eops ++ [.write (itemBytes z stored l.flatten)]) ∧ CompIdle z s'.comp := by
  unfold Stk.item
  rw [sync_idle hblk hi hc]
  obtain ⟨s1, e1, g1, g2, g3, g4⟩ := switch_idle hblk hi hc stored
  simp only [e1]
  have hi1 : LowInv env h hb P s1 eops := hi.of_comp g1 g2
  have hpos : s1.position = .ok s.belowPos := by
    have hb : s1.belowPos = s.belowPos := by unfold Stk.belowPos; rw [g1, g2]
    unfold Stk.position
    cases hs : s1.comp with
    | none => rw [hb]
    | some b =>
      rw [hs] at g3
      cases z with
      | none => exact g3.elim
      | some cb => obtain ⟨c, B⟩ := cb; simp only [if_pos g3.2.2.2.2.1, hb]
  simp only [hpos]
  cases hs : s1.comp with
  | none =>
    have hzn : z = none := by
      rw [hs] at g3
      cases z with
      | none => rfl
      | some cb => exact g3.elim
    subst hzn
    obtain ⟨s2, e2, g5, g6⟩ := hi1.write hblk l.flatten
    have hc2 : CompIdle none s2.comp := by rw [g6, hs]; trivial
    have hw : s1.writes l = .ok s2 := by unfold Stk.writes; simp only [hs]; exact e2
    simp only [hw, sync_idle hblk g5 hc2]
    exact ⟨s2, rfl, g5, hc2⟩
  | some b =>
    have hgs := g4 b hs
    rw [hs] at g3
    cases z with
    | none => exact g3.elim
    | some cb =>
      obtain ⟨c, B⟩ := cb
      obtain ⟨hB, hL⟩ := hz c B rfl
      obtain ⟨q1, q2, q3, q4, q5, q6⟩ := g3
      obtain ⟨b1, b2, w1, w2, w3⟩ : ∃ b1 b2, b.writes l = .ok b1 ∧ b1.syncWrite = .ok b2 ∧
          (b2.codec = c ∧ b2.B = B ∧ b2.ro = false ∧ b2.needEof = false ∧ b2.clear = [] ∧ b2.file.data = itemBytes (some (c, B)) stored l.flatten) := by
        cases stored with
        | true =>
          refine ⟨_, { b with file := ⟨l.flatten, l.flatten.length⟩ }, bcWrites_suspended l b [] hgs q6, ?_, q1, q2, q3, q4, q5, rfl⟩
          unfold BComp.syncWrite BComp.flushBlock
          simp [q3, q4, q5]
        | false =>
          obtain ⟨b2, w1, w2⟩ := bcItem_spec (pre := []) (b := b) (by omega) hL ⟨q1, q2, q3, hgs, q4, q5, q6⟩ l
          unfold BComp.item at w1
          have hp : b.position = .ok 0 := by unfold BComp.position; simp [q3, q5, q6]
          rw [hp] at w1
          simp only [] at w1
          cases hw : b.writes l with
          | error e => rw [hw] at w1; cases w1
          | ok b1 =>
            rw [hw] at w1
            simp only [] at w1
            cases hw2 : b1.syncWrite with
            | error e => rw [hw2] at w1; cases w1
            | ok b3 =>
              rw [hw2] at w1
              cases w1
              exact ⟨b1, b2, rfl, hw2, w2.codec, w2.bsize, w2.mode, w2.eof, w2.clear, by rw [w2.file]; rfl⟩
      have hw : s1.writes l = .ok { s1 with comp := some b1 } := by unfold Stk.writes; simp only [hs, w1, Except.map]
      have hi2 : LowInv env h hb P { s1 with comp := some b1 } eops := hi1.of_comp rfl rfl
      obtain ⟨s3, e3, g5, g6⟩ := hi2.write hblk (itemBytes (some (c, B)) stored l.flatten)
      have hsy : Stk.sync { s1 with comp := some b1 } = .ok { s3 with comp := some { b2 with file := ⟨[], 0⟩ } } := by
        unfold Stk.sync
        simp only [w2, Stk.drain, w3.2.2.2.2.2, e3, Except.map]
      simp only [hw, hsy]
      exact ⟨_, rfl, g5.of_comp rfl rfl, w3.1, w3.2.1, w3.2.2.1, w3.2.2.2.1, w3.2.2.2.2.1, rfl⟩

end
end Dar
