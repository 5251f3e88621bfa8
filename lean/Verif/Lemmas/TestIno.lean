import Verif.Spec.TestOp
import Verif.Lemmas.Difference
import Verif.Lemmas.DbFin
namespace Dar

theorem widthFor_pos (s : Nat) : 0 < widthFor s := by
  unfold widthFor
  split
  · omega
  · have : 0 < (s + (2 ^ 30 - 1)) / 2 ^ 30 := Nat.div_pos (by omega) (by omega)
    omega
theorem oneGiga : extendedSize [49, 71] 1024 = .ok (2 ^ 30) := by decide +kernel
theorem crcSizeFor_eq (s : Nat) : crcSizeFor s = .ok (widthFor s) := by
  unfold crcSizeFor widthFor
  rw [oneGiga]
  simp only [bind, Except.bind]
  by_cases h : s = 0
  · rw [if_neg (by simpa using h), if_pos h]
  · rw [if_pos h, if_neg (by norm_num), if_neg h]
    by_cases hr : s % 2 ^ 30 = 0
    · rw [if_neg (by simpa using hr)]
      have : (s + (2 ^ 30 - 1)) / 2 ^ 30 = s / 2 ^ 30 := by omega
      rw [this, Nat.mul_comm]
    · rw [if_pos hr]
      have : (s + (2 ^ 30 - 1)) / 2 ^ 30 = s / 2 ^ 30 + 1 := by omega
      rw [this, Nat.mul_comm]

theorem crcCreate_pos {w : Nat} (h : 0 < w) : crcCreate w = .ok ⟨crcImplFor w, ⟨List.replicate w 0, 0⟩⟩ := by
  unfold crcCreate; rw [if_neg (by omega)]
theorem startOk {w : Nat} (h : 0 < w) : (⟨crcImplFor w, ⟨List.replicate w 0, 0⟩⟩ : Crc).st.Ok := by
  simp [CrcSt.Ok, h]
theorem copyCrc_eq (addr : Nat) (d : Bytes) {w : Nat} (h : 0 < w) :
    genericCopyCrc genericBuffer addr d w = .ok ⟨crcImplFor w, d.foldl crcUpd ⟨List.replicate w 0, 0⟩⟩ := by
  unfold genericCopyCrc
  rw [crcCreate_pos h]
  simp only [bind, Except.bind]
  rw [copyLoop_spec genericBuffer addr (by decide) _ d _ (by omega) (startOk h)]

theorem unlessRange_iff (b : Bool) : unlessRange b = .ok () ↔ b = true := by cases b <;> simp [unlessRange]

/-- the checksum of a content is accepted -/
theorem sameCrc_left (d : Bytes) {w : Nat} (hw : 0 < w) (c : Crc) :
    sameCrc ⟨crcImplFor w, d.foldl crcUpd ⟨List.replicate w 0, 0⟩⟩ c = .ok () ↔ (c.Good ∧ c.st.cyc.length = w ∧ c.Fits d) := by
  have hcyc := crcFold_start w hw d
  have hlen := crcSpec_length w d
  unfold sameCrc Crc.eqv Crc.Good Crc.Fits
  simp only [hcyc, hlen]
  by_cases h1 : crcImplFor w = c.impl
  · rw [if_neg (by simpa using h1)]
    by_cases h2 : w = c.st.cyc.length
    · rw [if_neg (by simpa using h2)]
      show unlessRange _ = _ ↔ _
      rw [unlessRange_iff, tCompare_iff, ← h2]
      exact ⟨fun h => ⟨⟨hw, h1.symm⟩, rfl, h.symm⟩, fun h => h.2.2.symm⟩
    · rw [if_pos h2]
      show unlessRange false = _ ↔ _
      rw [unlessRange_iff]
      exact ⟨(fun h => by cases h), fun h => absurd h.2.1.symm h2⟩
  · rw [if_pos h1]
    exact ⟨(fun h => by cases h), fun ⟨h, h', _⟩ => absurd (by rw [h.2, h']) h1⟩
theorem sameCrc_right (d : Bytes) {w : Nat} (hw : 0 < w) (c : Crc) :
    sameCrc c ⟨crcImplFor w, d.foldl crcUpd ⟨List.replicate w 0, 0⟩⟩ = .ok () ↔ (c.Good ∧ c.st.cyc.length = w ∧ c.Fits d) := by
  have hcyc := crcFold_start w hw d
  have hlen := crcSpec_length w d
  unfold sameCrc Crc.eqv Crc.Good Crc.Fits
  simp only [hcyc, hlen]
  by_cases h1 : crcImplFor w = c.impl
  · rw [if_neg (by simpa using h1.symm)]
    by_cases h2 : w = c.st.cyc.length
    · rw [if_neg (by simpa using h2.symm)]
      show unlessRange _ = _ ↔ _
      rw [unlessRange_iff, tCompare_iff, ← h2]
      exact ⟨fun h => ⟨⟨hw, h1.symm⟩, rfl, h⟩, fun h => h.2.2⟩
    · rw [if_pos (fun h => h2 h.symm)]
      show unlessRange false = _ ↔ _
      rw [unlessRange_iff]
      exact ⟨(fun h => by cases h), fun h => absurd h.2.1.symm h2⟩
  · rw [if_pos (fun h => h1 h.symm)]
    exact ⟨(fun h => by cases h), fun ⟨h, h', _⟩ => absurd (by rw [h.2, h']) h1⟩

/-- one copy of the data -/
theorem testCopy_iff (o : TOpts) (size : Nat) (p : DataPiece) : testCopy o size p = .ok () ↔ p.Intact o.seq size := by
  unfold testCopy DataPiece.Intact
  cases hb : p.bytes with
  | error e =>
    constructor
    · intro h
      exfalso
      cases hw : dataWidth o size p with
      | error e => rw [hw] at h; cases h
      | ok w =>
        rw [hw] at h
        cases hc : p.crc with
        | error e => simp [hc, bind, Except.bind] at h
        | ok c => simp [hc, bind, Except.bind] at h
    · rintro ⟨d, r, h, _⟩; cases h
  | ok d =>
    cases hc : p.crc with
    | error e =>
      constructor
      · intro h
        exfalso
        cases hw : dataWidth o size p with
        | error e => rw [hw] at h; cases h
        | ok w =>
          rw [hw] at h
          simp only [bind, Except.bind, checkCrc, hc] at h
          cases hg : genericCopyCrc genericBuffer o.addr d w with
          | error e => rw [hg] at h; cases h
          | ok v => rw [hg] at h; cases h
      · rintro ⟨d, r, _, h, _⟩; cases h
    | ok r =>
      cases r with
      | none =>
        have hw : dataWidth o size p = .ok (widthFor size) := by
          unfold dataWidth; rw [hc, crcSizeFor_eq]; split <;> rfl
        rw [hw]
        simp only [bind, Except.bind, checkCrc, hc]
        rw [copyCrc_eq o.addr d (widthFor_pos size)]
        exact ⟨fun _ => ⟨d, none, rfl, rfl, fun c h => by cases h⟩, fun _ => rfl⟩
      | some c =>
        by_cases hs : o.seq = true
        · have hw : dataWidth o size p = .ok (widthFor size) := by
            unfold dataWidth; rw [if_pos hs, crcSizeFor_eq]
          rw [hw]
          simp only [bind, Except.bind, checkCrc, hc]
          rw [copyCrc_eq o.addr d (widthFor_pos size)]
          refine (sameCrc_left d (widthFor_pos size) c).trans ⟨fun h => ⟨d, some c, rfl, rfl, fun c' h' => ?_⟩, ?_⟩
          · injection h' with h'; subst h'; exact ⟨h.1, h.2.2, fun _ => h.2.1⟩
          · rintro ⟨d', r, h1, h2, h⟩
            injection h1 with h1; injection h2 with h2; subst h1; subst h2
            have := h c rfl
            exact ⟨this.1, this.2.2 hs, this.2.1⟩
        · have hw : dataWidth o size p = .ok c.st.cyc.length := by
            unfold dataWidth; rw [if_neg hs, hc]
          rw [hw]
          simp only [bind, Except.bind, checkCrc, hc]
          by_cases hz : 0 < c.st.cyc.length
          · rw [copyCrc_eq o.addr d hz]
            refine (sameCrc_left d hz c).trans ⟨fun h => ⟨d, some c, rfl, rfl, fun c' h' => ?_⟩, ?_⟩
            · injection h' with h'; subst h'; exact ⟨h.1, h.2.2, fun h => absurd h hs⟩
            · rintro ⟨d', r, h1, h2, h⟩
              injection h1 with h1; injection h2 with h2; subst h1; subst h2
              have := h c rfl
              exact ⟨this.1, rfl, this.2.1⟩
          · have h0 : c.st.cyc.length = 0 := by omega
            constructor
            · intro h
              exfalso
              simp [genericCopyCrc, crcCreate, h0, bind, Except.bind] at h
            · rintro ⟨d', r, h1, h2, h⟩
              injection h2 with h2; subst h2
              exact absurd (h c rfl).1.1 hz

theorem testCopies_iff (o : TOpts) (size : Nat) (l : List DataPiece) : testCopies o size l = .ok () ↔ ∀ p ∈ l, p.Intact o.seq size := by
  induction l with
  | nil => simp [testCopies]
  | cons p l ih =>
    rw [List.forall_mem_cons, ← ih, ← testCopy_iff o]
    rw [testCopies]
    cases h : testCopy o size p with
    | error e => simp [bind, Except.bind]
    | ok u => cases u; simp [bind, Except.bind]

theorem testData_iff (o : TOpts) (h : o.dryRun = false) (i : TIno) :
    testData o i = .ok () ↔ ∀ l, i.data = some l → l ≠ [] ∧ ∀ p ∈ l, p.Intact o.seq i.size := by
  unfold testData
  cases i.data with
  | none => simp
  | some l =>
    simp only [h, Bool.false_eq_true, if_false, Option.some.injEq, forall_eq']
    cases l with
    | nil => simp
    | cons p l => simp only [ne_eq, reduceCtorEq, not_false_eq_true, true_and]; exact testCopies_iff o i.size _

theorem attrCrc_iff (d : Bytes) {w : Nat} (hw : 0 < w) (c : Crc) :
    attrCrcOk ⟨crcImplFor w, d.foldl crcUpd ⟨List.replicate w 0, 0⟩⟩ c = .ok () ↔ (c.Good ∧ c.st.cyc.length = w ∧ c.Fits d) := by
  unfold attrCrcOk
  by_cases h : crcImplFor w = c.impl
  · rw [if_neg (by simpa using h)]; exact sameCrc_left d hw c
  · rw [if_pos h]
    exact ⟨(fun h => by cases h), fun ⟨h1, h2, _⟩ => absurd (by rw [h1.2, h2]) h⟩

theorem readAttr_iff (addr : Nat) {w : Nat} (hw : 0 < w) (a : AttrPiece) : (readAttr addr (.ok w) a).1 = .ok () ↔ a.Intact w := by
  unfold readAttr AttrPiece.Intact
  cases hs : a.seek with
  | error e => exact ⟨(fun h => by cases h), (fun h => by cases h.1)⟩
  | ok u =>
    cases u
    simp only [crcCreate_pos hw]
    cases hb : a.bytes with
    | error e => exact ⟨(fun h => by cases h), (fun ⟨_, d, c, h, _⟩ => by cases h)⟩
    | ok d =>
      simp only [Crc.compute_eq _ (startOk hw) addr d]
      cases hc : a.crc with
      | error e => exact ⟨(fun h => by cases h), (fun ⟨_, d, c, _, h, _⟩ => by cases h)⟩
      | ok c =>
        refine (attrCrc_iff d hw c).trans ⟨fun h => ⟨trivial, d, c, rfl, rfl, h⟩, ?_⟩
        rintro ⟨_, d', c', h1, h2, h⟩
        injection h1 with h1; injection h2 with h2; subst h1; subst h2
        exact h

/-- nothing is held in memory -/
def TMem.Clean (m : TMem) : Prop := m.eaIn = [] ∧ m.fsaIn = [] ∧ m.sigGone = []
theorem holds_nil (k : Option Nat) : holds k [] = false := by cases k <;> rfl

theorem eaWidth_eq (s : Nat) : eaWidth s = .ok (if s = 0 then 2 else widthFor s) := by
  unfold eaWidth OLD_CRC_SIZE; split <;> [rfl; exact crcSizeFor_eq s]

theorem testEa_spec (o : TOpts) (h : o.dryRun = false) (k : Option Nat) (i : TIno) (m : TMem) (hm : m.Clean) :
    ((testEa o k i m).1 = .ok () ↔ ∀ a, i.ea = some a → a.Intact (if a.size = 0 then 2 else widthFor a.size)) ∧ ((testEa o k i m).1 = .ok () → (testEa o k i m).2 = m) := by
  unfold testEa
  cases i.ea with
  | none => simp
  | some a =>
    have hw : 0 < (if a.size = 0 then 2 else widthFor a.size) := by split <;> [omega; exact widthFor_pos _]
    have := readAttr_iff o.addr hw a
    simp only [h, Bool.false_eq_true, if_false, Option.some.injEq, forall_eq', hm.1, holds_nil, eaWidth_eq]
    rw [← this]
    cases hr : readAttr o.addr (.ok (if a.size = 0 then 2 else widthFor a.size)) a with
    | mk r b => cases r with
      | error e => simp
      | ok u => cases u; simp
theorem testFsa_spec (o : TOpts) (h : o.dryRun = false) (k : Option Nat) (i : TIno) (m : TMem) (hm : m.Clean) :
    ((testFsa o k i m).1 = .ok () ↔ ∀ a, i.fsa = some a → a.Intact (widthFor a.size)) ∧ ((testFsa o k i m).1 = .ok () → (testFsa o k i m).2 = m) := by
  unfold testFsa
  cases i.fsa with
  | none => simp
  | some a =>
    have := readAttr_iff o.addr (widthFor_pos a.size) a
    simp only [h, Bool.false_eq_true, if_false, Option.some.injEq, forall_eq', hm.2.1, holds_nil, crcSizeFor_eq]
    rw [← this]
    cases hr : readAttr o.addr (.ok (widthFor a.size)) a with
    | mk r b => cases r with
      | error e => simp
      | ok u => cases u; simp
theorem fetchSig_iff (o : TOpts) (s : SigPiece) :
    fetchSig o s = .ok () ↔ ∃ d c, s.bytes = .ok d ∧ s.crc = .ok c ∧ c.Good ∧ c.st.cyc.length = widthFor s.size ∧ c.Fits d := by
  unfold fetchSig
  cases hb : s.bytes with
  | error e => exact ⟨(fun h => by cases h), (fun ⟨d, c, h, _⟩ => by cases h)⟩
  | ok d =>
    simp only [bind, Except.bind, crcSizeFor_eq, copyCrc_eq o.addr d (widthFor_pos s.size)]
    cases hc : s.crc with
    | error e => exact ⟨(fun h => by cases h), (fun ⟨d, c, _, h, _⟩ => by cases h)⟩
    | ok c =>
      refine (sameCrc_right d (widthFor_pos s.size) c).trans ⟨fun h => ⟨d, c, rfl, rfl, h⟩, ?_⟩
      rintro ⟨d', c', h1, h2, h⟩
      injection h1 with h1; injection h2 with h2; subst h1; subst h2
      exact h
theorem testSig_spec (o : TOpts) (k : Option Nat) (i : TIno) (m : TMem) (hm : m.Clean) :
    ((testSig o k i m).1 = .ok () ↔ ∀ s, i.sig = some s → s.Intact) ∧ ((testSig o k i m).1 = .ok () → (testSig o k i m).2 = m) := by
  unfold testSig
  cases i.sig with
  | none => simp
  | some s =>
    simp only [hm.2.2, holds_nil, Bool.false_eq_true, if_false, Option.some.injEq, forall_eq']
    unfold SigPiece.Intact
    rw [← fetchSig_iff o]
    cases hs : s.head with
    | error e => simp
    | ok u =>
      cases u
      cases hh : s.here <;> simp

theorem testIno_spec (o : TOpts) (h : o.dryRun = false) (k : Option Nat) (i : TIno) (m : TMem) (hm : m.Clean) :
    ((testIno o k i m).1 = .ok () ↔ i.Intact o.seq) ∧ ((testIno o k i m).1 = .ok () → (testIno o k i m).2 = m) := by
  have h1 := testData_iff o h i
  have h2 := testSig_spec o k i m hm
  have h3 := testEa_spec o h k i m hm
  have h4 := testFsa_spec o h k i m hm
  unfold testIno
  cases hd : testData o i with
  | error e =>
    rw [hd] at h1
    exact ⟨⟨(fun h => by cases h), (fun h => by have := h1.2 h.data; cases this)⟩, (fun h => by cases h)⟩
  | ok u =>
    cases u
    have d1 := h1.1 hd
    cases hs : testSig o k i m with
    | mk r m' =>
      rw [hs] at h2
      cases r with
      | error e => exact ⟨⟨(fun h => by cases h), (fun h => by have := h2.1.2 h.sig; cases this)⟩, (fun h => by cases h)⟩
      | ok u =>
        cases u
        have e1 : m' = m := h2.2 rfl
        subst e1
        have d2 := h2.1.1 rfl
        show _ ∧ _
        simp only
        cases he : testEa o k i m' with
        | mk r m'' =>
          rw [he] at h3
          cases r with
          | error e => exact ⟨⟨(fun h => by cases h), (fun h => by have := h3.1.2 h.ea; cases this)⟩, (fun h => by cases h)⟩
          | ok u =>
            cases u
            have e2 : m'' = m' := h3.2 rfl
            subst e2
            have d3 := h3.1.1 rfl
            exact ⟨h4.1.trans ⟨fun h => ⟨d1, d2, d3, h⟩, fun h => h.fsa⟩, h4.2⟩

end Dar
