import Verif.Model.Sar
import Verif.Spec.Slices
import Mathlib.Tactic.Ring
import Mathlib.Data.List.Induction
namespace Dar

/-- Payload capacity of slice `num`. -/
def SarCfg.cap (c : SarCfg) (num : Nat) : Nat := c.size num - c.hlen num - c.delta

/-- A configuration the program accepts and that leaves room for data: headers have the recorded sizes, carry the
flag (old format), and each slice but possibly the first has room for one byte. -/
structure SarCfg.Ok (c : SarCfg) : Prop where
  hlen1 : ∀ f, (c.hdr1 f).length = c.lay.firstHdr
  hlenN : ∀ f, (c.hdrN f).length = c.lay.otherHdr
  pos1 : 0 < c.lay.firstHdr
  posN : 0 < c.lay.otherHdr
  fit1 : c.lay.firstHdr + c.delta ≤ c.lay.firstSize
  fitN : c.lay.otherHdr + c.delta < c.lay.otherSize
  flag1 : c.lay.old = true → ∀ f, (c.hdr1 f)[14]? = some f
  flagN : c.lay.old = true → ∀ f, (c.hdrN f)[14]? = some f

theorem SarCfg.Ok.hdr_len {c : SarCfg} (h : c.Ok) (num : Nat) (f : UInt8) : (c.hdr num f).length = c.hlen num := by
  unfold SarCfg.hdr SarCfg.hlen; split
  · exact h.hlen1 f
  · exact h.hlenN f

theorem SarCfg.Ok.fit {c : SarCfg} (h : c.Ok) (num : Nat) : c.hlen num + c.delta ≤ c.size num := by
  unfold SarCfg.size SarCfg.hlen; split
  · exact h.fit1
  · exact Nat.le_of_lt h.fitN

theorem SarCfg.Ok.cap_add {c : SarCfg} (h : c.Ok) (num : Nat) : c.hlen num + c.cap num + c.delta = c.size num := by
  have := h.fit num; unfold SarCfg.cap; omega

theorem SarCfg.Ok.capN {c : SarCfg} (h : c.Ok) (num : Nat) (hn : num ≠ 1) : 0 < c.cap num := by
  have := h.fitN; unfold SarCfg.cap SarCfg.size SarCfg.hlen; rw [if_neg hn, if_neg hn]; omega

/-- Content of slice file number `num` holding payload `p`. -/
def sarFile (c : SarCfg) (num : Nat) (p : Bytes) (terminal : Bool) : Bytes :=
  let flag := if terminal then flagTerminal else flagNonTerminal
  if c.lay.old then c.hdr num flag ++ p else c.hdr num flagAtEnd ++ p ++ [flag]

/-- The slice files of an archive, starting at slice `num`, from their payloads. -/
def sarFilesFrom (c : SarCfg) : Nat → List Bytes → List Bytes
  | _, [] => []
  | num, [p] => [sarFile c num p true]
  | num, p :: ps => sarFile c num p false :: sarFilesFrom c (num + 1) ps

/-- Non-terminal slices. -/
def sarDone (c : SarCfg) : Nat → List Bytes → List Bytes
  | _, [] => []
  | num, p :: ps => sarFile c num p false :: sarDone c (num + 1) ps

theorem sarDone_length (c : SarCfg) (num : Nat) (ps : List Bytes) : (sarDone c num ps).length = ps.length := by
  induction ps generalizing num with
  | nil => rfl
  | cons p ps ih => simp [sarDone, ih]

theorem sarDone_snoc (c : SarCfg) (num : Nat) (ps : List Bytes) (q : Bytes) :
    sarDone c num (ps ++ [q]) = sarDone c num ps ++ [sarFile c (num + ps.length) q false] := by
  induction ps generalizing num with
  | nil => simp [sarDone]
  | cons p ps ih => simp [sarDone, ih]; congr 1; omega

theorem sarFilesFrom_snoc (c : SarCfg) (num : Nat) (ps : List Bytes) (q : Bytes) :
    sarFilesFrom c num (ps ++ [q]) = sarDone c num ps ++ [sarFile c (num + ps.length) q true] := by
  induction ps generalizing num with
  | nil => simp [sarFilesFrom, sarDone]
  | cons p ps ih =>
    have : ps ++ [q] ≠ [] := by simp
    rw [List.cons_append]
    obtain ⟨x, xs, hx⟩ := List.exists_cons_of_ne_nil this
    rw [hx, sarFilesFrom]
    · rw [← hx, ih]; simp [sarDone]; congr 1; omega
    · simp

/-- closing a slice -/
theorem sarClose_spec {c : SarCfg} (h : c.Ok) (num : Nat) (q : Bytes) (terminal : Bool)
    (hq : q.length ≤ c.cap num) (ht : terminal = false → q.length = c.cap num) :
    sarClose c num (c.hdr num flagAtEnd ++ q) terminal = .ok (sarFile c num q terminal) := by
  have hc := h.cap_add num
  have hl := h.hdr_len num
  unfold sarClose sarFile
  by_cases ho : c.lay.old = true
  · simp only [ho, if_true]
    rw [hl, show c.hlen num = (c.hdr num flagAtEnd).length from (hl _).symm, List.drop_left]
  · have hd : c.delta = 1 := by unfold SarCfg.delta; rw [if_neg ho]
    simp only [if_neg ho, isub]
    rw [if_pos (by omega)]
    simp only [Bind.bind, Except.bind]
    cases terminal with
    | true =>
      simp only [if_true, List.append_nil]
      rw [if_neg (by simp [hl]; omega)]
    | false =>
      have := ht rfl
      simp only [Bool.false_eq_true, if_false]
      have hL : (c.hdr num flagAtEnd ++ q).length = c.size num - 1 := by simp [hl]; omega
      have hT : (c.hdr num flagAtEnd ++ q).take (c.size num - 1) = c.hdr num flagAtEnd ++ q :=
        List.take_of_length_le (le_of_eq hL)
      have hD : (c.hdr num flagAtEnd ++ q).drop (c.size num - 1 + 1) = [] :=
        List.drop_of_length_le (by omega)
      simp only [hL, le_refl, if_true, hT, hD, List.append_nil]
      rw [if_neg (lt_irrefl _)]

/-- Payload lists as the writer makes them: every piece but the last fills its slice, the last one fits in it. -/
def Filled (c : SarCfg) : Nat → List Bytes → Prop
  | _, [] => True
  | num, p :: ps => p.length = c.cap num ∧ Filled c (num + 1) ps

theorem Filled_snoc (c : SarCfg) (num : Nat) (ps : List Bytes) (q : Bytes) :
    Filled c num (ps ++ [q]) ↔ Filled c num ps ∧ q.length = c.cap (num + ps.length) := by
  induction ps generalizing num with
  | nil => simp [Filled]
  | cons p ps ih =>
    simp only [List.cons_append, Filled, ih, List.length_cons]
    rw [show num + 1 + ps.length = num + (ps.length + 1) by omega]; tauto

/-- Invariant of the writer: payloads `ps` in closed slices, `q` in the open one. -/
structure WRep (c : SarCfg) (w : SarW) (ps : List Bytes) (q : Bytes) : Prop where
  done : w.done = sarDone c 1 ps
  cur : w.cur = c.hdr (ps.length + 1) flagAtEnd ++ q
  fill : Filled c 1 ps
  room : q.length ≤ c.cap (ps.length + 1)
  ne : ps ≠ [] → q ≠ []

theorem sarWrite_spec {c : SarCfg} (h : c.Ok) (fuel : Nat) (w : SarW) (ps : List Bytes) (q a : Bytes)
    (hf : w.done = sarDone c 1 ps ∧ w.cur = c.hdr (ps.length + 1) flagAtEnd ++ q ∧ Filled c 1 ps ∧
      q.length ≤ c.cap (ps.length + 1))
    (hne : ps ≠ [] → q = [] → a ≠ [])
    (hfu : a ≠ [] → 2 * a.length + (if q = [] ∧ ps ≠ [] then 0 else 1) ≤ fuel) :
    ∃ w' ps' q', sarWrite c fuel w a = .ok w' ∧ WRep c w' ps' q' ∧ ps'.flatten ++ q' = ps.flatten ++ q ++ a := by
  induction fuel generalizing w ps q a with
  | zero =>
    cases a with
    | nil => exact ⟨w, ps, q, by cases w; rfl, ⟨hf.1, hf.2.1, hf.2.2.1, hf.2.2.2, fun h1 h2 => hne h1 h2 rfl⟩, by simp⟩
    | cons x a => have := hfu (by simp); simp at this
  | succ fuel ih =>
    cases a with
    | nil => exact ⟨w, ps, q, by cases w; rfl, ⟨hf.1, hf.2.1, hf.2.2.1, hf.2.2.2, fun h1 h2 => hne h1 h2 rfl⟩, by simp⟩
    | cons x a' =>
      obtain ⟨h1, h2, h3, h4⟩ := hf
      set a := x :: a' with ha
      have hane : a ≠ [] := by simp [ha]
      have hal : 1 ≤ a.length := by simp [ha]
      have hnum : w.num = ps.length + 1 := by unfold SarW.num; rw [h1, sarDone_length]
      have hcap := h.cap_add (ps.length + 1)
      have hl := h.hdr_len (ps.length + 1)
      have hcl : w.cur.length = c.hlen (ps.length + 1) + q.length := by rw [h2]; simp [hl]
      have hr1 : isub (c.size w.num) w.cur.length = .ok (c.size w.num - w.cur.length) := by
        unfold isub; rw [if_pos (by rw [hnum, hcl]; omega)]
      have hr2 : isub (c.size w.num - w.cur.length) c.delta = .ok (c.cap (ps.length + 1) - q.length) := by
        unfold isub; rw [if_pos (by rw [hnum, hcl]; omega)]; congr 1; rw [hnum, hcl]; omega
      have step : sarWrite c (fuel + 1) w a = (if min (c.cap (ps.length + 1) - q.length) a.length > 0 then
            sarWrite c fuel { w with cur := w.cur ++ a.take (min (c.cap (ps.length + 1) - q.length) a.length) }
              (a.drop (min (c.cap (ps.length + 1) - q.length) a.length))
          else (sarClose c w.num w.cur false >>= fun closed => sarWrite c fuel (sarOpenW c (w.done ++ [closed])) a)) := by
        rw [ha, sarWrite, hr1]
        simp only [Bind.bind, Except.bind, hr2]
      rw [step]
      have hfu' := hfu hane
      by_cases hn : min (c.cap (ps.length + 1) - q.length) a.length > 0
      · rw [if_pos hn]
        set n := min (c.cap (ps.length + 1) - q.length) a.length with hn'
        have hnle : n ≤ a.length := by omega
        obtain ⟨w', ps', q', e, rep, eq⟩ := ih { w with cur := w.cur ++ a.take n } ps (q ++ a.take n) (a.drop n)
          ⟨h1, by simp [h2], h3, by simp; omega⟩
          (by intro _ hq; exfalso
              have : (a.take n).length = 0 := by rw [List.append_eq_nil_iff] at hq; simp [hq.2]
              simp at this; omega)
          (by intro _
              rw [List.length_drop]
              have : ¬ (q ++ a.take n = [] ∧ ps ≠ []) := by
                rintro ⟨hq, _⟩
                have : (a.take n).length = 0 := by rw [List.append_eq_nil_iff] at hq; simp [hq.2]
                simp at this; omega
              rw [if_neg this]
              split at hfu' <;> omega)
        refine ⟨w', ps', q', e, rep, ?_⟩
        rw [eq]; simp [List.append_assoc]
      · rw [if_neg hn]
        have hq : q.length = c.cap (ps.length + 1) := by omega
        have hcl' := sarClose_spec h (ps.length + 1) q false h4 (fun _ => hq)
        rw [hnum, h2, hcl']
        have hqp : ¬ (q = [] ∧ ps ≠ []) := by
          rintro ⟨hq0, hps⟩
          have : 0 < c.cap (ps.length + 1) := h.capN _ (by
            have := List.length_pos_iff.mpr hps; omega)
          rw [hq0] at hq; simp at hq; omega
        rw [if_neg hqp] at hfu'
        simp only [Bind.bind, Except.bind]
        have hopen : sarOpenW c (w.done ++ [sarFile c (ps.length + 1) q false]) =
            ⟨sarDone c 1 (ps ++ [q]), c.hdr ((ps ++ [q]).length + 1) flagAtEnd ++ []⟩ := by
          unfold sarOpenW
          rw [h1, sarDone_snoc]
          simp [sarDone_length, Nat.add_comm]
        rw [hopen]
        obtain ⟨w', ps', q', e, rep, eq⟩ := ih ⟨sarDone c 1 (ps ++ [q]), c.hdr ((ps ++ [q]).length + 1) flagAtEnd ++ []⟩
          (ps ++ [q]) [] a ⟨rfl, rfl, (Filled_snoc c 1 ps q).mpr ⟨h3, by rw [hq]; congr 1; omega⟩, by simp⟩
          (fun _ _ => hane)
          (by intro _; rw [if_pos ⟨rfl, by simp⟩]; omega)
        exact ⟨w', ps', q', e, rep, by rw [eq]; simp⟩

/-- what a sequence of writes produces -/
theorem sarProduce_spec {c : SarCfg} (h : c.Ok) (writes : List Bytes) :
    ∃ ps q, sarProduce c writes = .ok (sarFilesFrom c 1 (ps ++ [q])) ∧ Filled c 1 ps ∧ q.length ≤ c.cap (ps.length + 1) ∧
      (ps ≠ [] → q ≠ []) ∧ (ps ++ [q]).flatten = writes.flatten := by
  have key : ∀ (writes : List Bytes) (w : SarW) (ps : List Bytes) (q : Bytes), WRep c w ps q →
      ∃ w' ps' q', writes.foldlM (fun w a => sarWrite c (2 * a.length + 1) w a) w = .ok w' ∧ WRep c w' ps' q' ∧
        ps'.flatten ++ q' = ps.flatten ++ q ++ writes.flatten := by
    intro writes
    induction writes with
    | nil => intro w ps q hw; exact ⟨w, ps, q, rfl, hw, by simp⟩
    | cons a writes ih =>
      intro w ps q hw
      obtain ⟨w1, ps1, q1, e1, r1, f1⟩ := sarWrite_spec h (2 * a.length + 1) w ps q a
        ⟨hw.done, hw.cur, hw.fill, hw.room⟩ (fun h1 h2 => absurd h2 (hw.ne h1))
        (by intro _; split <;> omega)
      obtain ⟨w2, ps2, q2, e2, r2, f2⟩ := ih w1 ps1 q1 r1
      refine ⟨w2, ps2, q2, ?_, r2, ?_⟩
      · rw [List.foldlM_cons, e1]; exact e2
      · rw [f2, f1]; simp
  obtain ⟨w, ps, q, e, r, f⟩ := key writes (sarOpenW c []) [] [] ⟨rfl, by simp [sarOpenW], trivial, by simp, by simp⟩
  refine ⟨ps, q, ?_, r.fill, r.room, r.ne, by simpa using f⟩
  unfold sarProduce
  rw [e]
  have hnum : w.num = ps.length + 1 := by unfold SarW.num; rw [r.done, sarDone_length]
  simp only [Bind.bind, Except.bind]
  rw [hnum, r.cur, sarClose_spec h _ q true r.room (by simp)]
  simp only
  rw [sarFilesFrom_snoc, r.done, Nat.add_comm]

end Dar
