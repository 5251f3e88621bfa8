import Verif.Spec.StreamComp
import Verif.Lemmas.Flat
import Mathlib.Data.List.Forall2
/- Lemmas for the streamed compression (C72). -/
namespace Dar

theorem flat_write_tail (d b : Bytes) : Flat.write ⟨d, d.length⟩ b = ⟨d ++ b, (d ++ b).length⟩ := by
  unfold Flat.write patch
  by_cases h : b = []
  · subst h; simp
  · rw [if_neg h]; simp

/-! ### writing with compressor -/

/-- `E` with a chosen reading of its states -/
structure EncRep (E : ZEnc) (code : Bytes → Bytes → Prop) (rep : E.St → Bytes → Bytes → Bool → Prop) (lag : E.St → Nat) : Prop where
  init : rep E.init [] [] false
  hint : ∀ st i o f, rep st i o f → 0 < E.hint st
  feed : ∀ st i o a room, rep st i o false → a ≠ [] → 0 < room → ∀ st' k out ret, E.step st a room false = (st', k, out, ret) →
      k ≤ a.length ∧ out.length ≤ room ∧ ret = .ok ∧ rep st' (i ++ a.take k) (o ++ out) false ∧ (k = 0 → lag st' < lag st)
  fin : ∀ st i o f room, rep st i o f → 0 < room → ∀ st' k out ret, E.step st [] room true = (st', k, out, ret) →
      out.length ≤ room ∧ ((ret = .streamEnd ∧ code i (o ++ out)) ∨ (ret = .ok ∧ rep st' i (o ++ out) true ∧ lag st' < lag st))

theorem ZEnc.Lawful.get {E : ZEnc} {code : Bytes → Bytes → Prop} (h : E.Lawful code) : ∃ rep lag, EncRep E code rep lag := by
  obtain ⟨rep, lag, h1, h2, h3, h4⟩ := h
  exact ⟨rep, lag, h1, h2, h3, h4⟩

section W
variable {E : ZEnc} {code : Bytes → Bytes → Prop} {rep : E.St → Bytes → Bytes → Bool → Prop} {lag : E.St → Nat}

/-- the state of a writer that holds the item data `i` -/
structure ZInv (rep : E.St → Bytes → Bytes → Bool → Prop) (w : ZW E) (pre i o : Bytes) : Prop where
  rep : rep w.st i o false
  total : w.total = i.length
  susp : w.susp = false
  file : w.file = ⟨pre ++ o, (pre ++ o).length⟩

theorem zfeed_spec (H : EncRep E code rep lag) {B : Nat} (hB : 0 < B) (pre : Bytes) : ∀ (m l : Nat) (w : ZW E) (a i o : Bytes), a.length ≤ m → lag w.st ≤ l → ZInv rep w pre i o →
    ∃ N w' o', ZInv rep w' pre (i ++ a) o' ∧ ∀ fuel, N ≤ fuel → w.feed B fuel a = .ok w' := by
  intro m
  induction m with
  | zero =>
    intro l w a i o ha _ hi
    have ha : a = [] := List.length_eq_zero_iff.mp (by omega)
    subst ha
    refine ⟨0, w, o, by simpa using hi, fun fuel _ => ?_⟩
    cases fuel <;> unfold ZW.feed <;> simp
  | succ m ihm =>
    intro l
    induction l with
    | zero =>
      intro w a i o ha hl hi
      by_cases hne : a = []
      · subst hne
        refine ⟨0, w, o, by simpa using hi, fun fuel _ => ?_⟩
        cases fuel <;> unfold ZW.feed <;> simp
      · rcases hs : E.step w.st a B false with ⟨st, k, out, ret⟩
        obtain ⟨q1, q2, q3, q4, q5⟩ := H.feed _ _ _ _ _ hi.rep hne hB _ _ _ _ hs
        have hk : k ≠ 0 := fun e => by have := q5 e; omega
        have hapos := List.length_pos_iff.mpr hne
        obtain ⟨N, w', o', hi', hf⟩ := ihm (lag st) { w with st := st, total := w.total + k, file := w.file.write out } (a.drop k) (i ++ a.take k) (o ++ out)
          (by simp; omega) (Nat.le_refl _) ⟨q4, by simp [hi.total, Nat.min_eq_left q1], hi.susp, by simp only [hi.file, flat_write_tail, List.append_assoc]⟩
        refine ⟨N + 1, w', o', by simpa [List.append_assoc] using hi', fun fuel hfu => ?_⟩
        obtain ⟨f, rfl⟩ : ∃ f, fuel = f + 1 := ⟨fuel - 1, by omega⟩
        unfold ZW.feed
        rw [if_neg hne, hs]
        simp only [q3, true_or, if_true]
        exact hf f (by omega)
    | succ l ihl =>
      intro w a i o ha hl hi
      by_cases hne : a = []
      · subst hne
        refine ⟨0, w, o, by simpa using hi, fun fuel _ => ?_⟩
        cases fuel <;> unfold ZW.feed <;> simp
      · rcases hs : E.step w.st a B false with ⟨st, k, out, ret⟩
        obtain ⟨q1, q2, q3, q4, q5⟩ := H.feed _ _ _ _ _ hi.rep hne hB _ _ _ _ hs
        have hapos := List.length_pos_iff.mpr hne
        have hnew : ZInv rep { w with st := st, total := w.total + k, file := w.file.write out } pre (i ++ a.take k) (o ++ out) :=
          ⟨q4, by simp [hi.total, Nat.min_eq_left q1], hi.susp, by simp only [hi.file, flat_write_tail, List.append_assoc]⟩
        have hrec : ∃ N w' o', ZInv rep w' pre (i ++ a.take k ++ a.drop k) o' ∧ ∀ fuel, N ≤ fuel →
            ZW.feed B fuel { w with st := st, total := w.total + k, file := w.file.write out } (a.drop k) = .ok w' := by
          by_cases hk : k = 0
          · have := q5 hk
            exact ihl _ _ _ _ (by simp; omega) (by show lag st ≤ l; omega) hnew
          · exact ihm (lag st) _ _ _ _ (by simp; omega) (Nat.le_refl _) hnew
        obtain ⟨N, w', o', hi', hf⟩ := hrec
        refine ⟨N + 1, w', o', by simpa [List.append_assoc] using hi', fun fuel hfu => ?_⟩
        obtain ⟨f, rfl⟩ : ∃ f, fuel = f + 1 := ⟨fuel - 1, by omega⟩
        unfold ZW.feed
        rw [if_neg hne, hs]
        simp only [q3, true_or, if_true]
        exact hf f (by omega)

theorem zwrites_spec (H : EncRep E code rep lag) {B : Nat} (hB : 0 < B) (pre : Bytes) (l : List Bytes) : ∀ (w : ZW E) (i o : Bytes), ZInv rep w pre i o →
    ∃ N w' o', ZInv rep w' pre (i ++ l.flatten) o' ∧ ∀ fuel, N ≤ fuel → w.writes B fuel l = .ok w' := by
  induction l with
  | nil => intro w i o hi; exact ⟨0, w, o, by simpa using hi, fun _ _ => rfl⟩
  | cons a l ih =>
    intro w i o hi
    obtain ⟨N, w1, o1, h1, f1⟩ := zfeed_spec H hB pre a.length (lag w.st) w a i o (Nat.le_refl _) (Nat.le_refl _) hi
    obtain ⟨M, w2, o2, h2, f2⟩ := ih w1 (i ++ a) o1 h1
    refine ⟨max N M, w2, o2, by simpa using h2, fun fuel hf => ?_⟩
    unfold ZW.writes ZW.write
    rw [hi.susp]
    simp only [Bool.false_eq_true, if_false]
    rw [f1 fuel (by omega)]
    exact f2 fuel (by omega)

theorem zfinish_spec (H : EncRep E code rep lag) {B : Nat} (hB : 0 < B) (pre : Bytes) : ∀ (l : Nat) (w : ZW E) (i o : Bytes) (f : Bool), lag w.st ≤ l → rep w.st i o f →
    w.file = ⟨pre ++ o, (pre ++ o).length⟩ →
    ∃ N w' z, code i z ∧ w'.file = ⟨pre ++ z, (pre ++ z).length⟩ ∧ w'.susp = w.susp ∧ ∀ fuel, N ≤ fuel → w.finish B fuel = .ok w' := by
  intro l
  induction l with
  | zero =>
    intro w i o f hl hr hf
    rcases hs : E.step w.st [] B true with ⟨st, k, out, ret⟩
    obtain ⟨q1, ⟨q2, q3⟩ | ⟨q2, q3, q4⟩⟩ := H.fin _ _ _ _ _ hr hB _ _ _ _ hs
    · refine ⟨1, { w with st := st, file := w.file.write out }, o ++ out, q3, by simp only [hf, flat_write_tail, List.append_assoc], rfl, fun fuel hfu => ?_⟩
      obtain ⟨f, rfl⟩ : ∃ f, fuel = f + 1 := ⟨fuel - 1, by omega⟩
      unfold ZW.finish; rw [hs]; simp [q2]
    · omega
  | succ l ih =>
    intro w i o f hl hr hf
    rcases hs : E.step w.st [] B true with ⟨st, k, out, ret⟩
    obtain ⟨q1, ⟨q2, q3⟩ | ⟨q2, q3, q4⟩⟩ := H.fin _ _ _ _ _ hr hB _ _ _ _ hs
    · refine ⟨1, { w with st := st, file := w.file.write out }, o ++ out, q3, by simp only [hf, flat_write_tail, List.append_assoc], rfl, fun fuel hfu => ?_⟩
      obtain ⟨f, rfl⟩ : ∃ f, fuel = f + 1 := ⟨fuel - 1, by omega⟩
      unfold ZW.finish; rw [hs]; simp [q2]
    · obtain ⟨N, w', z, h1, h2, h3, h4⟩ := ih { w with st := st, file := w.file.write out } i (o ++ out) true (by show lag st ≤ l; omega) q3
        (by simp only [hf, flat_write_tail, List.append_assoc])
      refine ⟨N + 1, w', z, h1, h2, h3, fun fuel hfu => ?_⟩
      obtain ⟨f, rfl⟩ : ∃ f, fuel = f + 1 := ⟨fuel - 1, by omega⟩
      unfold ZW.finish; rw [hs]
      simp only [q2]
      exact h4 f (by omega)

/-- a writer ready for a new item -/
structure ZReady (w : ZW E) (pre : Bytes) : Prop where
  st : w.st = E.init
  total : w.total = 0
  susp : w.susp = false
  file : w.file = ⟨pre, pre.length⟩

/-- what an item becomes: a complete stream, or nothing when it is empty -/
def itemCode (code : Bytes → Bytes → Prop) (d z : Bytes) : Prop := if d = [] then z = [] else code d z

theorem ZReady.inv (H : EncRep E code rep lag) {w : ZW E} {pre : Bytes} (h : ZReady w pre) : ZInv rep w pre [] [] :=
  ⟨by rw [h.st]; exact H.init, h.total, h.susp, by simp [h.file]⟩

theorem zitem_spec (H : EncRep E code rep lag) {W B : Nat} (hB : 0 < B) {w : ZW E} {pre : Bytes} (h : ZReady w pre) (l : List Bytes)
    (hw : l.flatten.length % 2 ^ W = 0 → l.flatten = []) :
    ∃ N w' z, itemCode code l.flatten z ∧ ZReady w' (pre ++ z) ∧ ∀ fuel, N ≤ fuel → w.item W B fuel l = .ok (w', pre.length) := by
  have hp : w.position W = .ok pre.length := by unfold ZW.position wideTotal; rw [h.total, h.file]; simp
  by_cases hne : l.flatten = []
  · -- every chunk is empty
    have hwr : ∀ (l : List Bytes) (fuel : Nat), l.flatten = [] → w.writes B fuel l = .ok w := by
      intro l fuel
      induction l with
      | nil => intro _; rfl
      | cons a l ih =>
        intro hl
        obtain ⟨ha, hl⟩ : a = [] ∧ l.flatten = [] := by simpa using hl
        subst ha
        unfold ZW.writes ZW.write
        rw [h.susp]
        simp only [Bool.false_eq_true, if_false]
        have : w.feed B fuel [] = .ok w := by cases fuel <;> unfold ZW.feed <;> simp
        rw [this]
        exact ih hl
    refine ⟨0, w, [], by simp [itemCode, hne], by simpa using h, fun fuel _ => ?_⟩
    unfold ZW.item
    rw [hp, hwr l fuel hne]
    unfold ZW.sync wideTotal
    simp [h.total]
  · obtain ⟨N, w1, o1, h1, f1⟩ := zwrites_spec H hB pre l w [] [] (h.inv H)
    rw [List.nil_append] at h1
    obtain ⟨M, w2, z, c1, c2, c3, c4⟩ := zfinish_spec H hB pre (lag w1.st) w1 l.flatten o1 false (Nat.le_refl _) h1.rep h1.file
    refine ⟨max N M, { w2 with st := E.init, total := 0 }, z, by simp [itemCode, hne, c1], ⟨rfl, rfl, by simp [c3, h1.susp], c2⟩, fun fuel hf => ?_⟩
    unfold ZW.item
    rw [hp, f1 fuel (by omega)]
    simp only
    unfold ZW.sync
    rw [if_neg (by unfold wideTotal; rw [h1.total]; exact fun e => hne (hw e)), c4 fuel (by omega)]

theorem zitems_spec (H : EncRep E code rep lag) {W B : Nat} (hB : 0 < B) (ls : List (List Bytes)) : ∀ (w : ZW E) (pre : Bytes), ZReady w pre →
    (∀ l ∈ ls, l.flatten.length % 2 ^ W = 0 → l.flatten = []) →
    ∃ N w' ps out, ZReady w' (pre ++ out) ∧ ps.length = ls.length ∧ (∀ fuel, N ≤ fuel → w.items W B fuel ls = .ok (w', ps)) ∧
      ∀ (i : Nat) (hi : i < ls.length), ∃ bf z af, out = bf ++ z ++ af ∧ itemCode code (ls[i]).flatten z ∧ ps[i]? = some (pre.length + bf.length) := by
  induction ls with
  | nil => intro w pre h _; exact ⟨0, w, [], [], by simpa using h, rfl, fun _ _ => rfl, fun i hi => by simp at hi⟩
  | cons l ls ih =>
    intro w pre h hw
    obtain ⟨N, w1, z, c1, c2, c3⟩ := zitem_spec H hB h l (hw l List.mem_cons_self)
    obtain ⟨M, w2, ps, out, d1, d2, d3, d4⟩ := ih w1 (pre ++ z) c2 (fun l hl => hw l (List.mem_cons_of_mem _ hl))
    refine ⟨max N M, w2, pre.length :: ps, z ++ out, by simpa using d1, by simp [d2], fun fuel hf => ?_, ?_⟩
    · unfold ZW.items; rw [c3 fuel (by omega)]; simp only; rw [d3 fuel (by omega)]
    · intro i hi
      cases i with
      | zero => exact ⟨[], z, out, by simp, c1, by simp⟩
      | succ i =>
        obtain ⟨bf, y, af, e1, e2, e3⟩ := d4 i (by simpa using hi)
        refine ⟨z ++ bf, y, af, by simp [e1], by simpa using e2, ?_⟩
        simp only [List.getElem?_cons_succ, e3, List.length_append]; congr 1; omega

end W

/-! ### reading with compressor -/

/-- `D` with a chosen reading of its states -/
structure DecRep (D : ZDec) (code : Bytes → Bytes → Prop) (rep : D.St → Bytes → Bytes → Prop) : Prop where
  init : rep D.init [] []
  step : ∀ d z, code d z → ∀ st c p, rep st c p → c <+: z → p <+: d → ∀ a room, (c ++ a <+: z ∨ z <+: c ++ a) →
      ∀ st' k out ret, D.step st a room = (st', k, out, ret) →
        k ≤ a.length ∧ out.length ≤ room ∧ rep st' (c ++ a.take k) (p ++ out) ∧ c ++ a.take k <+: z ∧ p ++ out <+: d ∧
        (ret = .ok ∨ ret = .streamEnd ∨ (ret = .bufError ∧ (a = [] ∨ room = 0) ∧ k = 0 ∧ out = [])) ∧
        (ret = .streamEnd → c ++ a.take k = z ∧ p ++ out = d) ∧
        (0 < room → (a ≠ [] ∨ c = z) → ret = .streamEnd ∨ 0 < k ∨ out ≠ [])

theorem ZDec.Lawful.get {D : ZDec} {code : Bytes → Bytes → Prop} (h : D.Lawful code) : ∃ rep, DecRep D code rep := by
  obtain ⟨rep, h1, h2⟩ := h
  exact ⟨rep, h1, h2⟩

section R
variable {D : ZDec} {code : Bytes → Bytes → Prop} {rep : D.St → Bytes → Bytes → Prop}

/-- the state of a reader in the middle of the stream `z` of `d`, of which the file holds `avail` -/
structure ZRInv (rep : D.St → Bytes → Bytes → Prop) (r : ZR D) (d z avail data c p : Bytes) : Prop where
  rep : rep r.st c p
  cz : c <+: z
  pd : p <+: d
  rest : c ++ r.inb ++ r.file.data.drop r.file.pos = avail
  data : r.file.data = data
  susp : r.susp = false

theorem compat_of {c a b z avail : Bytes} (h : c ++ a ++ b = avail) (ha : avail <+: z ∨ z <+: avail) : c ++ a <+: z ∨ z <+: c ++ a := by
  have h1 : c ++ a <+: avail := ⟨b, h⟩
  rcases ha with ha | ha
  · exact Or.inl (h1.trans ha)
  · exact List.prefix_or_prefix_of_prefix h1 ha

theorem zrfill_inv {r : ZR D} {d z avail data c p : Bytes} {B : Nat} (hB : 0 < B) (h : ZRInv rep r d z avail data c p) (room mem : Nat) (dry : Bool) :
    ∃ r1 mem1 dry1, r.fill B room mem dry = (r1, mem1, dry1) ∧ ZRInv rep r1 d z avail data c p ∧ r1.st = r.st ∧
      ((r1.inb ≠ [] ∧ (r.inb ≠ [] ∨ r.file.data.drop r.file.pos ≠ []) ∧ (mem1 = mem ∨ mem1 = 0)) ∨ (r1.inb = [] ∧ r1.file.data.drop r1.file.pos = [] ∧ mem1 = room)) := by
  unfold ZR.fill
  by_cases hin : r.inb.length = 0
  · have hin' : r.inb = [] := List.length_eq_zero_iff.mp hin
    rw [if_pos hin]
    unfold Flat.read
    refine ⟨_, _, _, rfl, ⟨h.rep, h.cz, h.pd, ?_, h.data, h.susp⟩, rfl, ?_⟩
    · simp only
      rw [← h.rest, hin', List.append_nil, List.append_assoc]
      congr 1
      rw [← List.drop_drop]
      conv => rhs; rw [← List.take_append_drop B (r.file.data.drop r.file.pos)]
      congr 1
      by_cases hl : B ≤ (r.file.data.drop r.file.pos).length
      · rw [List.length_take, Nat.min_eq_left hl]
      · rw [List.length_take, Nat.min_eq_right (by omega), List.drop_eq_nil_of_le (Nat.le_refl _), List.drop_eq_nil_of_le (by omega)]
    · by_cases hg : (r.file.data.drop r.file.pos).take B = []
      · right
        have : r.file.data.drop r.file.pos = [] := by
          rcases List.take_eq_nil_iff.mp hg with h1 | h1
          · omega
          · exact h1
        simp only [hg, List.length_nil, if_true, Nat.add_zero]
        exact ⟨trivial, this, trivial⟩
      · left
        simp only
        refine ⟨hg, Or.inr (fun e => hg (by rw [e]; simp)), Or.inr ?_⟩
        rw [if_neg]
        intro e; exact hg (List.length_eq_zero_iff.mp e)
  · rw [if_neg hin]
    have hin' : r.inb ≠ [] := fun e => hin (by rw [e]; rfl)
    exact ⟨r, mem, dry, rfl, h, rfl, Or.inl ⟨hin', Or.inl hin', Or.inl rfl⟩⟩

theorem zrpull_spec (H : DecRep D code rep) {B : Nat} (hB : 0 < B) {d z avail data : Bytes} (hc : code d z) (hav : avail <+: z ∨ z <+: avail) :
    ∀ (fuel : Nat) (r : ZR D) (c p : Bytes) (room mem : Nat) (dry : Bool), ZRInv rep r d z avail data c p →
      ((mem = 0 ∧ 0 < room) ∨ (r.inb = [] ∧ r.file.data.drop r.file.pos = [])) → (z.length - c.length) + (d.length - p.length) < fuel →
      ∃ out r' c', r.pull B fuel room mem dry = .ok (out, r') ∧ ZRInv rep r' d z avail data c' (p ++ out) ∧ out.length ≤ room ∧
        (z <+: avail → p ++ out = d ∨ out.length = room) := by
  intro fuel
  induction fuel with
  | zero => intro r c p room mem dry _ _ h; omega
  | succ fuel ih =>
    intro r c p room mem dry hi hpre hfu
    obtain ⟨r1, mem1, dry1, e1, hi1, hst, hcase⟩ := zrfill_inv hB hi room mem dry
    unfold ZR.pull
    rw [e1]
    rcases hs : D.step r1.st r1.inb room with ⟨st, k, out, ret⟩
    simp only [hs]
    obtain ⟨q1, q2, q3, q4, q5, q6, q7, q8⟩ := H.step d z hc _ _ _ hi1.rep hi1.cz hi1.pd _ room (compat_of hi1.rest hav) _ _ _ _ hs
    have hnext : ZRInv rep { r1 with st := st, inb := r1.inb.drop k } d z avail data (c ++ r1.inb.take k) (p ++ out) := by
      refine ⟨q3, q4, q5, ?_, hi1.data, hi1.susp⟩
      rw [← hi1.rest]
      simp only [List.append_assoc]
      rw [← List.append_assoc (r1.inb.take k), List.take_append_drop]
    have hl1 := q4.length_le
    have hl2 := q5.length_le
    rw [List.length_append, List.length_take, Nat.min_eq_left q1] at hl1
    rw [List.length_append] at hl2
    rcases hcase with ⟨hne, hsome, hm⟩ | ⟨hin, hrest, hm⟩
    · have hP : mem = 0 ∧ 0 < room := by
        rcases hpre with h | ⟨h1, h2⟩
        · exact h
        · rcases hsome with h | h
          · exact absurd h1 h
          · exact absurd h2 h
      have hm1 : mem1 = 0 := by rcases hm with h | h <;> omega
      have hprog := q8 hP.2 (Or.inl hne)
      rcases q6 with q6 | q6 | ⟨_, h, _⟩
      · simp only [q6, zCode]
        by_cases hroom : room - out.length = 0
        · rw [if_neg (by rw [hroom, hm1]; simp)]
          exact ⟨out, _, _, rfl, hnext, q2, fun _ => Or.inr (by omega)⟩
        · rw [if_pos (by refine ⟨by omega, trivial, fun h => ?_⟩; omega)]
          have hpr : 0 < k ∨ out ≠ [] := by
            rcases hprog with h | h
            · rw [q6] at h; cases h
            · exact h
          have hdec : (z.length - (c ++ r1.inb.take k).length) + (d.length - (p ++ out).length) < fuel := by
            rw [List.length_append, List.length_take, Nat.min_eq_left q1, List.length_append]
            rcases hpr with h | h
            · omega
            · have := List.length_pos_iff.mpr h; omega
          obtain ⟨out2, r2, c2, f1, f2, f3, f4⟩ := ih _ _ _ (room - out.length) mem1 dry1 hnext (Or.inl ⟨hm1, by omega⟩) hdec
          rw [f1]
          refine ⟨out ++ out2, r2, c2, rfl, by rw [← List.append_assoc]; exact f2, by simp; omega, fun hz => ?_⟩
          rcases f4 hz with f4 | f4
          · left; rw [← List.append_assoc]; exact f4
          · right; simp; omega
      · simp only [q6, zCode]
        rw [if_neg (by simp)]
        exact ⟨out, _, _, rfl, hnext, q2, fun _ => Or.inl (q7 q6).2⟩
      · rcases h with h | h
        · exact absurd h hne
        · omega
    · have hcav : c = avail := by rw [← hi1.rest, hin, hrest]; simp
      have hk0 : k = 0 := by rw [hin] at q1; simpa using q1
      have hend : z <+: avail → out = [] → ret ≠ .streamEnd → room = 0 := by
        intro hz ho hr
        by_contra hroom
        have hcz : c = z := by
          have := hi1.cz
          rw [hcav] at this ⊢
          exact this.eq_of_length_le hz.length_le
        rcases q8 (by omega) (Or.inr hcz) with h | h | h
        · exact hr h
        · omega
        · exact h ho
      rcases q6 with q6 | q6 | ⟨q6, _, _, ho⟩
      · simp only [q6, zCode]
        by_cases ho : out = []
        · rw [if_neg (by rw [hm, ho]; simp)]
          refine ⟨out, _, _, rfl, hnext, q2, fun hz => Or.inr ?_⟩
          rw [hend hz ho (by rw [q6]; simp), ho]; rfl
        · have hop := List.length_pos_iff.mpr ho
          rw [if_pos (by refine ⟨by omega, trivial, fun h => ?_⟩; omega)]
          have hdec : (z.length - (c ++ r1.inb.take k).length) + (d.length - (p ++ out).length) < fuel := by
            rw [List.length_append, List.length_take, Nat.min_eq_left q1, List.length_append]
            omega
          obtain ⟨out2, r2, c2, f1, f2, f3, f4⟩ := ih _ _ _ (room - out.length) mem1 dry1 hnext (Or.inr ⟨by simp [hin], hrest⟩) hdec
          rw [f1]
          refine ⟨out ++ out2, r2, c2, rfl, by rw [← List.append_assoc]; exact f2, by simp; omega, fun hz => ?_⟩
          rcases f4 hz with f4 | f4
          · left; rw [← List.append_assoc]; exact f4
          · right; simp; omega
      · simp only [q6, zCode]
        rw [if_neg (by simp)]
        exact ⟨out, _, _, rfl, hnext, q2, fun _ => Or.inl (q7 q6).2⟩
      · simp only [q6, zCode]
        rw [if_pos (by simp [hin])]
        simp only
        rw [if_neg (by simp)]
        refine ⟨out, _, _, rfl, hnext, q2, fun hz => Or.inr ?_⟩
        rw [hend hz ho (by rw [q6]; simp), ho]; rfl

theorem zread_spec (H : DecRep D code rep) {B : Nat} (hB : 0 < B) {d z avail data : Bytes} (hc : code d z) (hav : avail <+: z ∨ z <+: avail)
    (fuel : Nat) (hfu : z.length + d.length < fuel) (r : ZR D) (c p : Bytes) (hi : ZRInv rep r d z avail data c p) (n : Nat) :
    ∃ out r' c', r.read B fuel n = .ok (out, r') ∧ ZRInv rep r' d z avail data c' (p ++ out) ∧ out.length ≤ n ∧ (z <+: avail → p ++ out = d ∨ out.length = n) := by
  unfold ZR.read
  by_cases hn : n = 0
  · rw [if_pos hn]
    exact ⟨[], r, c, rfl, by simpa using hi, by simp, fun _ => Or.inr (by simp [hn])⟩
  · rw [if_neg hn, hi.susp]
    simp only [Bool.false_eq_true, if_false]
    exact zrpull_spec H hB hc hav fuel r c p n 0 false hi (Or.inl ⟨rfl, by omega⟩) (by omega)

theorem take_of_full {d p out : Bytes} {n : Nat} (h1 : p ++ out <+: d) (h2 : out.length ≤ n) (h3 : p ++ out = d ∨ out.length = n) : out = (d.drop p.length).take n := by
  obtain ⟨t, ht⟩ := h1
  subst ht
  rw [List.append_assoc, List.drop_left]
  rcases h3 with h3 | h3
  · have : t = [] := by
      have := congrArg List.length h3
      simp at this
      exact this
    subst this
    rw [List.append_nil, List.take_of_length_le h2]
  · rw [← h3, List.take_left]

theorem zreads_spec (H : DecRep D code rep) {B : Nat} (hB : 0 < B) {d z avail data : Bytes} (hc : code d z) (hav : z <+: avail)
    (fuel : Nat) (hfu : z.length + d.length < fuel) (ns : List Nat) : ∀ (r : ZR D) (c p : Bytes), ZRInv rep r d z avail data c p →
    ∃ r' c' p', r.reads B fuel ns = .ok (plainReads d p.length ns, r') ∧ ZRInv rep r' d z avail data c' p' := by
  induction ns with
  | nil => intro r c p hi; exact ⟨r, c, p, rfl, hi⟩
  | cons n ns ih =>
    intro r c p hi
    obtain ⟨out, r1, c1, e1, h1, h2, h3⟩ := zread_spec H hB hc (Or.inr hav) fuel hfu r c p hi n
    obtain ⟨r2, c2, p2, e2, k2⟩ := ih r1 c1 _ h1
    refine ⟨r2, c2, p2, ?_, k2⟩
    have ho := take_of_full h1.pd h2 (h3 hav)
    unfold ZR.reads
    rw [e1]; simp only; rw [e2]
    simp only [plainReads, ← ho, List.length_append]

theorem zskip_inv (H : DecRep D code rep) {r : ZR D} {pre d z avail : Bytes} (hs : r.susp = false) (hd : r.file.data = pre ++ avail) :
    ZRInv rep (r.skip pre.length) d z avail (pre ++ avail) [] [] :=
  ⟨H.init, List.nil_prefix, List.nil_prefix, by simp [ZR.skip, ZR.flush, Flat.skip, hd], hd, hs⟩

end R

/-! ### writing with compressor_zstd -/

section ZW
variable {E : ZEnc} {code : Bytes → Bytes → Prop} {rep : E.St → Bytes → Bytes → Bool → Prop} {lag : E.St → Nat}

structure ZsInv (rep : E.St → Bytes → Bytes → Bool → Prop) (w : ZsW E) (pre i o : Bytes) : Prop where
  rep : rep w.st i o false
  susp : w.susp = false
  file : w.file = ⟨pre ++ o, (pre ++ o).length⟩

theorem zsfeed_step (H : EncRep E code rep lag) {B : Nat} (hB : 0 < B) {pre : Bytes} {w : ZsW E} {a i o : Bytes} {bs : Nat} (hbs : 0 < bs) (hne : a ≠ []) (hi : ZsInv rep w pre i o) :
    ∃ st k out, E.step w.st (a.take bs) B false = (st, k, out, .ok) ∧ k ≤ a.length ∧ (k = 0 → lag st < lag w.st) ∧ 0 < E.hint st ∧
      ZsInv rep { w with st := st, file := w.file.write out } pre (i ++ a.take k) (o ++ out) := by
  rcases hs : E.step w.st (a.take bs) B false with ⟨st, k, out, ret⟩
  have hne' : a.take bs ≠ [] := by
    intro e
    rcases List.take_eq_nil_iff.mp e with h | h
    · omega
    · exact hne h
  obtain ⟨q1, q2, q3, q4, q5⟩ := H.feed _ _ _ _ _ hi.rep hne' hB _ _ _ _ hs
  rw [List.length_take] at q1
  have ht : (a.take bs).take k = a.take k := by rw [List.take_take, Nat.min_eq_left (by omega)]
  rw [ht] at q4
  exact ⟨st, k, out, by rw [q3], by omega, q5, H.hint _ _ _ _ q4, ⟨q4, hi.susp, by simp only [hi.file, flat_write_tail, List.append_assoc]⟩⟩

theorem zsfeed_spec (H : EncRep E code rep lag) {B : Nat} (hB : 0 < B) (pre : Bytes) : ∀ (m l : Nat) (w : ZsW E) (bs : Nat) (a i o : Bytes), a.length ≤ m → lag w.st ≤ l → 0 < bs → ZsInv rep w pre i o →
    ∃ N w' o', ZsInv rep w' pre (i ++ a) o' ∧ w'.flushed = w.flushed ∧ ∀ fuel, N ≤ fuel → ZsW.feed B fuel w bs a = .ok w' := by
  intro m
  induction m with
  | zero =>
    intro l w bs a i o ha _ _ hi
    have ha : a = [] := List.length_eq_zero_iff.mp (by omega)
    subst ha
    refine ⟨0, w, o, by simpa using hi, rfl, fun fuel _ => ?_⟩
    cases fuel <;> unfold ZsW.feed <;> simp
  | succ m ihm =>
    intro l
    induction l with
    | zero =>
      intro w bs a i o ha hl hbs hi
      by_cases hne : a = []
      · subst hne
        refine ⟨0, w, o, by simpa using hi, rfl, fun fuel _ => ?_⟩
        cases fuel <;> unfold ZsW.feed <;> simp
      · obtain ⟨st, k, out, hs, q1, q5, qh, hnew⟩ := zsfeed_step H hB hbs hne hi
        have hk : k ≠ 0 := fun e => by have := q5 e; omega
        have hapos := List.length_pos_iff.mpr hne
        obtain ⟨N, w', o', hi', hfl, hf⟩ := ihm (lag st) _ (E.hint st) (a.drop k) _ _ (by simp; omega) (Nat.le_refl _) qh hnew
        refine ⟨N + 1, w', o', by simpa [List.append_assoc] using hi', hfl, fun fuel hfu => ?_⟩
        obtain ⟨f, rfl⟩ : ∃ f, fuel = f + 1 := ⟨fuel - 1, by omega⟩
        unfold ZsW.feed
        rw [if_neg hne, hs]
        simp only [if_true]
        exact hf f (by omega)
    | succ l ihl =>
      intro w bs a i o ha hl hbs hi
      by_cases hne : a = []
      · subst hne
        refine ⟨0, w, o, by simpa using hi, rfl, fun fuel _ => ?_⟩
        cases fuel <;> unfold ZsW.feed <;> simp
      · obtain ⟨st, k, out, hs, q1, q5, qh, hnew⟩ := zsfeed_step H hB hbs hne hi
        have hapos := List.length_pos_iff.mpr hne
        have hrec : ∃ N w' o', ZsInv rep w' pre (i ++ a.take k ++ a.drop k) o' ∧ w'.flushed = w.flushed ∧ ∀ fuel, N ≤ fuel →
            ZsW.feed B fuel { w with st := st, file := w.file.write out } (E.hint st) (a.drop k) = .ok w' := by
          by_cases hk : k = 0
          · have := q5 hk
            exact ihl _ (E.hint st) _ _ _ (by simp; omega) (by show lag st ≤ l; omega) qh hnew
          · exact ihm (lag st) _ (E.hint st) _ _ _ (by simp; omega) (Nat.le_refl _) qh hnew
        obtain ⟨N, w', o', hi', hfl, hf⟩ := hrec
        refine ⟨N + 1, w', o', by simpa [List.append_assoc] using hi', hfl, fun fuel hfu => ?_⟩
        obtain ⟨f, rfl⟩ : ∃ f, fuel = f + 1 := ⟨fuel - 1, by omega⟩
        unfold ZsW.feed
        rw [if_neg hne, hs]
        simp only [if_true]
        exact hf f (by omega)

theorem zswrites_spec (H : EncRep E code rep lag) {A B : Nat} (hA : 0 < A) (hB : 0 < B) (pre : Bytes) (l : List Bytes) : ∀ (w : ZsW E) (i o : Bytes), ZsInv rep w pre i o →
    ∃ N w' o', ZsInv rep w' pre (i ++ l.flatten) o' ∧ w'.flushed = (w.flushed && decide (l = [])) ∧ ∀ fuel, N ≤ fuel → w.writes A B fuel l = .ok w' := by
  induction l with
  | nil => intro w i o hi; exact ⟨0, w, o, by simpa using hi, by simp, fun _ _ => rfl⟩
  | cons a l ih =>
    intro w i o hi
    obtain ⟨N, w1, o1, h1, g1, f1⟩ := zsfeed_spec H hB pre a.length (lag w.st) { w with flushed := false } A a i o (Nat.le_refl _) (Nat.le_refl _) hA ⟨hi.rep, hi.susp, hi.file⟩
    obtain ⟨M, w2, o2, h2, g2, f2⟩ := ih w1 (i ++ a) o1 h1
    refine ⟨max N M, w2, o2, by simpa using h2, by rw [g2, g1]; simp, fun fuel hf => ?_⟩
    unfold ZsW.writes ZsW.write
    rw [if_neg (by rw [hi.susp]; simp), f1 fuel (by omega)]
    exact f2 fuel (by omega)

theorem zsfinish_spec (H : EncRep E code rep lag) {B : Nat} (hB : 0 < B) (pre : Bytes) : ∀ (l : Nat) (w : ZsW E) (i o : Bytes) (f : Bool), lag w.st ≤ l → rep w.st i o f →
    w.file = ⟨pre ++ o, (pre ++ o).length⟩ →
    ∃ N w' z, code i z ∧ w'.file = ⟨pre ++ z, (pre ++ z).length⟩ ∧ w'.susp = w.susp ∧ ∀ fuel, N ≤ fuel → w.finish B fuel = .ok w' := by
  intro l
  induction l with
  | zero =>
    intro w i o f hl hr hf
    rcases hs : E.step w.st [] B true with ⟨st, k, out, ret⟩
    obtain ⟨q1, ⟨q2, q3⟩ | ⟨q2, q3, q4⟩⟩ := H.fin _ _ _ _ _ hr hB _ _ _ _ hs
    · refine ⟨1, { w with st := st, file := w.file.write out }, o ++ out, q3, by simp only [hf, flat_write_tail, List.append_assoc], rfl, fun fuel hfu => ?_⟩
      obtain ⟨f, rfl⟩ : ∃ f, fuel = f + 1 := ⟨fuel - 1, by omega⟩
      unfold ZsW.finish; rw [hs]; simp [q2]
    · omega
  | succ l ih =>
    intro w i o f hl hr hf
    rcases hs : E.step w.st [] B true with ⟨st, k, out, ret⟩
    obtain ⟨q1, ⟨q2, q3⟩ | ⟨q2, q3, q4⟩⟩ := H.fin _ _ _ _ _ hr hB _ _ _ _ hs
    · refine ⟨1, { w with st := st, file := w.file.write out }, o ++ out, q3, by simp only [hf, flat_write_tail, List.append_assoc], rfl, fun fuel hfu => ?_⟩
      obtain ⟨f, rfl⟩ : ∃ f, fuel = f + 1 := ⟨fuel - 1, by omega⟩
      unfold ZsW.finish; rw [hs]; simp [q2]
    · obtain ⟨N, w', z, h1, h2, h3, h4⟩ := ih { w with st := st, file := w.file.write out } i (o ++ out) true (by show lag st ≤ l; omega) q3
        (by simp only [hf, flat_write_tail, List.append_assoc])
      refine ⟨N + 1, w', z, h1, h2, h3, fun fuel hfu => ?_⟩
      obtain ⟨f, rfl⟩ : ∃ f, fuel = f + 1 := ⟨fuel - 1, by omega⟩
      unfold ZsW.finish; rw [hs]
      simp only [q2]
      exact h4 f (by omega)

structure ZsReady (w : ZsW E) (pre : Bytes) : Prop where
  st : w.st = E.init
  flushed : w.flushed = true
  susp : w.susp = false
  file : w.file = ⟨pre, pre.length⟩

/-- what an item written in the pieces `l` becomes: a complete stream, or nothing when nothing was ever written -/
def pieceCode (code : Bytes → Bytes → Prop) (l : List Bytes) (z : Bytes) : Prop := if l = [] then z = [] else code l.flatten z

theorem zsitem_spec (H : EncRep E code rep lag) {A B : Nat} (hA : 0 < A) (hB : 0 < B) {w : ZsW E} {pre : Bytes} (h : ZsReady w pre) (l : List Bytes) :
    ∃ N w' z, pieceCode code l z ∧ ZsReady w' (pre ++ z) ∧ ∀ fuel, N ≤ fuel → w.item A B fuel l = .ok (w', pre.length) := by
  have hp : w.position = pre.length := by unfold ZsW.position; rw [h.file]
  by_cases hne : l = []
  · subst hne
    refine ⟨0, { w with st := w.st }, [], by simp [pieceCode], by simpa using h, fun fuel _ => ?_⟩
    unfold ZsW.item ZsW.writes
    simp only [ZsW.sync, h.flushed, if_true, hp]
  · obtain ⟨N, w1, o1, h1, g1, f1⟩ := zswrites_spec H hA hB pre l w [] [] ⟨by rw [h.st]; exact H.init, h.susp, by simp [h.file]⟩
    rw [List.nil_append] at h1
    obtain ⟨M, w2, z, c1, c2, c3, c4⟩ := zsfinish_spec H hB pre (lag w1.st) w1 l.flatten o1 false (Nat.le_refl _) h1.rep h1.file
    refine ⟨max N M, { w2 with st := E.init, flushed := true }, z, by simp [pieceCode, hne, c1], ⟨rfl, rfl, by simp [c3, h1.susp], c2⟩, fun fuel hf => ?_⟩
    unfold ZsW.item
    rw [f1 fuel (by omega)]
    simp only
    unfold ZsW.sync
    rw [if_neg (by rw [g1]; simp [hne]), c4 fuel (by omega), hp]

theorem zsitems_spec (H : EncRep E code rep lag) {A B : Nat} (hA : 0 < A) (hB : 0 < B) (ls : List (List Bytes)) : ∀ (w : ZsW E) (pre : Bytes), ZsReady w pre →
    ∃ N w' ps out, ZsReady w' (pre ++ out) ∧ ps.length = ls.length ∧ (∀ fuel, N ≤ fuel → w.items A B fuel ls = .ok (w', ps)) ∧
      ∀ (i : Nat) (hi : i < ls.length), ∃ bf z af, out = bf ++ z ++ af ∧ pieceCode code ls[i] z ∧ ps[i]? = some (pre.length + bf.length) := by
  induction ls with
  | nil => intro w pre h; exact ⟨0, w, [], [], by simpa using h, rfl, fun _ _ => rfl, fun i hi => by simp at hi⟩
  | cons l ls ih =>
    intro w pre h
    obtain ⟨N, w1, z, c1, c2, c3⟩ := zsitem_spec H hA hB h l
    obtain ⟨M, w2, ps, out, d1, d2, d3, d4⟩ := ih w1 (pre ++ z) c2
    refine ⟨max N M, w2, pre.length :: ps, z ++ out, by simpa using d1, by simp [d2], fun fuel hf => ?_, ?_⟩
    · unfold ZsW.items; rw [c3 fuel (by omega)]; simp only; rw [d3 fuel (by omega)]
    · intro i hi
      cases i with
      | zero => exact ⟨[], z, out, by simp, c1, by simp⟩
      | succ i =>
        obtain ⟨bf, y, af, e1, e2, e3⟩ := d4 i (by simpa using hi)
        refine ⟨z ++ bf, y, af, by simp [e1], by simpa using e2, ?_⟩
        simp only [List.getElem?_cons_succ, e3, List.length_append]; congr 1; omega

end ZW

/-! ### reading with compressor_zstd -/

structure EagRep (D : ZDec) (code : Bytes → Bytes → Prop) (rep : D.St → Bytes → Bytes → Prop) : Prop where
  init : rep D.init [] []
  step : ∀ d z, code d z → ∀ st c p, rep st c p → c <+: z → p <+: d → ∀ a room, (c ++ a <+: z ∨ z <+: c ++ a) → 0 < room →
      ∀ st' k out ret, D.step st a room = (st', k, out, ret) →
        k ≤ a.length ∧ out.length ≤ room ∧ rep st' (c ++ a.take k) (p ++ out) ∧ c ++ a.take k <+: z ∧ p ++ out <+: d ∧
        (ret = .ok ∨ ret = .streamEnd) ∧ (ret = .streamEnd → c ++ a.take k = z ∧ p ++ out = d) ∧
        (ret = .ok → out = [] → k = a.length ∧ c ++ a ≠ z)

theorem ZDec.Eager.get {D : ZDec} {code : Bytes → Bytes → Prop} (h : D.Eager code) : ∃ rep, EagRep D code rep := by
  obtain ⟨rep, h1, h2⟩ := h
  exact ⟨rep, h1, h2⟩

section ZR
variable {D : ZDec} {code : Bytes → Bytes → Prop} {rep : D.St → Bytes → Bytes → Prop}

structure ZsRInv (rep : D.St → Bytes → Bytes → Prop) (r : ZsR D) (d z avail data c p : Bytes) : Prop where
  rep : rep r.st c p
  cz : c <+: z
  pd : p <+: d
  rest : c ++ r.inb ++ r.file.data.drop r.file.pos = avail
  data : r.file.data = data
  susp : r.susp = false
  fin : r.ended = true → c = z ∧ p = d
  dry : r.dry = true → r.file.data.drop r.file.pos = []

theorem zsfill_inv {r : ZsR D} {d z avail data c p : Bytes} {B : Nat} (hB : 0 < B) (h : ZsRInv rep r d z avail data c p) :
    ZsRInv rep (r.fill B) d z avail data c p ∧ (r.fill B).ended = r.ended ∧ ((r.fill B).inb ≠ [] ∨ (r.fill B).dry = true) := by
  unfold ZsR.fill
  by_cases hc : 0 < B - r.inb.length ∧ r.dry = false
  · rw [if_pos hc]
    unfold Flat.read
    have hrest : (r.file.data.drop r.file.pos).take (B - r.inb.length) ++ r.file.data.drop (r.file.pos + ((r.file.data.drop r.file.pos).take (B - r.inb.length)).length) = r.file.data.drop r.file.pos := by
      rw [← List.drop_drop]
      conv => rhs; rw [← List.take_append_drop (B - r.inb.length) (r.file.data.drop r.file.pos)]
      congr 1
      by_cases hl : B - r.inb.length ≤ (r.file.data.drop r.file.pos).length
      · rw [List.length_take, Nat.min_eq_left hl]
      · rw [List.length_take, Nat.min_eq_right (by omega), List.drop_eq_nil_of_le (Nat.le_refl _), List.drop_eq_nil_of_le (by omega)]
    refine ⟨⟨h.rep, h.cz, h.pd, ?_, h.data, h.susp, h.fin, ?_⟩, rfl, ?_⟩
    · simp only
      rw [← h.rest]
      simp only [List.append_assoc]
      rw [hrest]
    · simp only [decide_eq_true_eq]
      intro hlt
      rw [List.length_take] at hlt
      rw [← List.drop_drop]
      apply List.drop_eq_nil_of_le
      rw [List.length_take]; omega
    · simp only [decide_eq_true_eq]
      by_cases hg : (r.file.data.drop r.file.pos).take (B - r.inb.length) = []
      · right; rw [hg]; simpa using hc.1
      · left; simp [hg]
  · rw [if_neg hc]
    refine ⟨h, rfl, ?_⟩
    by_cases hd : r.dry = true
    · exact Or.inr hd
    · left
      intro e
      exact hc ⟨by rw [e]; simpa using hB, by simpa using hd⟩

/-- reading: everything asked for is given, or everything there is, or (only when the stream is cut) the reading fails -/
theorem zspull_spec (H : EagRep D code rep) {A B : Nat} (hA : 0 < A) (hB : 0 < B) {d z avail data : Bytes} (hc : code d z) (hav : avail <+: z ∨ z <+: avail) :
    ∀ (fuel : Nat) (r : ZsR D) (c p : Bytes) (room : Nat), ZsRInv rep r d z avail data c p → (z.length - c.length) + (d.length - p.length) + 1 < fuel →
      (∃ out r' c', r.pull A B fuel room = .ok (out, r') ∧ ZsRInv rep r' d z avail data c' (p ++ out) ∧ out.length ≤ room ∧ (p ++ out = d ∨ out.length = room) ∧ (out.length ≠ room → r'.ended = true)) ∨
      (r.pull A B fuel room = .error .range ∧ ¬ z <+: avail) := by
  intro fuel
  induction fuel with
  | zero => intro r c p room _ h; omega
  | succ fuel ih =>
    intro r c p room hi hfu
    unfold ZsR.pull
    by_cases hgo : r.ended = false ∧ 0 < room
    · rw [if_pos hgo]
      obtain ⟨hi1, he1, hsome⟩ := zsfill_inv hB hi
      generalize r.fill B = r1 at hi1 he1 hsome ⊢
      rcases hs : D.step r1.st r1.inb (min room A) with ⟨st, k, out, ret⟩
      simp only [hs]
      obtain ⟨q1, q2, q3, q4, q5, q6, q7, q8⟩ := H.step d z hc _ _ _ hi1.rep hi1.cz hi1.pd _ (min room A) (compat_of hi1.rest hav) (by omega) _ _ _ _ hs
      have hl1 := q4.length_le
      have hl2 := q5.length_le
      rw [List.length_append, List.length_take, Nat.min_eq_left q1] at hl1
      rw [List.length_append] at hl2
      have hor : out.length ≤ room := by omega
      rw [if_neg (by rcases q6 with h | h <;> simp [h])]
      have hnext : ZsRInv rep { r1 with st := st, inb := r1.inb.drop k, ended := decide (ret = .streamEnd) } d z avail data (c ++ r1.inb.take k) (p ++ out) := by
        refine ⟨q3, q4, q5, ?_, hi1.data, hi1.susp, fun h => q7 (by simpa using h), hi1.dry⟩
        rw [← hi1.rest]
        simp only [List.append_assoc]
        rw [← List.append_assoc (r1.inb.take k), List.take_append_drop]
      by_cases herr : r1.dry = true ∧ out.length = 0 ∧ 0 < room - out.length ∧ decide (ret = .streamEnd) = false
      · rw [if_pos herr]
        right
        refine ⟨rfl, fun hz => ?_⟩
        obtain ⟨h1, h2, h3, h4⟩ := herr
        have ho : out = [] := List.length_eq_zero_iff.mp h2
        have hr : ret = .ok := by rcases q6 with h | h; exacts [h, by simp [h] at h4]
        obtain ⟨hk, hne⟩ := q8 hr ho
        have hca : c ++ r1.inb = avail := by
          have := hi1.rest
          rw [hi1.dry h1, List.append_nil] at this
          exact this
        apply hne
        rw [hk, List.take_of_length_le (Nat.le_refl _), hca] at q4
        rw [hca]
        exact q4.eq_of_length_le hz.length_le
      · rw [if_neg herr]
        by_cases hend : ret = .streamEnd
        · -- the last call of the loop stops at once
          have hpull : ZsR.pull A B fuel { r1 with st := st, inb := r1.inb.drop k, ended := decide (ret = .streamEnd) } (room - out.length)
              = .ok ([], { r1 with st := st, inb := r1.inb.drop k, ended := decide (ret = .streamEnd) }) := by
            obtain ⟨f, rfl⟩ : ∃ f, fuel = f + 1 := ⟨fuel - 1, by omega⟩
            unfold ZsR.pull
            rw [if_neg (by simp [hend])]
          left
          rw [hpull]
          refine ⟨out, _, c ++ r1.inb.take k, by simp only [List.append_nil], hnext, hor, Or.inl (q7 hend).2, fun _ => by simp [hend]⟩
        · have hr : ret = .ok := by rcases q6 with h | h; exacts [h, absurd h hend]
          by_cases hprog : 0 < k ∨ out ≠ []
          · have hdec : (z.length - (c ++ r1.inb.take k).length) + (d.length - (p ++ out).length) + 1 < fuel := by
              rw [List.length_append, List.length_take, Nat.min_eq_left q1, List.length_append]
              rcases hprog with h | h
              · omega
              · have := List.length_pos_iff.mpr h; omega
            rcases ih _ _ _ (room - out.length) hnext hdec with ⟨out2, r2, c2, f1, f2, f3, f4, f5⟩ | ⟨f1, f2⟩
            · left
              rw [f1]
              refine ⟨out ++ out2, r2, c2, rfl, by rw [← List.append_assoc]; exact f2, by simp; omega, ?_, fun h => f5 (fun h' => h (by simp; omega))⟩
              rcases f4 with f4 | f4
              · left; rw [← List.append_assoc]; exact f4
              · right; simp; omega
            · right
              rw [f1]
              exact ⟨rfl, f2⟩
          · -- no progress: no input was left, which is an error
            exfalso
            push Not at hprog
            have ho := hprog.2
            obtain ⟨hk, _⟩ := q8 hr ho
            have hin : r1.inb = [] := List.length_eq_zero_iff.mp (by omega)
            rcases hsome with h | h
            · exact h hin
            · exact herr ⟨h, by simp [ho], by simp [ho]; exact hgo.2, by simp [hend]⟩
    · rw [if_neg hgo]
      left
      refine ⟨[], r, c, rfl, by simpa using hi, by simp, ?_, ?_⟩
      · by_cases he : r.ended = true
        · left; rw [List.append_nil]; exact (hi.fin he).2
        · right
          have : r.ended = false := by simpa using he
          have : ¬ 0 < room := fun h => hgo ⟨this, h⟩
          simp; omega
      · intro h
        by_contra he
        have : r.ended = false := by simpa using he
        have : ¬ 0 < room := fun h => hgo ⟨this, h⟩
        simp at h; omega

theorem zsreads_spec (H : EagRep D code rep) {A B : Nat} (hA : 0 < A) (hB : 0 < B) {d z avail data : Bytes} (hc : code d z) (hav : z <+: avail)
    (fuel : Nat) (hfu : z.length + d.length + 1 < fuel) (ns : List Nat) : ∀ (r : ZsR D) (c p : Bytes), ZsRInv rep r d z avail data c p →
    ∃ r' c' p', r.reads A B fuel ns = .ok (plainReads d p.length ns, r') ∧ ZsRInv rep r' d z avail data c' p' := by
  induction ns with
  | nil => intro r c p hi; exact ⟨r, c, p, rfl, hi⟩
  | cons n ns ih =>
    intro r c p hi
    rcases zspull_spec H hA hB hc (Or.inr hav) fuel r c p n hi (by omega) with ⟨out, r1, c1, e1, h1, h2, h3, _⟩ | ⟨_, h⟩
    · obtain ⟨r2, c2, p2, e2, k2⟩ := ih r1 c1 _ h1
      refine ⟨r2, c2, p2, ?_, k2⟩
      have ho := take_of_full h1.pd h2 h3
      unfold ZsR.reads ZsR.read
      rw [hi.susp]
      simp only [Bool.false_eq_true, if_false]
      rw [e1]; simp only; rw [e2]
      simp only [plainReads, ← ho, List.length_append]
    · exact absurd hav h

theorem zsskip_inv (H : EagRep D code rep) {r : ZsR D} {pre d z avail : Bytes} (hs : r.susp = false) (hd : r.file.data = pre ++ avail) :
    ZsRInv rep (r.skip pre.length) d z avail (pre ++ avail) [] [] :=
  ⟨H.init, List.nil_prefix, List.nil_prefix, by simp [ZsR.skip, Flat.skip, hd], hd, hs, fun h => by simp [ZsR.skip] at h, fun h => by simp [ZsR.skip] at h⟩

end ZR

end Dar
