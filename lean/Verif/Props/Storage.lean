import Verif.Model.Storage
import Verif.Lemmas.Flat
/- Property theorems C50 (byte storage behaves like an array). -/
namespace Dar

theorem stSize_flatten (c : Cells) : stSize c = c.flatten.length := by
  induction c with
  | nil => rfl
  | cons a c ih => simp [stSize, ih]

/-- position in the whole array of an iterator -/
def StIter.pos (it : StIter) (c : Cells) : Nat :=
  match it with
  | .cur i off => (c.take i).flatten.length + off
  | .stop => c.flatten.length

/-- iterators on data or just after the data of a block -/
def StIter.Valid (it : StIter) (c : Cells) : Prop :=
  match it with
  | .cur i off => ∃ x, c[i]? = some x ∧ off ≤ x.length
  | .stop => True

theorem readFrom_spec : ∀ (c : Cells) (off n : Nat), (∀ x cs, c = x :: cs → off ≤ x.length) →
    (stReadFrom c off n).1 = (c.flatten.drop off).take n ∧ (stReadFrom c off n).2.Valid c ∧
    (stReadFrom c off n).2.pos c = min c.flatten.length (off + n) ⊔ (if c = [] then 0 else off) := by
  intro c
  induction c with
  | nil => intro off n _; simp [stReadFrom, StIter.Valid, StIter.pos]
  | cons x cs ih =>
    intro off n h
    have hx := h x cs rfl
    rw [stReadFrom]
    by_cases hn : n ≤ x.length - off
    · rw [if_pos hn]
      refine ⟨?_, ⟨x, rfl, by omega⟩, ?_⟩
      · simp only [List.flatten_cons]
        rw [List.drop_append_of_le_length hx, List.take_append_of_le_length (by rw [List.length_drop]; omega)]
      · simp [StIter.pos]; omega
    · rw [if_neg hn]
      obtain ⟨h1, h2, h3⟩ := ih 0 (n - (x.length - off)) (fun _ _ _ => Nat.zero_le _)
      refine ⟨?_, ?_, ?_⟩
      · simp only [List.flatten_cons]
        rw [List.drop_append_of_le_length hx, List.take_append, List.length_drop, h1, List.drop_zero,
          List.take_of_length_le (show (x.drop off).length ≤ n by rw [List.length_drop]; omega)]
      · cases hr : (stReadFrom cs 0 (n - (x.length - off))).2 with
        | stop => simp [hr, StIter.next, StIter.Valid]
        | cur j o => rw [hr] at h2; simpa [hr, StIter.next, StIter.Valid] using h2
      · cases hr : (stReadFrom cs 0 (n - (x.length - off))).2 with
        | stop => rw [hr] at h3; simp [hr, StIter.next, StIter.pos] at h3 ⊢; omega
        | cur j o => rw [hr] at h3; simp [hr, StIter.next, StIter.pos] at h3 ⊢; omega

theorem writeFrom_spec : ∀ (c : Cells) (off : Nat) (b : Bytes), (∀ x cs, c = x :: cs → off ≤ x.length) → (c = [] → off = 0) →
    (stWriteFrom c off b).1.flatten = c.flatten.take off ++ b.take (c.flatten.length - off) ++ c.flatten.drop (off + b.length) ∧
    (stWriteFrom c off b).1.map List.length = c.map List.length ∧
    (stWriteFrom c off b).2.1.Valid c ∧ (stWriteFrom c off b).2.1.pos c = off + min b.length (c.flatten.length - off) ∧
    (stWriteFrom c off b).2.2 = min b.length (c.flatten.length - off) := by
  intro c
  induction c with
  | nil => intro off b _ h0; have := h0 rfl; subst this; simp [stWriteFrom, StIter.Valid, StIter.pos]
  | cons x cs ih =>
    intro off b h _
    have hx := h x cs rfl
    rw [stWriteFrom]
    by_cases hn : b.length ≤ x.length - off
    · rw [if_pos hn]
      refine ⟨?_, ?_, ⟨x, rfl, by omega⟩, ?_, ?_⟩
      · simp only [List.flatten_cons]
        rw [List.take_append_of_le_length hx, List.take_of_length_le (show b.length ≤ (x ++ cs.flatten).length - off by rw [List.length_append]; omega),
          List.drop_append_of_le_length (by omega)]
        simp
      · simp; omega
      · simp [StIter.pos]; omega
      · simp; omega
    · rw [if_neg hn]
      obtain ⟨h1, h2, h3, h4, h5⟩ := ih 0 (b.drop (x.length - off)) (fun _ _ _ => Nat.zero_le _) (fun _ => rfl)
      refine ⟨?_, ?_, ?_, ?_, ?_⟩
      · simp only [List.flatten_cons, h1, List.take_zero, List.nil_append, Nat.sub_zero, Nat.zero_add, List.length_drop]
        rw [List.take_append_of_le_length hx, List.length_append]
        have e1 : b.take (x.length + cs.flatten.length - off) = b.take (x.length - off) ++ (b.drop (x.length - off)).take cs.flatten.length := by
          rw [← List.take_add]; congr 1; omega
        have e2 : (x ++ cs.flatten).drop (off + b.length) = cs.flatten.drop (b.length - (x.length - off)) := by
          rw [List.drop_append, List.drop_eq_nil_of_le (by omega)]; simp; congr 1; omega
        rw [e1, e2]; simp
      · simp [h2]; omega
      · cases hr : (stWriteFrom cs 0 (b.drop (x.length - off))).2.1 with
        | stop => simp [hr, StIter.next, StIter.Valid]
        | cur j o => rw [hr] at h3; simpa [hr, StIter.next, StIter.Valid] using h3
      · cases hr : (stWriteFrom cs 0 (b.drop (x.length - off))).2.1 with
        | stop => rw [hr] at h4; simp [hr, StIter.next, StIter.pos] at h4 ⊢; omega
        | cur j o => rw [hr] at h4; simp [hr, StIter.next, StIter.pos] at h4 ⊢; omega
      · simp only [h5]; simp; omega

theorem flatten_take_drop (c : Cells) (i : Nat) : c.flatten = (c.take i).flatten ++ (c.drop i).flatten := by
  rw [← List.flatten_append, List.take_append_drop]

theorem take_app2 {α : Type} (A B : List α) (k : Nat) : (A ++ B).take (A.length + k) = A ++ B.take k := by
  rw [List.take_append, List.take_of_length_le (by omega)]; simp
theorem drop_app2 {α : Type} (A B : List α) (k : Nat) : (A ++ B).drop (A.length + k) = B.drop k := by
  rw [List.drop_append, List.drop_eq_nil_of_le (by omega)]; simp

theorem valid_head {c : Cells} {i off : Nat} (h : (StIter.cur i off).Valid c) : ∃ x cs, c.drop i = x :: cs ∧ off ≤ x.length := by
  obtain ⟨x, hx, ho⟩ := h
  obtain ⟨hi, rfl⟩ := List.getElem?_eq_some_iff.mp hx
  exact ⟨c[i], c.drop (i + 1), List.drop_eq_getElem_cons hi, ho⟩

theorem valid_shift {c : Cells} {i j o : Nat} (h : (StIter.cur j o).Valid (c.drop i)) : (StIter.cur (i + j) o).Valid c := by
  obtain ⟨x, hx, ho⟩ := h
  exact ⟨x, by rw [List.getElem?_drop] at hx; exact hx, ho⟩

theorem pos_shift (c : Cells) (i j o : Nat) : (StIter.cur (i + j) o).pos c = (c.take i).flatten.length + (StIter.cur j o).pos (c.drop i) := by
  simp only [StIter.pos, List.take_add, List.flatten_append, List.length_append, Nat.add_assoc]

/-- **C50**: reading from any place gives the bytes of the array from there on; the iterator ends after them. -/
theorem C50_read (c : Cells) (it : StIter) (h : it.Valid c) (n : Nat) :
    (stRead c it n).1 = (c.flatten.drop (it.pos c)).take n ∧ (stRead c it n).2.Valid c ∧
      (stRead c it n).2.pos c = min c.flatten.length (it.pos c + n) := by
  cases it with
  | stop => simp [stRead, StIter.pos, StIter.Valid]
  | cur i off =>
    obtain ⟨x, cs, hd, ho⟩ := valid_head h
    obtain ⟨h1, h2, h3⟩ := readFrom_spec (c.drop i) off n (fun y ys hy => by rw [hd] at hy; injection hy with hy _; rw [← hy]; exact ho)
    have hf := flatten_take_drop c i
    have hle : off ≤ (c.drop i).flatten.length := by rw [hd]; simp; omega
    rw [if_neg (by rw [hd]; simp)] at h3
    refine ⟨?_, ?_, ?_⟩
    · simp only [stRead, h1, StIter.pos]
      conv_rhs => rw [hf, drop_app2]
    · simp only [stRead]
      cases hr : (stReadFrom (c.drop i) off n).2 with
      | stop => trivial
      | cur j o => rw [hr] at h2; exact valid_shift h2
    · simp only [stRead]
      have hl : c.flatten.length = (c.take i).flatten.length + (c.drop i).flatten.length := by rw [← List.length_append, ← hf]
      cases hr : (stReadFrom (c.drop i) off n).2 with
      | stop => rw [hr] at h3; simp only [StIter.pos] at h3 ⊢; omega
      | cur j o => rw [hr] at h3; simp only [pos_shift]; rw [h3]; simp only [StIter.pos]; omega

/-- **C50**: writing from any place replaces the bytes of the array from there on, up to the end of the array; its size and
its fragmentation do not change. -/
theorem C50_write (c : Cells) (it : StIter) (h : it.Valid c) (b : Bytes) :
    (stWrite c it b).1.flatten = c.flatten.take (it.pos c) ++ b.take (c.flatten.length - it.pos c) ++ c.flatten.drop (it.pos c + b.length) ∧
      (stWrite c it b).1.map List.length = c.map List.length ∧ (stWrite c it b).2.1.Valid (stWrite c it b).1 ∧
      (stWrite c it b).2.1.pos (stWrite c it b).1 = it.pos c + (stWrite c it b).2.2 ∧ (stWrite c it b).2.2 = min b.length (c.flatten.length - it.pos c) := by
  cases it with
  | stop =>
    simp only [stWrite, StIter.pos, StIter.Valid, Nat.sub_self, List.take_zero, List.take_length, List.append_nil, Nat.min_zero, Nat.add_zero, and_self, and_true]
    rw [List.drop_eq_nil_of_le (by omega)]; simp
  | cur i off =>
    obtain ⟨x, cs, hd, ho⟩ := valid_head h
    obtain ⟨h1, h2, h3, h4, h5⟩ := writeFrom_spec (c.drop i) off b (fun y ys hy => by rw [hd] at hy; injection hy with hy _; rw [← hy]; exact ho)
      (fun hh => by rw [hd] at hh; cases hh)
    have hf := flatten_take_drop c i
    have hle : off ≤ (c.drop i).flatten.length := by rw [hd]; simp; omega
    have hi : i < c.length := by obtain ⟨x, hx, _⟩ := h; exact (List.getElem?_eq_some_iff.mp hx).1
    have hl : c.flatten.length = (c.take i).flatten.length + (c.drop i).flatten.length := by rw [← List.length_append, ← hf]
    -- validity and positions only depend on the lengths of the blocks
    have hlen : ∀ (a b : Cells), a.map List.length = b.map List.length → ∀ it : StIter, (it.Valid a → it.Valid b) ∧ it.pos a = it.pos b := by
      intro a b hab it
      have hfl : ∀ (a b : Cells), a.map List.length = b.map List.length → a.flatten.length = b.flatten.length := by
        intro a b hab; rw [List.length_flatten, List.length_flatten, hab]
      cases it with
      | stop => exact ⟨fun _ => trivial, hfl a b hab⟩
      | cur i off =>
        refine ⟨?_, ?_⟩
        · rintro ⟨x, hx, ho⟩
          have := congrArg (fun l => l[i]?) hab
          simp only [List.getElem?_map, hx, Option.map_some] at this
          cases hb : b[i]? with
          | none => rw [hb] at this; cases this
          | some y => rw [hb] at this; simp at this; exact ⟨y, hb, by omega⟩
        · simp only [StIter.pos]
          rw [hfl (a.take i) (b.take i) (by rw [List.map_take, List.map_take, hab])]
    have hmap : (stWrite c (.cur i off) b).1.map List.length = c.map List.length := by
      simp only [stWrite, List.map_append, h2]
      rw [← List.map_append, List.take_append_drop]
    refine ⟨?_, hmap, ?_, ?_, ?_⟩
    · simp only [stWrite, List.flatten_append, h1, StIter.pos]
      generalize hA : (c.take i).flatten = A at *
      generalize hB : (c.drop i).flatten = B at *
      rw [hf, take_app2, Nat.add_assoc, drop_app2, List.length_append, show A.length + B.length - (A.length + off) = B.length - off by omega]
      simp
    · refine (hlen _ _ hmap.symm _).1 ?_
      simp only [stWrite]
      cases hr : (stWriteFrom (c.drop i) off b).2.1 with
      | stop => trivial
      | cur j o => rw [hr] at h3; exact valid_shift h3
    · rw [(hlen _ _ hmap _).2]
      simp only [stWrite, h5]
      cases hr : (stWriteFrom (c.drop i) off b).2.1 with
      | stop => rw [hr] at h4; simp only [StIter.pos] at h4 ⊢; omega
      | cur j o => rw [hr] at h4; simp only [pos_shift]; rw [h4]; simp only [StIter.pos]; omega
    · simp only [stWrite, h5, StIter.pos]; omega

/-- merging blocks never changes the content -/
theorem C50_reduce (ok : Nat → Bool) (c : Cells) : (stReduce ok c).flatten = c.flatten := by
  have key : ∀ (cs : Cells) (failed : Nat) (cur : Bytes), (stReduceFrom ok failed cur cs).flatten = cur ++ cs.flatten := by
    intro cs
    induction cs with
    | nil => intro failed cur; simp [stReduceFrom]
    | cons x cs ih =>
      intro failed cur
      rw [stReduceFrom]
      split_ifs <;> simp [ih]
  cases c with
  | nil => rfl
  | cons x cs => exact key cs _ x

theorem stNew_len (sizes : List Nat) : (stNew sizes).flatten.length = sizes.sum := by
  induction sizes with
  | nil => rfl
  | cons a l ih => simp only [stNew, List.map_cons, List.flatten_cons, List.length_append, List.length_replicate, List.sum_cons] at ih ⊢; omega

theorem stBegin_valid (c : Cells) : (stBegin c).Valid c ∧ (stBegin c).pos c = 0 := by
  cases c with
  | nil => simp [stBegin, StIter.Valid, StIter.pos]
  | cons x cs => exact ⟨⟨x, rfl, Nat.zero_le _⟩, by simp [stBegin, StIter.pos]⟩

/-- **C50**: inserting bytes at any place, whatever the blocks the allocation gave and the merges which succeed. -/
theorem C50_insert (ok : Nat → Bool) (sizes : List Nat) (c : Cells) (it : StIter) (h : it.Valid c) (b : Bytes)
    (hs : sizes.sum = b.length + (match it with | .cur i _ => ((c.drop i).headD []).length | .stop => 0)) :
    (stInsert ok sizes c it b).flatten = c.flatten.take (it.pos c) ++ b ++ c.flatten.drop (it.pos c) := by
  unfold stInsert
  by_cases hb : b = []
  · rw [if_pos hb, hb]; simp
  · rw [if_neg hb]
    obtain ⟨v0, p0⟩ := stBegin_valid (stNew sizes)
    have l0 := stNew_len sizes
    cases it with
    | stop =>
      obtain ⟨a1, a2, a3, a4, a5⟩ := C50_write (stNew sizes) _ v0 b
      rw [p0, List.take_zero, List.nil_append, Nat.sub_zero, Nat.zero_add] at a1
      simp only at hs
      rw [List.take_of_length_le (show b.length ≤ (stNew sizes).flatten.length by omega), List.drop_eq_nil_of_le (show (stNew sizes).flatten.length ≤ b.length by omega),
        List.append_nil] at a1
      simp only [C50_reduce, List.flatten_append, a1, StIter.pos, List.take_length, List.drop_length, List.append_nil]
    | cur i off =>
      obtain ⟨x, cs, hd, ho⟩ := valid_head h
      have hx : (c.drop i).headD [] = x := by rw [hd]; rfl
      simp only [hx] at hs ⊢
      have hl1 : (x.take off).length = off := by rw [List.length_take]; omega
      obtain ⟨a1, a2, a3, a4, a5⟩ := C50_write (stNew sizes) _ v0 (x.take off)
      rw [p0] at a1 a4 a5
      generalize hw1 : stWrite (stNew sizes) (stBegin (stNew sizes)) (x.take off) = w1 at *
      have ll1 : w1.1.flatten.length = sizes.sum := by rw [← l0, List.length_flatten, List.length_flatten, a2]
      obtain ⟨b1, b2, b3, b4, b5⟩ := C50_write w1.1 w1.2.1 a3 b
      generalize hw2 : stWrite w1.1 w1.2.1 b = w2 at *
      have ll2 : w2.1.flatten.length = sizes.sum := by rw [← ll1, List.length_flatten, List.length_flatten, b2]
      obtain ⟨c1, c2, c3, c4, c5⟩ := C50_write w2.1 w2.2.1 b3 (x.drop off)
      generalize hw3 : stWrite w2.1 w2.2.1 (x.drop off) = w3 at *
      have e1 : w1.2.2 = off := by rw [a5, hl1, l0]; omega
      rw [e1, Nat.zero_add] at a4
      rw [a4] at b1 b4 b5
      have e2 : w2.2.2 = b.length := by rw [b5, ll1]; omega
      rw [e2] at b4
      rw [b4] at c1 c4 c5
      have f1 : w1.1.flatten.take off = x.take off := by
        rw [a1, List.take_zero, List.nil_append, Nat.sub_zero, List.take_of_length_le (show (x.take off).length ≤ _ by rw [l0, hl1]; omega),
          List.take_append_of_le_length (by omega), List.take_of_length_le (by omega)]
      have f2 : w2.1.flatten.take (off + b.length) = x.take off ++ b := by
        rw [b1, f1, List.take_of_length_le (show b.length ≤ w1.1.flatten.length - off by omega),
          List.take_append_of_le_length (by rw [List.length_append, hl1]), List.take_of_length_le (by rw [List.length_append, hl1])]
      have f3 : w3.1.flatten = x.take off ++ b ++ x.drop off := by
        rw [c1, f2, List.take_of_length_le (show (x.drop off).length ≤ _ by rw [List.length_drop, ll2]; omega),
          List.drop_eq_nil_of_le (show w2.1.flatten.length ≤ off + b.length + (x.drop off).length by rw [List.length_drop, ll2]; omega), List.append_nil]
      have hnext : c.drop (i + 1) = cs := by rw [← List.drop_drop, hd]; rfl
      have hg : (stReduce ok (c.take i ++ w3.1 ++ c.drop (i + 1))).flatten = (c.take i).flatten ++ (x.take off ++ b ++ x.drop off) ++ cs.flatten := by
        rw [C50_reduce, List.flatten_append, List.flatten_append, f3, hnext]
      rw [hg]
      have hf := flatten_take_drop c i
      rw [hd] at hf
      simp only [StIter.pos]
      generalize (c.take i).flatten = A at *
      rw [hf, take_app2, drop_app2]
      simp only [List.flatten_cons]
      rw [List.take_append_of_le_length ho, List.drop_append_of_le_length ho]
      simp

/-- **C50**: removing bytes at any place. -/
theorem C50_remove (ok : Nat → Bool) (c : Cells) (it : StIter) (h : it.Valid c) (n : Nat) :
    (stRemove ok c it n).flatten = c.flatten.take (it.pos c) ++ c.flatten.drop (it.pos c + n) := by
  have key : ∀ (c : Cells) (off n : Nat), (∀ x cs, c = x :: cs → off ≤ x.length) → (c = [] → off = 0) →
      (stRemoveFrom c off n).flatten = c.flatten.take off ++ c.flatten.drop (off + n) := by
    intro c
    induction c with
    | nil => intro off n _ _; simp [stRemoveFrom]
    | cons x cs ih =>
      intro off n h _
      have hx := h x cs rfl
      rw [stRemoveFrom]
      by_cases h0 : n = 0
      · rw [if_pos h0, h0]; simp
      · rw [if_neg h0]
        by_cases h1 : x.length - off < n
        · rw [if_pos h1]
          have hrec := fun m => ih 0 m (fun _ _ _ => Nat.zero_le _) (fun _ => rfl)
          have e2 : (x ++ cs.flatten).drop (off + n) = cs.flatten.drop (n - (x.length - off)) := by
            rw [List.drop_append, List.drop_eq_nil_of_le (by omega)]; simp; congr 1; omega
          by_cases h2 : off > 0
          · rw [if_pos h2]
            simp only [List.flatten_cons, hrec, List.take_zero, List.nil_append, Nat.zero_add]
            rw [e2, List.take_append_of_le_length hx]
          · rw [if_neg h2]
            have : off = 0 := by omega
            subst this
            simp only [List.flatten_cons, hrec, List.take_zero, List.nil_append, Nat.zero_add]
            simp only [Nat.zero_add, Nat.sub_zero] at e2
            rw [e2]
        · rw [if_neg h1]
          simp only [List.flatten_cons]
          rw [List.take_append_of_le_length hx, List.drop_append_of_le_length (by omega)]
          simp
  cases it with
  | stop =>
    simp only [stRemove, C50_reduce, StIter.pos]
    rw [List.take_length, List.drop_eq_nil_of_le (by omega)]; simp
  | cur i off =>
    obtain ⟨x, cs, hd, ho⟩ := valid_head h
    simp only [stRemove, C50_reduce, List.flatten_append, StIter.pos]
    rw [key (c.drop i) off n (fun y ys hy => by rw [hd] at hy; injection hy with hy _; rw [← hy]; exact ho) (fun hh => by rw [hd] at hh; cases hh)]
    have hf := flatten_take_drop c i
    generalize (c.take i).flatten = A at *
    generalize (c.drop i).flatten = B at *
    rw [hf, take_app2, Nat.add_assoc, drop_app2]
    simp

/-- **C50**: placing an iterator. -/
theorem C50_skip_to (c : Cells) (pos : Nat) (h : pos < c.flatten.length) : (stSkipTo c pos).Valid c ∧ (stSkipTo c pos).pos c = pos := by
  have key : ∀ (c : Cells) (pos : Nat), pos < c.flatten.length → (stSkipFrom c 0 pos).Valid c ∧ (stSkipFrom c 0 pos).pos c = pos := by
    intro c
    induction c with
    | nil => intro pos h; simp at h
    | cons x cs ih =>
      intro pos h
      rw [stSkipFrom]
      by_cases h0 : pos = 0
      · rw [if_pos h0]; exact ⟨⟨x, rfl, Nat.zero_le _⟩, by simp [StIter.pos, h0]⟩
      · rw [if_neg h0]
        by_cases h1 : 0 + pos ≥ x.length
        · rw [if_pos h1, Nat.sub_zero]
          obtain ⟨g1, g2⟩ := ih (pos - x.length) (by rw [List.flatten_cons, List.length_append] at h; omega)
          cases hr : stSkipFrom cs 0 (pos - x.length) with
          | stop => rw [hr] at g2; simp [StIter.pos] at g2; simp at h; omega
          | cur j o =>
            rw [hr] at g1 g2
            refine ⟨by simpa [StIter.next, StIter.Valid] using g1, ?_⟩
            simp [StIter.next, StIter.pos] at g2 ⊢; omega
        · rw [if_neg h1]
          exact ⟨⟨x, rfl, by omega⟩, by simp [StIter.pos]⟩
  exact key c pos h

/-- **C50**: truncating. -/
theorem C50_truncate (ok : Nat → Bool) (c : Cells) (pos : Nat) : (stTruncate ok c pos).flatten = c.flatten.take pos := by
  unfold stTruncate
  rw [stSize_flatten]
  by_cases h : pos < c.flatten.length
  · rw [if_pos h]
    obtain ⟨h1, h2⟩ := C50_skip_to c pos h
    rw [C50_remove ok c _ h1, h2, List.drop_eq_nil_of_le (by omega)]; simp
  · rw [if_neg h, List.take_of_length_le (by omega)]

/-- **C50** (what is true of indexing): indexing gives the byte of the array except at the first byte of a block which is
not the first one. -/
theorem C50_index_partial (c : Cells) (pos : Nat) (h : pos < c.flatten.length) (h32 : pos < 2 ^ 32)
    (hb : ∀ i, 0 < i → i ≤ c.length → (c.take i).flatten.length ≠ pos) : stAt c pos = .ok (c.flatten[pos]) := by
  have key : ∀ (c : Cells) (pos : Nat) (h : pos < c.flatten.length), (∀ i, 0 < i → i ≤ c.length → (c.take i).flatten.length ≠ pos) →
      stIndex pos c = .ok (c.flatten[pos]) := by
    intro c
    induction c with
    | nil => intro pos h; simp at h
    | cons x cs ih =>
      intro pos h hb
      rw [stIndex]
      by_cases h1 : pos > x.length
      · rw [if_pos h1]
        have := ih (pos - x.length) (by rw [List.flatten_cons, List.length_append] at h; omega) (by
          intro i hi hle heq
          exact hb (i + 1) (by omega) (by simp; omega) (by simp at heq ⊢; omega))
        rw [this]
        simp only [List.flatten_cons]
        rw [List.getElem_append_right (by omega)]
      · rw [if_neg h1]
        have hne := hb 1 (by omega) (by simp)
        simp at hne
        rw [List.getElem?_eq_getElem (by omega)]
        simp only [List.flatten_cons]
        rw [List.getElem_append_left (by omega)]
  unfold stAt
  rw [if_neg (by rintro rfl; simp at h), show min pos (2 ^ 32 - 1) = pos by omega]
  exact key c pos h hb

/-- **C50** (a defect of the code): with two blocks, the first byte of the second one cannot be reached by indexing: the code
reads outside of the first block. -/
theorem C50_index_counterexample : stAt [[1, 2], [3, 4]] 2 = .error .ub ∧ ([[1, 2], [3, 4]] : Cells).flatten[2]? = some (3 : UInt8) ∧
    stAt [[1, 2], [3, 4]] 3 = .ok 4 := ⟨rfl, rfl, rfl⟩

/-- **C50** (a defect of the code): when memory is short (blocks of more than 2 bytes are refused) the allocation of an odd
number of bytes never ends: the remaining size becomes negative. -/
theorem C50_alloc_counterexample : ∀ fuel, ∃ e, stAlloc (fun n => decide (n ≤ 2)) 5 fuel = .error e := by
  have hodd : ∀ size, size % 2 = 1 → sub32 size 2 % 2 = 1 := by intro size h; unfold sub32; omega
  have hp : stPick (fun n => decide (n ≤ 2)) 2 (2 + 1) = .ok 2 := rfl
  have hp5 : stPick (fun n => decide (n ≤ 2)) 5 (5 + 1) = .ok 2 := rfl
  have key : ∀ fuel size d, stPick (fun n => decide (n ≤ 2)) d (d + 1) = .ok 2 → size % 2 = 1 →
      ∃ e, stAllocLoop (fun n => decide (n ≤ 2)) size d fuel = .error e := by
    intro fuel
    induction fuel with
    | zero => intro size d _ _; exact ⟨_, rfl⟩
    | succ fuel ih =>
      intro size d hd h1
      have h2 := hodd size h1
      have hpos : 0 < sub32 size 2 := by omega
      obtain ⟨e, he⟩ := ih _ 2 hp h2
      refine ⟨e, ?_⟩
      rw [stAllocLoop, hd]
      dsimp only
      rw [if_pos hpos, he]
      rfl
  intro fuel
  unfold stAlloc
  have h5 : 5 > 0 := by omega
  rw [if_pos h5]
  exact key fuel 5 5 hp5 rfl

/-- Three blocks, a position in the second one, an allocation in two blocks. -/
example : (StIter.cur 1 1).Valid [[1], [2, 3, 4], [5]] := ⟨_, rfl, by decide⟩
example : stInsert (fun _ => false) [2, 4] [[1], [2, 3, 4], [5]] (.cur 1 1) [7, 8, 9] = [[1], [2, 7], [8, 9, 3, 4], [5]] := rfl
example : stRemove (fun n => n ≤ 3) [[1], [2, 3, 4], [5, 6]] (.cur 1 1) 3 = [[1, 2, 6]] := rfl

end Dar
