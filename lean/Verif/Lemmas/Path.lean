import Verif.Model.Path
import Verif.Spec.Paths
import Mathlib.Tactic.Tauto
/- Lemmas about the model of paths. -/
namespace Dar

/-- A component as path_split makes them. -/
def plain (d : Bytes) : Prop := d ≠ [] ∧ (47 : UInt8) ∉ d

def GoodSplit (l : List Bytes) : Prop :=
  (∀ d ∈ l, plain d) ∨ ∃ u t, l = u :: t ∧ isUrlHead u ∧ ∀ d ∈ t, plain d

theorem GoodSplit.concat {l : List Bytes} (h : GoodSplit l) {d : Bytes} (hd : plain d) : GoodSplit (l ++ [d]) := by
  rcases h with h | ⟨u, t, rfl, hu, ht⟩
  · left; intro x hx; rcases List.mem_append.mp hx with hx | hx
    · exact h x hx
    · simp at hx; subst hx; exact hd
  · right; refine ⟨u, t ++ [d], rfl, hu, ?_⟩
    intro x hx; rcases List.mem_append.mp hx with hx | hx
    · exact ht x hx
    · simp at hx; subst hx; exact hd

theorem splitPart_good (agg : Bytes) (l : List Bytes) (part : Bytes) (h : GoodSplit l) (hp : (47 : UInt8) ∉ part) :
    GoodSplit (splitPart agg l part) := by
  unfold splitPart
  split
  · exact h
  · rename_i hne
    split
    · rename_i hc
      right
      obtain ⟨w, hw⟩ := List.getLast?_eq_some_iff.mp hc.1
      refine ⟨part ++ [47], [], by rw [hc.2.2.1]; rfl, ⟨w, ?_, by rw [hw]; simp⟩, by simp⟩
      intro hm; apply hp; rw [hw]; simp [hm]
    · exact h.concat ⟨hne, hp⟩

theorem pathSplitLoop_good (agg : Bytes) (rest : Bytes) : ∀ (l : List Bytes) (part : Bytes), GoodSplit l → (47 : UInt8) ∉ part →
    GoodSplit (pathSplitLoop agg l part rest) := by
  induction rest with
  | nil =>
    intro l part h hp
    unfold pathSplitLoop
    split
    · exact h
    · rename_i hne; exact h.concat ⟨hne, hp⟩
  | cons c rest ih =>
    intro l part h hp
    unfold pathSplitLoop
    split
    · exact ih _ _ (splitPart_good agg l part h hp) (by simp)
    · rename_i hc
      exact ih _ _ h (fun hm => (List.mem_append.mp hm).elim hp (fun hm => hc (by simpa using (List.mem_singleton.mp hm).symm)))

theorem pathSplit_good (s : Bytes) : GoodSplit (pathSplit s) :=
  pathSplitLoop_good s s [] [] (Or.inl (by simp)) (by simp)

/-! ### reduce -/

theorem reduceLoop_push (names : List Bytes) : ∀ st rest, (∀ d ∈ names, d ≠ pDotDot) →
    reduceLoop st (names ++ rest) = reduceLoop (names.reverse ++ st) rest := by
  induction names with
  | nil => intro st rest _; rfl
  | cons d names ih =>
    intro st rest h
    have hd := h d (by simp)
    cases st with
    | nil =>
      rw [List.cons_append, reduceLoop, ih _ _ (fun x hx => h x (by simp [hx]))]; simp
    | cons p st =>
      rw [List.cons_append, reduceLoop, if_neg (by simp [hd]), ih _ _ (fun x hx => h x (by simp [hx]))]; simp

theorem reduceLoop_dots (k : Nat) : ∀ j rest, reduceLoop (List.replicate j pDotDot) (List.replicate k pDotDot ++ rest) =
    reduceLoop (List.replicate (j + k) pDotDot) rest := by
  induction k with
  | zero => intro j rest; rfl
  | succ k ih =>
    intro j rest
    cases j with
    | zero =>
      rw [List.replicate_succ, List.cons_append]
      show reduceLoop [pDotDot] _ = _
      rw [show ([pDotDot] : List Bytes) = List.replicate 1 pDotDot from rfl, ih 1 rest]
      congr 2; omega
    | succ j =>
      rw [List.replicate_succ, List.replicate_succ, List.cons_append, reduceLoop, if_neg (by simp)]
      rw [← List.replicate_succ, ← List.replicate_succ, ih (j + 2) rest]
      congr 2; omega

theorem reduceLoop_fix (k : Nat) (names : List Bytes) (h : ∀ d ∈ names, d ≠ pDotDot) :
    reduceLoop [] (List.replicate k pDotDot ++ names) = List.replicate k pDotDot ++ names := by
  have := reduceLoop_dots k 0 names
  rw [List.replicate_zero, Nat.zero_add] at this
  rw [this]
  have h2 := reduceLoop_push names (List.replicate k pDotDot) [] h
  rw [List.append_nil] at h2
  rw [h2]
  cases hx : names.reverse ++ List.replicate k pDotDot with
  | nil => simp at hx; obtain ⟨rfl, rfl⟩ := hx; rfl
  | cons a l => rw [reduceLoop, ← hx]; simp

/-- Result of the loop from a stack in normal order. -/
theorem reduceLoop_form (rest : List Bytes) : ∀ (k : Nat) (names : List Bytes), (∀ d ∈ names, d ≠ pDotDot) →
    ∃ k' names', reduceLoop (names.reverse ++ List.replicate k pDotDot) rest = List.replicate k' pDotDot ++ names' ∧
      ∀ d ∈ names', d ≠ pDotDot ∧ (d ∈ names ∨ d ∈ rest) := by
  induction rest with
  | nil =>
    intro k names h
    refine ⟨k, names, ?_, fun d hd => ⟨h d hd, Or.inl hd⟩⟩
    cases hx : names.reverse ++ List.replicate k pDotDot with
    | nil => simp at hx; obtain ⟨rfl, rfl⟩ := hx; rfl
    | cons a l => rw [reduceLoop, ← hx]; simp
  | cons d rest ih =>
    intro k names h
    by_cases hd : d = pDotDot
    · rcases List.eq_nil_or_concat names with rfl | ⟨ns, n, rfl⟩
      · obtain ⟨k', n', e, hh⟩ := ih (k + 1) [] (by simp)
        refine ⟨k', n', ?_, fun x hx => ⟨(hh x hx).1, by simpa using Or.inr ((hh x hx).2)⟩⟩
        rw [← e]
        simp only [List.reverse_nil, List.nil_append]
        subst hd
        cases k with
        | zero => rfl
        | succ k => rw [List.replicate_succ, reduceLoop, if_neg (by simp)]; rfl
      · have hn : n ≠ pDotDot := h n (by simp)
        obtain ⟨k', n', e, hh⟩ := ih k ns (fun x hx => h x (by simp [hx]))
        refine ⟨k', n', ?_, fun x hx => ⟨(hh x hx).1, ?_⟩⟩
        · rw [← e]
          simp only [List.concat_eq_append, List.reverse_append, List.reverse_cons, List.reverse_nil, List.nil_append,
            List.cons_append]
          rw [reduceLoop, if_pos ⟨hd, hn⟩]
        · rcases (hh x hx).2 with h1 | h1
          · left; simp [h1]
          · right; simp [h1]
    · obtain ⟨k', n', e, hh⟩ := ih k (names ++ [d]) (by
        intro x hx; rcases List.mem_append.mp hx with hx | hx
        · exact h x hx
        · simp at hx; subst hx; exact hd)
      refine ⟨k', n', ?_, fun x hx => ⟨(hh x hx).1, ?_⟩⟩
      · rw [← e, List.reverse_append, List.append_assoc]
        exact (reduceLoop_push [d] _ rest (by simp [hd]))
      · rcases (hh x hx).2 with h1 | h1
        · rcases List.mem_append.mp h1 with h1 | h1
          · exact Or.inl h1
          · right; simp at h1; simp [h1]
        · right; simp [h1]

/-- With a special element at the bottom of the stack: it stays first, or everything before some point is gone. -/
theorem reduceLoop_bottom (u : Bytes) (hu : u ≠ pDotDot) (rest : List Bytes) : ∀ (names : List Bytes), (∀ d ∈ names, d ≠ pDotDot) →
    (∃ names', reduceLoop (names.reverse ++ [u]) rest = u :: names' ∧ ∀ d ∈ names', d ≠ pDotDot ∧ (d ∈ names ∨ d ∈ rest)) ∨
    (∃ rest', rest' <:+ rest ∧ reduceLoop (names.reverse ++ [u]) rest = reduceLoop [] rest') := by
  induction rest with
  | nil =>
    intro names h
    left
    refine ⟨names, ?_, fun d hd => ⟨h d hd, Or.inl hd⟩⟩
    cases hx : names.reverse ++ [u] with
    | nil => simp at hx
    | cons a l => rw [reduceLoop, ← hx]; simp
  | cons d rest ih =>
    intro names h
    by_cases hd : d = pDotDot
    · rcases List.eq_nil_or_concat names with rfl | ⟨ns, n, rfl⟩
      · right
        refine ⟨rest, ⟨[d], rfl⟩, ?_⟩
        simp only [List.reverse_nil, List.nil_append]
        rw [reduceLoop, if_pos ⟨hd, hu⟩]
      · have hn : n ≠ pDotDot := h n (by simp)
        have e : reduceLoop ((ns.concat n).reverse ++ [u]) (d :: rest) = reduceLoop (ns.reverse ++ [u]) rest := by
          simp only [List.concat_eq_append, List.reverse_append, List.reverse_cons, List.reverse_nil, List.nil_append,
            List.cons_append]
          rw [reduceLoop, if_pos ⟨hd, hn⟩]
        rw [e]
        rcases ih ns (fun x hx => h x (by simp [hx])) with ⟨n', e1, h1⟩ | ⟨r', e1, h1⟩
        · left; refine ⟨n', e1, fun x hx => ⟨(h1 x hx).1, ?_⟩⟩
          rcases (h1 x hx).2 with h2 | h2
          · left; simp [h2]
          · right; simp [h2]
        · right; exact ⟨r', e1.trans ⟨[d], rfl⟩, h1⟩
    · have e : reduceLoop (names.reverse ++ [u]) (d :: rest) = reduceLoop ((names ++ [d]).reverse ++ [u]) rest := by
        rw [List.reverse_append, List.append_assoc]
        exact (reduceLoop_push [d] _ rest (by simp [hd]))
      rw [e]
      rcases ih (names ++ [d]) (by
        intro x hx; rcases List.mem_append.mp hx with hx | hx
        · exact h x hx
        · simp at hx; subst hx; exact hd) with ⟨n', e1, h1⟩ | ⟨r', e1, h1⟩
      · left; refine ⟨n', e1, fun x hx => ⟨(h1 x hx).1, ?_⟩⟩
        rcases (h1 x hx).2 with h2 | h2
        · rcases List.mem_append.mp h2 with h2 | h2
          · exact Or.inl h2
          · right; simp at h2; simp [h2]
        · right; simp [h2]
      · right; exact ⟨r', e1.trans ⟨[d], rfl⟩, h1⟩

theorem urlHead_ne (u : Bytes) (h : isUrlHead u) : u ≠ pDotDot ∧ u ≠ pDot := by
  obtain ⟨w, _, rfl⟩ := h
  constructor
  · intro hc
    have := congrArg List.getLast? hc
    simp [pDotDot] at this
  · intro hc
    have := congrArg List.getLast? hc
    simp [pDot] at this

theorem reduce_plain (rel : Bool) (l : List Bytes) (h : ∀ d ∈ l, plain d ∧ d ≠ pDot) :
    normalForm rel (if rel ∧ reduceLoop [] l = [] then [pDot] else reduceLoop [] l) := by
  obtain ⟨k, ns, e, hh⟩ := reduceLoop_form l 0 [] (by simp)
  simp only [List.reverse_nil, List.replicate_zero, List.append_nil] at e
  rw [e]
  split
  · rename_i hc; left; exact ⟨hc.1, rfl⟩
  · rename_i hc
    right; left
    refine ⟨fun hr hn => hc ⟨hr, hn⟩, k, ns, rfl, ?_⟩
    intro d hd
    obtain ⟨h1, h2⟩ := hh d hd
    have h2 : d ∈ l := by simpa using h2
    obtain ⟨⟨h3, h4⟩, h5⟩ := h d h2
    exact ⟨h3, h4, h5, h1⟩

theorem pathReduce_normal (rel : Bool) (l : List Bytes) (h : GoodSplit l) : normalForm rel (pathReduce rel l) := by
  unfold pathReduce
  simp only
  split
  · rename_i hc; left; exact ⟨hc.1, rfl⟩
  · rename_i hc
    rcases h with h | ⟨u, t, rfl, hu, ht⟩
    · apply reduce_plain
      intro d hd
      simp only [List.mem_filter, decide_eq_true_eq] at hd
      exact ⟨h d hd.1, hd.2⟩
    · have hu' := urlHead_ne u hu
      have e : (u :: t).filter (· ≠ pDot) = u :: t.filter (· ≠ pDot) := by
        rw [List.filter_cons_of_pos (by simp [hu'.2])]
      rw [e]
      have htf : ∀ d ∈ t.filter (· ≠ pDot), plain d ∧ d ≠ pDot := by
        intro d hd
        simp only [List.mem_filter, decide_eq_true_eq] at hd
        exact ⟨ht d hd.1, hd.2⟩
      have e1 : reduceLoop [] (u :: t.filter (· ≠ pDot)) = reduceLoop ([].reverse ++ [u]) (t.filter (· ≠ pDot)) := by
        rw [reduceLoop]; rfl
      rw [e1]
      rcases reduceLoop_bottom u hu'.1 (t.filter (· ≠ pDot)) [] (by simp) with ⟨n', e2, h2⟩ | ⟨r', e2, h2⟩
      · rw [e2, if_neg (by simp)]
        right; right
        refine ⟨u, n', hu, rfl, ?_⟩
        intro d hd
        obtain ⟨h3, h4⟩ := h2 d hd
        have h4 : d ∈ t.filter (· ≠ pDot) := by simpa using h4
        obtain ⟨⟨h5, h6⟩, h7⟩ := htf d h4
        exact ⟨h5, h6, h7, h3⟩
      · rw [h2]
        exact reduce_plain rel r' (fun d hd => htf d (e2.subset hd))

theorem filter_names (l : List Bytes) (h : ∀ d ∈ l, d ≠ pDot) : l.filter (· ≠ pDot) = l := by
  rw [List.filter_eq_self]
  intro d hd; simp [h d hd]

theorem pathReduce_fix (rel : Bool) (l : List Bytes) (h : normalForm rel l) : pathReduce rel l = l := by
  rcases h with ⟨h1, rfl⟩ | ⟨h0, k, ns, rfl, hn⟩ | ⟨u, ns, hu, rfl, hn⟩
  · subst h1; rfl
  · have hf : (List.replicate k ([46, 46] : Bytes) ++ ns).filter (· ≠ pDot) = List.replicate k [46, 46] ++ ns := by
      apply filter_names
      intro d hd
      rcases List.mem_append.mp hd with hd | hd
      · rw [(List.mem_replicate.mp hd).2]; decide
      · exact (hn d hd).2.2.1
    unfold pathReduce
    simp only [hf]
    have hfix := reduceLoop_fix k ns (fun d hd => (hn d hd).2.2.2)
    rw [show (pDotDot : Bytes) = [46, 46] from rfl] at hfix
    rw [hfix]
    have : ¬ (rel = true ∧ List.replicate k ([46, 46] : Bytes) ++ ns = []) := fun hc => h0 hc.1 hc.2
    rw [if_neg this, if_neg this]
  · have hu' := urlHead_ne u hu
    have hf : (u :: ns).filter (· ≠ pDot) = u :: ns := by
      apply filter_names
      intro d hd
      rcases List.mem_cons.mp hd with rfl | hd
      · exact hu'.2
      · exact (hn d hd).2.2.1
    unfold pathReduce
    simp only [hf]
    have hfix := reduceLoop_fix 0 (u :: ns) (by
      intro d hd
      rcases List.mem_cons.mp hd with rfl | hd
      · exact hu'.1
      · exact (hn d hd).2.2.2)
    simp only [List.replicate_zero, List.nil_append] at hfix
    rw [hfix]
    simp

/-! ### split of a displayed path -/

theorem splitLoop_part (agg : Bytes) (d : Bytes) (hd : (47 : UInt8) ∉ d) : ∀ sp part rest,
    pathSplitLoop agg sp part (d ++ 47 :: rest) = pathSplitLoop agg (splitPart agg sp (part ++ d)) [] rest := by
  induction d with
  | nil => intro sp part rest; rw [List.nil_append, pathSplitLoop, if_pos rfl, List.append_nil]
  | cons c d ih =>
    intro sp part rest
    rw [List.cons_append, pathSplitLoop, if_neg (by rintro rfl; simp at hd), ih (fun h => hd (by simp [h]))]
    simp

theorem splitLoop_end (agg : Bytes) (d : Bytes) (hd : (47 : UInt8) ∉ d) : ∀ sp part, part ++ d ≠ [] →
    pathSplitLoop agg sp part d = sp ++ [part ++ d] := by
  induction d with
  | nil => intro sp part h; rw [pathSplitLoop, if_neg (by simpa using h), List.append_nil]
  | cons c d ih =>
    intro sp part _
    rw [pathSplitLoop, if_neg (by rintro rfl; simp at hd), ih (fun h => hd (by simp [h])) _ _ (by simp)]
    simp

theorem splitLoop_join (agg : Bytes) (l : List Bytes) : ∀ sp, sp ≠ [] → (∀ d ∈ l, plain d) →
    pathSplitLoop agg sp [] (joinSlash l) = sp ++ l := by
  induction l with
  | nil => intro sp _ _; simp [joinSlash, pathSplitLoop]
  | cons d l ih =>
    intro sp hsp h
    have hd := h d (by simp)
    cases l with
    | nil => simp only [joinSlash]; rw [splitLoop_end agg d hd.2 sp [] (by simpa using hd.1)]; simp
    | cons e l =>
      rw [joinSlash, splitLoop_part agg d hd.2]
      · have hs : splitPart agg sp ([] ++ d) = sp ++ [d] := by
          unfold splitPart
          rw [List.nil_append, if_neg hd.1, if_neg (by simp [hsp])]
        rw [hs, ih (sp ++ [d]) (by simp) (fun x hx => h x (by simp [hx]))]
        simp
      · simp

theorem joinSlash_head (d : Bytes) (l : List Bytes) (hd : plain d) : ∃ c r, joinSlash (d :: l) = c :: r ∧ c ≠ 47 := by
  cases d with
  | nil => exact absurd rfl hd.1
  | cons c d =>
    have hc : c ≠ 47 := by rintro rfl; exact hd.2 (by simp)
    cases l with
    | nil => exact ⟨c, d, rfl, hc⟩
    | cons e l => exact ⟨c, d ++ 47 :: joinSlash (e :: l), rfl, hc⟩

theorem split_join_plain (l : List Bytes) (h : ∀ d ∈ l, plain d) : pathSplit (joinSlash l) = l := by
  unfold pathSplit
  cases l with
  | nil => simp [joinSlash, pathSplitLoop]
  | cons d l =>
    have hd := h d (by simp)
    cases l with
    | nil => simp only [joinSlash]; rw [splitLoop_end _ d hd.2 [] [] (by simpa using hd.1)]; simp
    | cons e l =>
      obtain ⟨c, r, hj, hc⟩ := joinSlash_head e l (h e (by simp))
      have hagg : joinSlash (d :: e :: l) = d ++ 47 :: joinSlash (e :: l) := by rw [joinSlash]; simp
      rw [hagg, splitLoop_part _ d hd.2]
      have hs : splitPart (d ++ 47 :: joinSlash (e :: l)) [] ([] ++ d) = [d] := by
        unfold splitPart
        rw [List.nil_append, if_neg hd.1, if_neg]
        · rfl
        · rintro ⟨_, _, _, _, h5⟩
          rw [hj, List.getElem?_append_right (by omega), Nat.add_sub_cancel_left] at h5
          simp at h5
          exact hc h5
      rw [hs, splitLoop_join _ (e :: l) [d] (by simp) (fun x hx => h x (by simp [hx]))]
      rfl

theorem split_join_url (u : Bytes) (l : List Bytes) (hu : isUrlHead u) (hne : l ≠ []) (h : ∀ d ∈ l, plain d) :
    pathSplit (joinSlash (u :: l)) = u :: l := by
  obtain ⟨w, hw, rfl⟩ := hu
  cases l with
  | nil => exact absurd rfl hne
  | cons e l =>
    have hagg : joinSlash ((w ++ [58, 47]) :: e :: l) = (w ++ [58]) ++ 47 :: ([] ++ 47 :: joinSlash (e :: l)) := by
      rw [joinSlash] <;> simp
    have hnm : (47 : UInt8) ∉ w ++ [58] := by simp [hw]
    unfold pathSplit
    rw [hagg, splitLoop_part _ _ hnm, splitLoop_part _ _ (by simp)]
    have hs : splitPart ((w ++ [58]) ++ 47 :: ([] ++ 47 :: joinSlash (e :: l))) [] ([] ++ (w ++ [58])) = [w ++ [58, 47]] := by
      unfold splitPart
      rw [List.nil_append, if_neg (by simp), if_pos]
      · simp
      · refine ⟨by simp, ?_, rfl, by simp; omega, ?_⟩
        · cases w with
          | nil => simp
          | cons c w => simp only [List.cons_append, List.head?_cons, ne_eq, Option.some.injEq]; rintro rfl; exact hw (by simp)
        · rw [List.getElem?_append_right (by omega), Nat.add_sub_cancel_left]; rfl
    rw [hs]
    have hs2 : splitPart ((w ++ [58]) ++ 47 :: ([] ++ 47 :: joinSlash (e :: l))) [w ++ [58, 47]] ([] ++ []) = [w ++ [58, 47]] := by
      unfold splitPart; rw [if_pos (by simp)]
    rw [hs2, splitLoop_join _ (e :: l) _ (by simp) h]
    rfl

end Dar
