import Verif.Spec.Attributes
import Verif.Props.DbStorage
import Verif.Props.Datetime
/- C47: extended attributes and filesystem specific attributes. -/
namespace Dar

/-! ### extended attributes -/

theorem strLt_irrefl : ∀ a : Bytes, strLt a a = false
  | [] => rfl
  | a :: l => by simp [strLt, strLt_irrefl l]
theorem strLt_trans : ∀ a b c : Bytes, strLt a b = true → strLt b c = true → strLt a c = true
  | _, _, [], _, h => by cases ‹Bytes› <;> simp [strLt] at h
  | _, [], _ :: _, h, _ => by simp [strLt] at h
  | [], _ :: _, _ :: _, _, _ => rfl
  | a :: l, b :: m, c :: n, h1, h2 => by
    simp only [strLt, Bool.or_eq_true, Bool.and_eq_true, decide_eq_true_eq] at h1 h2 ⊢
    rcases h1 with h1 | ⟨rfl, h1⟩
    · rcases h2 with h2 | ⟨rfl, h2⟩
      · left; omega
      · left; exact h1
    · rcases h2 with h2 | ⟨rfl, h2⟩
      · left; exact h2
      · right; exact ⟨rfl, strLt_trans l m n h1 h2⟩
theorem strLt_total : ∀ a b : Bytes, a ≠ b → strLt a b = false → strLt b a = true
  | [], [], h, _ => absurd rfl h
  | [], _ :: _, _, h => by simp [strLt] at h
  | _ :: _, [], _, _ => rfl
  | a :: l, b :: m, h, h1 => by
    simp only [strLt, Bool.or_eq_false_iff, Bool.and_eq_false_iff, Bool.or_eq_true, Bool.and_eq_true, decide_eq_true_eq, decide_eq_false_iff_not] at h1 ⊢
    by_cases hab : a = b
    · subst hab
      right
      refine ⟨rfl, strLt_total l m (fun h2 => h (by rw [h2])) ?_⟩
      rcases h1.2 with h2 | h2
      · exact absurd rfl h2
      · exact h2
    · left
      have : a.toNat ≠ b.toNat := fun h2 => hab (UInt8.toNat_inj.1 h2)
      omega

/-- the keys are in increasing order -/
def EaSorted (m : EaMap) : Prop := m.Pairwise (fun p q => strLt p.1 q.1 = true)

theorem eaAdd_mem (m : EaMap) (k v : Bytes) (p : Bytes × Bytes) (h : p ∈ eaAdd m k v) : p = (k, v) ∨ p ∈ m := by
  induction m with
  | nil => left; simpa [eaAdd] using h
  | cons q m ih =>
    obtain ⟨k', v'⟩ := q
    unfold eaAdd at h
    split at h
    · rcases List.mem_cons.1 h with h | h
      · exact Or.inl h
      · exact Or.inr (List.mem_cons_of_mem _ h)
    · split at h
      · rcases List.mem_cons.1 h with h | h
        · exact Or.inl h
        · exact Or.inr h
      · rcases List.mem_cons.1 h with h | h
        · exact Or.inr (h ▸ List.mem_cons_self)
        · rcases ih h with h | h
          · exact Or.inl h
          · exact Or.inr (List.mem_cons_of_mem _ h)

theorem eaAdd_sorted (m : EaMap) (k v : Bytes) (h : EaSorted m) : EaSorted (eaAdd m k v) := by
  induction m with
  | nil => simp [eaAdd, EaSorted]
  | cons q m ih =>
    obtain ⟨k', v'⟩ := q
    unfold EaSorted at h
    rw [List.pairwise_cons] at h
    unfold eaAdd
    split
    · next hk =>
      subst hk
      exact List.pairwise_cons.2 h
    · next hk =>
      split
      · next hlt =>
        refine List.pairwise_cons.2 ⟨fun p hp => ?_, List.pairwise_cons.2 h⟩
        rcases List.mem_cons.1 hp with rfl | hp
        · exact hlt
        · exact strLt_trans _ _ _ hlt (h.1 p hp)
      · next hlt =>
        refine List.pairwise_cons.2 ⟨fun p hp => ?_, ih h.2⟩
        rcases eaAdd_mem m k v p hp with rfl | hp
        · exact strLt_total k k' hk (by simpa using hlt)
        · exact h.1 p hp

theorem eaFind_add (m : EaMap) (k v j : Bytes) : eaFind (eaAdd m k v) j = if j = k then some v else eaFind m j := by
  induction m with
  | nil => simp [eaAdd, eaFind]
  | cons q m ih =>
    obtain ⟨k', v'⟩ := q
    unfold eaAdd
    split
    · next hk =>
      subst hk
      simp only [eaFind]
      split <;> rfl
    · next hk =>
      split
      · simp only [eaFind]
      · simp only [eaFind, ih]
        by_cases h1 : j = k'
        · subst h1
          have : ¬ j = k := fun h => hk h.symm
          simp [this]
        · simp [h1]

theorem eaFold_find (l : List (Bytes × Bytes)) (m : EaMap) (j : Bytes) :
    eaFind (l.foldl (fun m p => eaAdd m p.1 p.2) m) j = l.foldl (fun r p => if p.1 = j then some p.2 else r) (eaFind m j) := by
  induction l generalizing m with
  | nil => rfl
  | cons p l ih =>
    rw [List.foldl_cons, List.foldl_cons, ih, eaFind_add]
    by_cases h : j = p.1
    · rw [if_pos h, if_pos h.symm]
    · rw [if_neg h, if_neg (fun h2 => h h2.symm)]

theorem eaFold_sorted (l : List (Bytes × Bytes)) (m : EaMap) (h : EaSorted m) : EaSorted (l.foldl (fun m p => eaAdd m p.1 p.2) m) := by
  induction l generalizing m with
  | nil => exact h
  | cons p l ih => exact ih _ (eaAdd_sorted m p.1 p.2 h)

/-- C47: after any sequence of assignments each attribute has the value it was given last, and those never assigned are absent. -/
theorem C47_ea_find (l : List (Bytes × Bytes)) (k : Bytes) : eaFind (l.foldl (fun m p => eaAdd m p.1 p.2) []) k = lastValue l k := eaFold_find l [] k

theorem eaAdd_last (m : EaMap) (k v : Bytes) (h : ∀ p ∈ m, strLt p.1 k = true) : eaAdd m k v = m ++ [(k, v)] := by
  induction m with
  | nil => rfl
  | cons q m ih =>
    obtain ⟨k', v'⟩ := q
    have h1 : strLt k' k = true := h _ List.mem_cons_self
    unfold eaAdd
    rw [if_neg, if_neg, ih (fun p hp => h p (List.mem_cons_of_mem _ hp))]
    · rfl
    · intro h2
      have := strLt_trans _ _ _ h1 h2
      rw [strLt_irrefl] at this; cases this
    · intro h2
      rw [h2, strLt_irrefl] at h1; cases h1

theorem eaFold_self (l m : EaMap) (h : EaSorted (m ++ l)) : l.foldl (fun m p => eaAdd m p.1 p.2) m = m ++ l := by
  induction l generalizing m with
  | nil => simp
  | cons p l ih =>
    rw [List.foldl_cons, eaAdd_last]
    · rw [ih]
      · simp
      · simpa using h
    · intro q hq
      unfold EaSorted at h
      rw [List.pairwise_append] at h
      exact h.2.2 q hq p List.mem_cons_self

/-- C47: the set of extended attributes obtained by any sequence of assignments (names without the byte 0), once dumped, is read back identically, whatever follows in the file. -/
theorem C47_ea_round_trip (l : List (Bytes × Bytes)) (hn : ∀ p ∈ l, (0 : UInt8) ∉ p.1) (ver : ArchVer) (hv : ver.lt ⟨5, 0⟩ = false) :
    let m := l.foldl (fun m p => eaAdd m p.1 p.2) []
    ReadsAs (eaRead ver) (eaDump m) m := by
  intro m
  have hs : EaSorted m := eaFold_sorted l [] List.Pairwise.nil
  have hm : ∀ p ∈ m, (0 : UInt8) ∉ p.1 := by
    have : ∀ (l : List (Bytes × Bytes)) (m : EaMap), (∀ p ∈ l, (0 : UInt8) ∉ p.1) → (∀ p ∈ m, (0 : UInt8) ∉ p.1) → ∀ p ∈ l.foldl (fun m p => eaAdd m p.1 p.2) m, (0 : UInt8) ∉ p.1 := by
      intro l
      induction l with
      | nil => exact fun m _ h => h
      | cons q l ih =>
        intro m h1 h2
        refine ih _ (fun p hp => h1 p (List.mem_cons_of_mem _ hp)) (fun p hp => ?_)
        rcases eaAdd_mem m _ _ p hp with rfl | hp
        · exact h1 _ List.mem_cons_self
        · exact h2 p hp
    exact this l [] hn (by intro p h; cases h)
  unfold eaRead eaDump
  refine ReadsAs.bind (getInt_putInt _) ?_
  refine ReadsAs.bind_pure (ReadsAs.readList eaPair m fun p hp => ?_) ?_
  · unfold eaReadPair eaPair
    rw [hv, if_neg (by intro h; cases h)]
    have : ∀ b : Bytes, b = [] ++ b := fun _ => rfl
    rw [this (putStr p.1 ++ _)]
    refine ReadsAs.bind (ReadsAs.pure []) ?_
    refine ReadsAs.bind (getStr_putStr _ (hm p hp)) ?_
    refine ReadsAs.bind (getInt_putInt _) ?_
    refine ReadsAs.bind_pure (a := p.2) ?_ rfl
    intro rest
    unfold getStrSize
    rw [if_pos (by simp), List.take_left, List.drop_left]
  · rw [eaFold_self m [] hs]
    rfl

/-- C47: `a + b` has the attributes of both, those of b taking precedence. -/
theorem C47_ea_plus (la lb : List (Bytes × Bytes)) (k : Bytes) :
    let a := la.foldl (fun m p => eaAdd m p.1 p.2) []
    let b := lb.foldl (fun m p => eaAdd m p.1 p.2) []
    eaFind (eaPlus a b) k = (match eaFind b k with | some v => some v | none => eaFind a k) := by
  intro a b
  have hb : EaSorted b := eaFold_sorted lb [] List.Pairwise.nil
  have key : ∀ (b : EaMap), EaSorted b → ∀ r : Option Bytes, b.foldl (fun r p => if p.1 = k then some p.2 else r) r = (match eaFind b k with | some v => some v | none => r) := by
    intro b
    induction b with
    | nil => intro _ r; rfl
    | cons p b ih =>
      intro h r
      obtain ⟨k', v'⟩ := p
      unfold EaSorted at h
      rw [List.pairwise_cons] at h
      rw [List.foldl_cons, ih h.2]
      simp only [eaFind]
      by_cases hk : k = k'
      · subst hk
        simp only [if_true]
        have hnone : ∀ b : EaMap, (∀ q ∈ b, strLt k q.1 = true) → eaFind b k = none := by
          intro b
          induction b with
          | nil => intro _; rfl
          | cons q b ih2 =>
            intro h2
            obtain ⟨k2, v2⟩ := q
            simp only [eaFind]
            rw [if_neg, ih2 (fun q hq => h2 q (List.mem_cons_of_mem _ hq))]
            intro h3
            have := h2 (k2, v2) List.mem_cons_self
            simp only at this
            rw [← h3, strLt_irrefl] at this; cases this
        rw [hnone b h.1]
      · have hk' : ¬ k' = k := fun h => hk h.symm
        simp only [if_neg hk, if_neg hk']
  unfold eaPlus
  rw [eaFold_find, key b hb]

theorem eaFind_mem (m : EaMap) (h : EaSorted m) (p : Bytes × Bytes) : p ∈ m ↔ eaFind m p.1 = some p.2 := by
  induction m with
  | nil => simp [eaFind]
  | cons q m ih =>
    obtain ⟨k', v'⟩ := q
    unfold EaSorted at h
    rw [List.pairwise_cons] at h
    simp only [eaFind]
    by_cases hk : p.1 = k'
    · rw [if_pos hk, List.mem_cons]
      constructor
      · rintro (rfl | hp)
        · rfl
        · have := h.1 p hp
          rw [hk] at this
          simp only [strLt_irrefl] at this; cases this
      · intro h2
        left
        rw [Option.some.inj h2, ← hk]
    · rw [if_neg hk, List.mem_cons, ih h.2]
      constructor
      · rintro (rfl | hp)
        · exact absurd rfl hk
        · exact hp
      · exact Or.inr

/-- C47: comparing reports no difference exactly when each covered attribute of the first set is in the second one with the same value. -/
theorem C47_ea_diff (la : List (Bytes × Bytes)) (b : EaMap) (covered : Bytes → Bool) :
    let a := la.foldl (fun m p => eaAdd m p.1 p.2) []
    eaDiff a b covered = false ↔ ∀ k v, covered k = true → eaFind a k = some v → eaFind b k = some v := by
  intro a
  have ha : EaSorted a := eaFold_sorted la [] List.Pairwise.nil
  have key : ∀ a : EaMap, eaDiff a b covered = false ↔ ∀ p ∈ a, covered p.1 = true → eaFind b p.1 = some p.2 := by
    intro a
    induction a with
    | nil => simp [eaDiff]
    | cons p a ih =>
      obtain ⟨k, v⟩ := p
      unfold eaDiff
      by_cases h : covered k = true ∧ eaFind b k ≠ some v
      · rw [if_pos h]
        constructor
        · intro h2; cases h2
        · intro h2; exact absurd (h2 (k, v) List.mem_cons_self h.1) h.2
      · rw [if_neg h, ih, List.forall_mem_cons]
        constructor
        · intro h2
          refine ⟨fun h3 => ?_, h2⟩
          by_contra h4
          exact h ⟨h3, h4⟩
        · exact fun h2 => h2.2
  rw [key]
  constructor
  · intro h k v hc hf
    exact h (k, v) ((eaFind_mem a ha (k, v)).2 hf) hc
  · intro h p hp hc
    exact h p.1 p.2 hc ((eaFind_mem a ha p).1 hp)

/-- a case: "b" assigned twice, "a" once -/
theorem C47_ea_example : ([([98], [1]), ([97], [2]), ([98], [3, 0])] : List (Bytes × Bytes)).foldl (fun m p => eaAdd m p.1 p.2) [] = [([97], [2]), ([98], [3, 0])] := by decide

/-- C47, counterexample: when the file ends before the end of a value the reading never ends (tools_read_string_size, tools.cpp:218-239, does not check that something could be read). -/
theorem C47_truncated_counterexample : eaRead ⟨11, 0⟩ (putInt 1 ++ (putStr [97] ++ (putInt 5 ++ [1, 2]))) = .error .diverge := by
  unfold eaRead
  rw [bind_run, getInt_putInt 1]
  show (readList (eaReadPair ⟨11, 0⟩) 1 >>= _) _ = _
  rw [bind_run]
  have : readList (eaReadPair ⟨11, 0⟩) 1 (putStr [97] ++ (putInt 5 ++ [1, 2])) = .error .diverge := by
    unfold readList
    rw [bind_run]
    have h : eaReadPair ⟨11, 0⟩ (putStr [97] ++ (putInt 5 ++ [1, 2])) = .error .diverge := by
      unfold eaReadPair
      rw [if_neg (by decide), bind_run, pure_run]
      simp only
      rw [bind_run, getStr_putStr [97] (by decide)]
      simp only
      rw [bind_run, getInt_putInt 5]
      rfl
    rw [h]
  rw [this]


/-! ### filesystem specific attributes -/

/-- position in the order -/
def Fsa.key (x : Fsa) : Nat := x.fam.idx * 16 + x.nat.idx

theorem fam_inj (a b : FsaFam) (h : a.idx = b.idx) : a = b := by cases a <;> cases b <;> first | rfl | cases h
theorem nat_inj (a b : FsaNat) (h : a.idx = b.idx) : a = b := by cases a <;> cases b <;> first | rfl | cases h
theorem nat_lt (a : FsaNat) : a.idx < 16 := by cases a <;> decide
theorem same_key (a b : Fsa) : a.same b = true ↔ a.key = b.key := by
  unfold Fsa.same Fsa.key
  rw [decide_eq_true_eq]
  constructor
  · rintro ⟨h1, h2⟩; rw [h1, h2]
  · intro h
    have h1 := nat_lt a.nat
    have h2 := nat_lt b.nat
    exact ⟨fam_inj _ _ (by omega), nat_inj _ _ (by omega)⟩
theorem lt_key (a b : Fsa) : a.lt b = true ↔ a.key < b.key := by
  unfold Fsa.lt Fsa.key
  rw [decide_eq_true_eq]
  have h1 := nat_lt a.nat
  have h2 := nat_lt b.nat
  omega
theorem sameType_key (a b : Fsa) : SameType a b ↔ a.key = b.key := by
  rw [← same_key]; unfold Fsa.same SameType; rw [decide_eq_true_eq]
theorem fsaSet_key (t : List Fsa) : FsaSet t ↔ t.Pairwise (fun a b => a.key < b.key) := by
  unfold FsaSet
  constructor <;> intro h <;> refine h.imp ?_ <;> intro a b h <;> unfold Fsa.key at *
  · have h1 := nat_lt a.nat
    rcases h with h | ⟨h, h2⟩
    · omega
    · rw [h]; omega
  · have h1 := nat_lt a.nat
    have h2 := nat_lt b.nat
    by_cases hf : a.fam.idx < b.fam.idx
    · exact Or.inl hf
    · exact Or.inr ⟨fam_inj _ _ (by omega), by omega⟩

theorem fsaLoop_spec (t : List Fsa) (x : Fsa) : ∀ (fuel mn mx : Nat), mx - mn ≤ fuel → mn < mx → mx ≤ t.length →
    (∀ i y, i < mn → t[i]? = some y → y.key < x.key) → (∀ i y, mx ≤ i → t[i]? = some y → x.key < y.key) → t.Pairwise (fun a b => a.key < b.key) →
    ∃ a b j, fsaSearchLoop t x fuel mn mx = .ok (a, b, j) ∧
      ((∃ y, t[j]? = some y ∧ y.key = x.key ∧ a ≤ j ∧ (b - a = 0 → a = j)) ∨
       (a = b ∧ a ≤ t.length ∧ (∀ i y, i < a → t[i]? = some y → y.key < x.key) ∧ (∀ i y, a ≤ i → t[i]? = some y → x.key < y.key)))
  | 0, mn, mx, h1, h2, _, _, _, _ => by omega
  | fuel + 1, mn, mx, h1, h2, h3, hl, hg, hs => by
    have hj : (mn + mx) / 2 < t.length := by omega
    unfold fsaSearchLoop
    dsimp only
    rw [List.getElem?_eq_getElem hj]
    generalize hy : t[(mn + mx) / 2] = y
    have hget : t[(mn + mx) / 2]? = some y := by rw [List.getElem?_eq_getElem hj, hy]
    dsimp only
    have ord : ∀ (i k : Nat) (a b : Fsa), i < k → t[i]? = some a → t[k]? = some b → a.key < b.key := by
      intro i k a b hik ha hb
      obtain ⟨hi, rfl⟩ := List.getElem?_eq_some_iff.1 ha
      obtain ⟨hk, rfl⟩ := List.getElem?_eq_some_iff.1 hb
      exact List.pairwise_iff_getElem.1 hs i k hi hk hik
    by_cases hlt : y.lt x = true
    · have hk := (lt_key y x).1 hlt
      have hns : y.same x = false := by
        cases h : y.same x with
        | false => rfl
        | true => have := (same_key y x).1 h; omega
      rw [if_pos hlt, if_pos hlt, hns]
      have hl' : ∀ i z, i < (mn + mx) / 2 + 1 → t[i]? = some z → z.key < x.key := by
        intro i z hi hz
        by_cases he : i = (mn + mx) / 2
        · subst he; rw [hget] at hz; cases hz; exact hk
        · have := ord i _ z y (by omega) hz hget; omega
      by_cases hc : mx - ((mn + mx) / 2 + 1) > 0
      · rw [if_pos (by simp [hc])]
        exact fsaLoop_spec t x fuel _ mx (by omega) (by omega) h3 hl' hg hs
      · rw [if_neg (by simp [hc])]
        exact ⟨_, _, _, rfl, Or.inr ⟨by omega, by omega, hl', fun i z hi hz => hg i z (by omega) hz⟩⟩
    · have hk : x.key ≤ y.key := by
        by_contra hc; exact hlt ((lt_key y x).2 (by omega))
      rw [if_neg hlt, if_neg hlt]
      by_cases hsm : y.same x = true
      · rw [hsm]
        exact ⟨_, _, _, rfl, Or.inl ⟨y, hget, (same_key y x).1 hsm, by omega, by omega⟩⟩
      · have hne : y.key ≠ x.key := fun h => hsm ((same_key y x).2 h)
        have hg' : ∀ i z, (mn + mx) / 2 ≤ i → t[i]? = some z → x.key < z.key := by
          intro i z hi hz
          by_cases he : i = (mn + mx) / 2
          · subst he; rw [hget] at hz; cases hz; omega
          · have := ord _ i y z (by omega) hget hz; omega
        have hns : y.same x = false := by simpa using hsm
        rw [hns]
        by_cases hc : (mn + mx) / 2 - mn > 0
        · rw [if_pos (by simp [hc])]
          exact fsaLoop_spec t x fuel mn _ (by omega) (by omega) (by omega) hl hg' hs
        · rw [if_neg (by simp [hc])]
          exact ⟨_, _, _, rfl, Or.inr ⟨by omega, by omega, hl, fun i z hi hz => hg' i z (by omega) hz⟩⟩

/-- the binary search finds the element of the same type, or the place where to put it -/
theorem fsaSearch_spec (t : List Fsa) (x : Fsa) (hs : t.Pairwise (fun a b => a.key < b.key)) :
    (∃ j y, fsaSearch t x = .ok (true, j) ∧ t[j]? = some y ∧ y.key = x.key) ∨
    (∃ j, fsaSearch t x = .ok (false, j) ∧ j ≤ t.length ∧ (∀ i y, i < j → t[i]? = some y → y.key < x.key) ∧ (∀ i y, j ≤ i → t[i]? = some y → x.key < y.key)) := by
  unfold fsaSearch
  by_cases h0 : t = []
  · subst h0
    right
    refine ⟨0, by simp, by simp, fun i y h => by omega, fun i y h h2 => by simp at h2⟩
  · rw [if_neg h0]
    have hlen : 0 < t.length := List.length_pos_iff.2 h0
    obtain ⟨a, b, j, hr, hc⟩ := fsaLoop_spec t x t.length 0 t.length (by omega) hlen le_rfl (by intro i y h; omega)
      (by intro i y h h2; rw [List.getElem?_eq_none h] at h2; cases h2) hs
    rw [hr]
    dsimp only
    rcases hc with ⟨y, h1, h2, h3, h4⟩ | ⟨h1, h2, h3, h4⟩
    · have hj : j < t.length := by
        by_contra hc
        rw [List.getElem?_eq_none (by omega)] at h1; cases h1
      have hidx : (if b - a = 0 then a else j) = j := by
        split
        · next h => exact h4 h
        · rfl
      rw [hidx, if_pos (by omega), h1]
      left
      exact ⟨j, y, by simp only [(same_key y x).2 h2], h1, h2⟩
    · right
      subst h1
      rw [if_pos (show a - a = 0 by omega)]
      by_cases hlt : a < t.length
      · rw [if_pos hlt, List.getElem?_eq_getElem hlt]
        have := h4 a _ le_rfl (List.getElem?_eq_getElem hlt)
        refine ⟨a, ?_, h2, h3, h4⟩
        have hns : (t[a]).same x = false := by
          cases h : (t[a]).same x with
          | false => rfl
          | true => have := (same_key _ x).1 h; omega
        simp only [hns]
      · rw [if_neg hlt]
        exact ⟨a, rfl, h2, h3, h4⟩

theorem fsaPlace_last (t : List Fsa) (x : Fsa) (h : ∀ y ∈ t, y.key < x.key) : fsaPlace x t = t ++ [x] := by
  induction t with
  | nil => rfl
  | cons y t ih =>
    unfold fsaPlace
    rw [if_neg, ih (fun z hz => h z (List.mem_cons_of_mem _ hz))]
    · rfl
    · intro h2
      have := (lt_key x y).1 h2
      have := h y List.mem_cons_self
      omega

/-- a sorted list is not changed by the sort -/
theorem fsaSort_self (t : List Fsa) (hs : t.Pairwise (fun a b => a.key < b.key)) : fsaSort t = t := by
  have : ∀ l r : List Fsa, (r ++ l).Pairwise (fun a b => a.key < b.key) → l.foldl (fun r x => fsaPlace x r) r = r ++ l := by
    intro l
    induction l with
    | nil => intro r _; simp
    | cons x l ih =>
      intro r h
      rw [List.foldl_cons, fsaPlace_last, ih]
      · simp
      · simpa using h
      · intro y hy
        rw [List.pairwise_append] at h
        exact h.2.2 y hy x List.mem_cons_self
  exact this t [] hs

theorem key_unique {t : List Fsa} (hs : t.Pairwise (fun a b => a.key < b.key)) {a b : Fsa} (ha : a ∈ t) (hb : b ∈ t) (h : a.key = b.key) : a = b := by
  obtain ⟨i, hi, rfl⟩ := List.getElem_of_mem ha
  obtain ⟨j, hj, rfl⟩ := List.getElem_of_mem hb
  rcases lt_trichotomy i j with hij | rfl | hij
  · have := List.pairwise_iff_getElem.1 hs i j hi hj hij; omega
  · rfl
  · have := List.pairwise_iff_getElem.1 hs j i hj hi hij; omega

theorem fsaPrivAdd_spec (t : List Fsa) (x : Fsa) (hs : t.Pairwise (fun a b => a.key < b.key)) :
    ∃ t', fsaPrivAdd t x = .ok t' ∧ t'.Pairwise (fun a b => a.key < b.key) ∧ ∀ y, y ∈ t' ↔ y = x ∨ (y ∈ t ∧ y.key ≠ x.key) := by
  unfold fsaPrivAdd
  rcases fsaSearch_spec t x hs with ⟨j, y, h1, h2, h3⟩ | ⟨j, h1, h2, h3, h4⟩
  · rw [h1]
    obtain ⟨hj, hy⟩ := List.getElem?_eq_some_iff.1 h2
    refine ⟨_, rfl, ?_, ?_⟩
    · simp only [if_true]
      rw [List.pairwise_iff_getElem]
      intro a b ha hb hab
      simp only [List.length_set] at ha hb
      have hkey : ∀ i (hi : i < (t.set j x).length), (t.set j x)[i].key = (t[i]'(by simpa using hi)).key := by
        intro i hi
        rw [List.getElem_set]
        split
        · next h => subst h; rw [hy]; exact h3.symm
        · rfl
      rw [hkey, hkey]
      exact List.pairwise_iff_getElem.1 hs a b ha hb hab
    · intro z
      simp only [if_true]
      rw [List.mem_iff_getElem]
      constructor
      · rintro ⟨i, hi, hz⟩
        rw [List.getElem_set] at hz
        split at hz
        · exact Or.inl hz.symm
        · next hne =>
          right
          simp only [List.length_set] at hi
          subst hz
          refine ⟨List.getElem_mem _, fun h5 => ?_⟩
          rw [← h3, ← hy] at h5
          rcases lt_trichotomy i j with hij | hij | hij
          · have := List.pairwise_iff_getElem.1 hs i j hi hj hij; omega
          · exact hne hij.symm
          · have := List.pairwise_iff_getElem.1 hs j i hj hi hij; omega
      · rintro (rfl | ⟨hz, hne⟩)
        · exact ⟨j, by simpa using hj, by simp⟩
        · obtain ⟨i, hi, rfl⟩ := List.getElem_of_mem hz
          refine ⟨i, by simpa using hi, ?_⟩
          rw [List.getElem_set, if_neg]
          intro h
          subst h
          rw [hy] at hne
          exact hne h3
  · rw [h1]
    refine ⟨_, rfl, ?_, ?_⟩
    · simp only [Bool.false_eq_true, if_false]
      have htake : ∀ y ∈ t.take j, y.key < x.key := by
        intro y hy
        obtain ⟨i, hi, rfl⟩ := List.getElem_of_mem hy
        rw [List.length_take] at hi
        rw [List.getElem_take]
        exact h3 i _ (by omega) (List.getElem?_eq_getElem (by omega))
      have hdrop : ∀ y ∈ t.drop j, x.key < y.key := by
        intro y hy
        obtain ⟨i, hi, rfl⟩ := List.getElem_of_mem hy
        rw [List.length_drop] at hi
        rw [List.getElem_drop]
        exact h4 (j + i) _ (by omega) (List.getElem?_eq_getElem (by omega))
      rw [List.pairwise_append]
      refine ⟨hs.sublist (List.take_sublist j t), List.pairwise_cons.2 ⟨hdrop, hs.sublist (List.drop_sublist j t)⟩, fun a ha b hb => ?_⟩
      rcases List.mem_cons.1 hb with rfl | hb
      · exact htake a ha
      · have := htake a ha
        have := hdrop b hb
        omega
    · intro z
      simp only [Bool.false_eq_true, if_false, List.mem_append, List.mem_cons]
      have hmem : z ∈ t ↔ z ∈ t.take j ∨ z ∈ t.drop j := by rw [← List.mem_append, List.take_append_drop]
      have hne : z ∈ t → z.key ≠ x.key := by
        intro hz
        obtain ⟨i, hi, rfl⟩ := List.getElem_of_mem hz
        by_cases hij : i < j
        · have := h3 i _ hij (List.getElem?_eq_getElem hi); omega
        · have := h4 i _ (by omega) (List.getElem?_eq_getElem hi); omega
      constructor
      · rintro (h | h | h)
        · exact Or.inr ⟨hmem.2 (Or.inl h), hne (hmem.2 (Or.inl h))⟩
        · exact Or.inl h
        · exact Or.inr ⟨hmem.2 (Or.inr h), hne (hmem.2 (Or.inr h))⟩
      · rintro (h | ⟨h, _⟩)
        · exact Or.inr (Or.inl h)
        · rcases hmem.1 h with h | h
          · exact Or.inl h
          · exact Or.inr (Or.inr h)

/-- C47: adding an attribute to a set replaces the one of the same type, if any, and keeps the others. -/
theorem C47_fsa_add (t : List Fsa) (x : Fsa) (h : FsaSet t) : ∃ t', fsaAdd t x = .ok t' ∧ FsaSet t' ∧ ∀ y, y ∈ t' ↔ y = x ∨ (y ∈ t ∧ ¬ SameType y x) := by
  obtain ⟨t', h1, h2, h3⟩ := fsaPrivAdd_spec t x ((fsaSet_key t).1 h)
  refine ⟨t', ?_, (fsaSet_key t').2 h2, fun y => ?_⟩
  · unfold fsaAdd
    rw [h1]
    show Except.ok (fsaSort t') = _
    rw [fsaSort_self t' h2]
  · rw [h3, sameType_key]

/-- C47: `a + b` has the attributes of b, and those of a of other types. -/
theorem C47_fsa_plus (a b : List Fsa) (ha : FsaSet a) (hb : FsaSet b) : ∃ t, fsaPlus a b = .ok t ∧ FsaSet t ∧ ∀ y, y ∈ t ↔ y ∈ b ∨ (y ∈ a ∧ ∀ z ∈ b, ¬ SameType y z) := by
  have key : ∀ (b a : List Fsa), a.Pairwise (fun a b => a.key < b.key) → b.Pairwise (fun a b => a.key < b.key) →
      ∃ t, fsaAddAll a b = .ok t ∧ t.Pairwise (fun a b => a.key < b.key) ∧ ∀ y, y ∈ t ↔ y ∈ b ∨ (y ∈ a ∧ ∀ z ∈ b, y.key ≠ z.key) := by
    intro b
    induction b with
    | nil => exact fun a ha _ => ⟨a, rfl, ha, fun y => by simp⟩
    | cons x b ih =>
      intro a ha hb
      rw [List.pairwise_cons] at hb
      obtain ⟨a', h1, h2, h3⟩ := fsaPrivAdd_spec a x ha
      obtain ⟨t, h4, h5, h6⟩ := ih a' h2 hb.2
      refine ⟨t, ?_, h5, fun y => ?_⟩
      · unfold fsaAddAll; rw [h1]; exact h4
      · rw [h6, h3, List.mem_cons, List.forall_mem_cons]
        constructor
        · rintro (h | ⟨rfl | ⟨h, h7⟩, h8⟩)
          · exact Or.inl (Or.inr h)
          · exact Or.inl (Or.inl rfl)
          · exact Or.inr ⟨h, h7, h8⟩
        · rintro ((rfl | h) | ⟨h, h7, h8⟩)
          · exact Or.inr ⟨Or.inl rfl, fun z hz => by have := hb.1 z hz; omega⟩
          · exact Or.inl h
          · exact Or.inr ⟨Or.inr ⟨h, h7⟩, h8⟩
  obtain ⟨t, h1, h2, h3⟩ := key b a ((fsaSet_key a).1 ha) ((fsaSet_key b).1 hb)
  refine ⟨t, ?_, (fsaSet_key t).2 h2, fun y => ?_⟩
  · unfold fsaPlus
    rw [h1]
    show Except.ok (fsaSort t) = _
    rw [fsaSort_self t h2]
  · rw [h3]
    simp only [sameType_key, ne_eq]

/-- C47: looking for an attribute of a given type gives the one of the set, and nothing when there is none. -/
theorem C47_fsa_find (t : List Fsa) (h : FsaSet t) (fam : FsaFam) (nat : FsaNat) :
    (∃ y, fsaFind t fam nat = .ok (some y) ∧ y ∈ t ∧ y.fam = fam ∧ y.nat = nat) ∨ (fsaFind t fam nat = .ok none ∧ ∀ y ∈ t, ¬ (y.fam = fam ∧ y.nat = nat)) := by
  have hk : ∀ y : Fsa, (y.fam = fam ∧ y.nat = nat) ↔ y.key = (⟨fam, nat, .bool true⟩ : Fsa).key := fun y => sameType_key y ⟨fam, nat, .bool true⟩
  unfold fsaFind
  rcases fsaSearch_spec t ⟨fam, nat, .bool true⟩ ((fsaSet_key t).1 h) with ⟨j, y, h1, h2, h3⟩ | ⟨j, h1, h2, h3, h4⟩
  · left
    refine ⟨y, ?_, List.mem_of_getElem? h2, ((hk y).2 h3).1, ((hk y).2 h3).2⟩
    rw [h1]
    show (match t[j]? with | none => Except.error Err.ub | some y => Except.ok (some y)) = _
    rw [h2]
  · right
    refine ⟨by rw [h1]; rfl, fun y hy hc => ?_⟩
    have hc := (hk y).1 hc
    obtain ⟨i, hi, rfl⟩ := List.getElem_of_mem hy
    by_cases hij : i < j
    · have := h3 i _ hij (List.getElem?_eq_getElem hi); omega
    · have := h4 i _ (by omega) (List.getElem?_eq_getElem hi); omega

theorem sigFam_back (f : FsaFam) : sigToFam f.sig = .ok f := by cases f <;> rfl
theorem sigNat_back (n : FsaNat) : sigToNat n.sig.1 n.sig.2 = .ok n := by cases n <;> simp [sigToNat, FsaNat.sig]

theorem fsaOne_reads (x : Fsa) (ht : x.Typed) (ver : ArchVer) (hv : ver.lt ⟨9, 0⟩ = false) : ∃ b, x.dump = .ok b ∧ ReadsAs (fsaReadOne ver) b x := by
  obtain ⟨fam, nat, val⟩ := x
  have hval : ∃ b, val.dump = .ok b ∧ ReadsAs (fsaReadVal ver nat) b val := by
    unfold Fsa.Typed at ht
    cases val with
    | bool v =>
      simp only at ht
      refine ⟨_, rfl, ?_⟩
      have : fsaReadVal ver nat = fsaReadBool := by
        unfold fsaReadVal
        split
        · exact absurd rfl ht
        · rfl
      rw [this]
      unfold fsaReadBool
      refine ReadsAs.bind_pure (ReadsAs.readByte _) ?_
      cases v <;> simp
    | time d =>
      obtain ⟨h1, h2⟩ := ht
      simp only at h1
      subst h1
      obtain ⟨b, h3, h4⟩ := C22_storage d h2 ver hv
      refine ⟨b, h3, ?_⟩
      unfold fsaReadVal
      exact ReadsAs.bind_pure h4 rfl
  obtain ⟨b, h1, h2⟩ := hval
  refine ⟨[fam.sig] ++ ([] ++ ([nat.sig.1, nat.sig.2] ++ ([] ++ b))), ?_, ?_⟩
  · unfold Fsa.dump
    simp only
    rw [h1]
    rfl
  · unfold fsaReadOne
    refine ReadsAs.bind (ReadsAs.readByte _) ?_
    refine ReadsAs.bind (a := fam) (fun rest => by rw [sigFam_back]; rfl) ?_
    refine ReadsAs.bind (ReadsAs.readExact _ 2 rfl) ?_
    refine ReadsAs.bind (a := nat) (fun rest => ?_) ?_
    · show Reader.lift (sigToNat nat.sig.1 nat.sig.2) _ = _
      rw [sigNat_back]; rfl
    · exact ReadsAs.bind_pure h2 rfl

/-- C47: a set of filesystem specific attributes is stored and read back identically, whatever follows in the file. -/
theorem C47_fsa_round_trip (t : List Fsa) (h : FsaSet t) (ht : ∀ x ∈ t, x.Typed) (ver : ArchVer) (hv : ver.lt ⟨9, 0⟩ = false) :
    ∃ b, fsaDump t = .ok b ∧ ReadsAs (fsaRead ver) b t := by
  have key : ∀ t : List Fsa, (∀ x ∈ t, x.Typed) → ∃ b, fsaDumpAll t = .ok b ∧ ReadsAs (readList (fsaReadOne ver) t.length) b t := by
    intro t
    induction t with
    | nil => exact fun _ => ⟨[], rfl, ReadsAs.pure []⟩
    | cons x t ih =>
      intro ht
      obtain ⟨a, h1, h2⟩ := fsaOne_reads x (ht x List.mem_cons_self) ver hv
      obtain ⟨b, h3, h4⟩ := ih (fun y hy => ht y (List.mem_cons_of_mem _ hy))
      refine ⟨a ++ b, ?_, ?_⟩
      · unfold fsaDumpAll; rw [h1, h3]; rfl
      · unfold readList
        exact ReadsAs.bind h2 (ReadsAs.bind_pure h4 rfl)
  obtain ⟨b, h1, h2⟩ := key t ht
  refine ⟨putInt t.length ++ b, by unfold fsaDump; rw [h1]; rfl, ?_⟩
  unfold fsaRead
  refine ReadsAs.bind (getInt_putInt _) (ReadsAs.bind_pure h2 ?_)
  rw [fsaSort_self t ((fsaSet_key t).1 h)]

/-- C47: the set of families recorded for an inode is read back. -/
theorem C47_scope (s : FsaFam → Bool) : intToScope (scopeToInt s) = s := by
  funext f
  cases h1 : s .hfs <;> cases h2 : s .extX <;> cases f <;> simp [intToScope, scopeToInt, h1, h2]

theorem fsa_eq (a b : Fsa) (ha : a.Typed) (hb : b.Typed) : a.eq b = true ↔ a = b := by
  unfold Fsa.eq
  rw [Bool.and_eq_true]
  have hs : a.same b = true ↔ a.fam = b.fam ∧ a.nat = b.nat := by unfold Fsa.same; rw [decide_eq_true_eq]
  rw [hs]
  obtain ⟨af, an, av⟩ := a
  obtain ⟨bf, bn, bv⟩ := b
  cases av with
  | bool x =>
    cases bv with
    | bool y => simp [and_assoc]
    | time y => simp
  | time x =>
    cases bv with
    | bool y => simp
    | time y =>
      have h := C22_eq_same x y ha.2 hb.2
      have h2 := C22_eq x y ha.2 hb.2
      simp only [h2, h, Fsa.mk.injEq, FsaVal.time.injEq, and_assoc]

theorem skipLess_spec (x : Fsa) : ∀ (l r : List Fsa), fsaSkipLess x l = .ok r → ∃ d, l = d ++ r ∧ (∀ y ∈ d, y.key < x.key) ∧ (∀ z r', r = z :: r' → x.key ≤ z.key) ∧ (l ≠ [] → r ≠ [])
  | [], r, h => by cases h; exact ⟨[], rfl, by simp, by simp, by simp⟩
  | y :: l, r, h => by
    unfold fsaSkipLess at h
    by_cases hlt : y.lt x = true
    · rw [if_pos hlt] at h
      by_cases hl : l = []
      · rw [if_pos hl] at h; cases h
      · rw [if_neg hl] at h
        obtain ⟨d, h1, h2, h3, h4⟩ := skipLess_spec x l r h
        refine ⟨y :: d, by rw [h1]; rfl, fun z hz => ?_, h3, fun _ => h4 hl⟩
        rcases List.mem_cons.1 hz with rfl | hz
        · exact (lt_key _ x).1 hlt
        · exact h2 z hz
    · rw [if_neg hlt] at h
      cases h
      refine ⟨[], rfl, by simp, fun z r' hz => ?_, fun h => h⟩
      cases hz
      by_contra hc
      exact hlt ((lt_key _ x).2 (by omega))

/-- C47: whether a set is included in another one, restricted to some families: when the comparison ends normally and the other set is not empty, the answer is yes exactly when each
attribute of these families is in the other set with the same value. -/
theorem C47_fsa_included_partial (scope : FsaFam → Bool) (a b : List Fsa) (ha : FsaSet a) (hb : FsaSet b) (hta : ∀ x ∈ a, x.Typed) (htb : ∀ x ∈ b, x.Typed) (hne : b ≠ []) (r : Bool)
    (h : fsaIncluded scope a b = .ok r) : r = true ↔ ∀ x ∈ a, scope x.fam = true → x ∈ b := by
  have key : ∀ (a b : List Fsa) (r : Bool), a.Pairwise (fun a b => a.key < b.key) → b.Pairwise (fun a b => a.key < b.key) → (∀ x ∈ a, x.Typed) → (∀ x ∈ b, x.Typed) → b ≠ [] →
      fsaIncluded scope a b = .ok r → (r = true ↔ ∀ x ∈ a, scope x.fam = true → x ∈ b) := by
    intro a
    induction a with
    | nil => intro b r _ _ _ _ _ h; cases b <;> (cases h; simp)
    | cons x a ih =>
      intro b r ha hb hta htb hne h
      rw [List.pairwise_cons] at ha
      cases b with
      | nil => exact absurd rfl hne
      | cons y b =>
        unfold fsaIncluded at h
        rw [List.forall_mem_cons]
        by_cases hs : scope x.fam = true
        · rw [if_pos hs] at h
          cases hsk : fsaSkipLess x (y :: b) with
          | error e => rw [hsk] at h; cases h
          | ok l =>
            rw [hsk] at h
            obtain ⟨d, h1, h2, h3, h4⟩ := skipLess_spec x _ _ hsk
            cases l with
            | nil => exact absurd rfl (h4 (by simp))
            | cons z l =>
              have h5 : x.key ≤ z.key := h3 z l rfl
              have hzb : (z :: l).Pairwise (fun a b => a.key < b.key) := by
                rw [h1] at hb; exact (List.pairwise_append.1 hb).2.1
              have htz : z.Typed := htb z (by rw [h1]; simp)
              have htx : x.Typed := hta x List.mem_cons_self
              have hiff : x ∈ y :: b ↔ z = x := by
                rw [h1, List.mem_append, List.mem_cons]
                constructor
                · rintro (h6 | rfl | h6)
                  · have := h2 x h6; omega
                  · rfl
                  · have := (List.pairwise_cons.1 hzb).1 x h6; omega
                · rintro rfl; exact Or.inr (Or.inl rfl)
              replace h : (if z.eq x = true then fsaIncluded scope a (z :: l) else .ok false) = .ok r := h
              by_cases hzx : z.eq x = true
              · rw [if_pos hzx] at h
                have hzx := (fsa_eq z x htz htx).1 hzx
                rw [ih (z :: l) r ha.2 hzb (fun w hw => hta w (List.mem_cons_of_mem _ hw)) (fun w hw => htb w (by rw [h1]; exact List.mem_append_right _ hw)) (by simp) h]
                constructor
                · intro h6
                  exact ⟨fun _ => hiff.2 hzx, fun w hw hsw => by rw [h1]; exact List.mem_append_right _ (h6 w hw hsw)⟩
                · intro h6 w hw hsw
                  have h7 := h6.2 w hw hsw
                  rw [h1, List.mem_append] at h7
                  rcases h7 with h7 | h7
                  · have := h2 w h7
                    have := ha.1 w hw
                    omega
                  · exact h7
              · rw [if_neg hzx] at h
                cases h
                constructor
                · intro h6; cases h6
                · intro h6
                  exact absurd ((fsa_eq z x htz htx).2 (hiff.1 (h6.1 hs))) hzx
        · rw [if_neg hs] at h
          rw [ih (y :: b) r ha.2 hb (fun w hw => hta w (List.mem_cons_of_mem _ hw)) htb hne h]
          constructor
          · exact fun h6 => ⟨fun h7 => absurd h7 hs, h6⟩
          · exact fun h6 => h6.2
  exact key a b r ((fsaSet_key a).1 ha) ((fsaSet_key b).1 hb) hta htb hne h

/-- C47, counterexample: with an empty second set the answer is no even if no attribute of the families considered is present, filesystem_specific_attribute.cpp:171-187. -/
theorem C47_fsa_scope_counterexample : fsaIncluded (fun f => decide (f = .hfs)) [⟨.extX, .immutable, .bool true⟩] [] = .ok false := rfl
/-- C47, counterexample: an attribute that comes after all those of the second set makes the comparison read beyond the end of the list, filesystem_specific_attribute.cpp:190-195. -/
theorem C47_fsa_end_counterexample : fsaIncluded (fun _ => true) [⟨.extX, .immutable, .bool true⟩] [⟨.extX, .noDump, .bool true⟩] = .error .ub := by decide

/-- a case meeting the hypotheses -/
theorem C47_fsa_example : FsaSet [⟨.hfs, .creationDate, .time ⟨5, .s⟩⟩, ⟨.extX, .noDump, .bool true⟩, ⟨.extX, .immutable, .bool false⟩] ∧
    (∀ x ∈ ([⟨.hfs, .creationDate, .time ⟨5, .s⟩⟩, ⟨.extX, .noDump, .bool true⟩, ⟨.extX, .immutable, .bool false⟩] : List Fsa), x.Typed) ∧
    fsaAdd [⟨.hfs, .creationDate, .time ⟨5, .s⟩⟩, ⟨.extX, .noDump, .bool true⟩, ⟨.extX, .immutable, .bool false⟩] ⟨.extX, .noDump, .bool false⟩ =
      .ok [⟨.hfs, .creationDate, .time ⟨5, .s⟩⟩, ⟨.extX, .noDump, .bool false⟩, ⟨.extX, .immutable, .bool false⟩] ∧
    fsaIncluded (fun _ => true) [⟨.extX, .noDump, .bool true⟩] [⟨.hfs, .creationDate, .time ⟨5, .s⟩⟩, ⟨.extX, .noDump, .bool true⟩] = .ok true := by
  refine ⟨by simp [FsaSet, FsaFam.idx, FsaNat.idx], ?_, by decide, by decide⟩
  intro x hx
  simp only [List.mem_cons, List.not_mem_nil, or_false] at hx
  rcases hx with rfl | rfl | rfl
  · exact ⟨rfl, by simp [DateT.Canonical]⟩
  · simp [Fsa.Typed]
  · simp [Fsa.Typed]

/-- the size of a set of extended attributes is the number of bytes of their names and values -/
theorem C47_ea_space (m : EaMap) : eaSpace m = (m.flatMap (fun p => p.1 ++ p.2)).length := by
  have key : ∀ (m : EaMap) (n : Nat), m.foldl (fun n p => n + (p.1.length + p.2.length)) n = n + (m.flatMap (fun p => p.1 ++ p.2)).length := by
    intro m
    induction m with
    | nil => intro n; rfl
    | cons p m ih => intro n; rw [List.foldl_cons, ih, List.flatMap_cons, List.length_append, List.length_append]; omega
  have := key m 0
  rw [Nat.zero_add] at this
  exact this

/-- an extended attribute as archives before the format 5 hold it: a byte whose highest bit tells that it is in the domain "system" (otherwise "user"), the name in this domain, the value -/
def oldEaBytes (x : Bool × Bytes × Bytes) : Bytes := [if x.1 then 0x80 else 0] ++ (putStr x.2.1 ++ (putInt x.2.2.length ++ x.2.2))
/-- its full name -/
def oldEaName (x : Bool × Bytes × Bytes) : Bytes := (if x.1 then "system." else "user.").toUTF8.data.toList ++ x.2.1

theorem oldEa_reads (x : Bool × Bytes × Bytes) (hn : (0 : UInt8) ∉ x.2.1) (ver : ArchVer) (hv : ver.lt ⟨5, 0⟩ = true) :
    ReadsAs (eaReadPair ver) (oldEaBytes x) (oldEaName x, x.2.2) := by
  obtain ⟨sys, k, v⟩ := x
  unfold eaReadPair oldEaBytes oldEaName
  have hp : ReadsAs (if ver.lt ⟨5, 0⟩ = true then (do
      let fl ← readByte
      pure (if fl.toNat / 128 % 2 = 1 then eaSystem else eaUser) : Reader Bytes)
      else pure []) [if sys then 0x80 else 0] (if sys then eaSystem else eaUser) := by
    rw [if_pos hv]
    have := ReadsAs.bind (e1 := [if sys then 0x80 else 0]) (e2 := []) (f := fun fl : UInt8 => (pure (if fl.toNat / 128 % 2 = 1 then eaSystem else eaUser) : Reader Bytes))
      (ReadsAs.readByte (if sys then 0x80 else 0)) (ReadsAs.pure _)
    rw [List.append_nil] at this
    cases sys <;> exact this
  refine ReadsAs.bind hp ?_
  refine ReadsAs.bind (getStr_putStr k hn) ?_
  refine ReadsAs.bind (getInt_putInt v.length) ?_
  refine ReadsAs.bind_pure (a := v) (fun rest => ?_) ?_
  · unfold getStrSize
    rw [if_pos (by simp), List.take_left, List.drop_left]
  · cases sys <;> rfl

/-- **C47**: the extended attributes of an archive made before the format 5 are read with the full name of each. -/
theorem C47_ea_old (l : List (Bool × Bytes × Bytes)) (hn : ∀ x ∈ l, (0 : UInt8) ∉ x.2.1) (ver : ArchVer) (hv : ver.lt ⟨5, 0⟩ = true) :
    ∃ m, ReadsAs (eaRead ver) (putInt l.length ++ l.flatMap oldEaBytes) m ∧ ∀ k, eaFind m k = lastValue (l.map (fun x => (oldEaName x, x.2.2))) k := by
  refine ⟨(l.map (fun x => (oldEaName x, x.2.2))).foldl (fun m p => eaAdd m p.1 p.2) [], ?_, fun k => C47_ea_find _ k⟩
  unfold eaRead
  refine ReadsAs.bind (getInt_putInt l.length) ?_
  have h : ReadsAs (readList (eaReadPair ver) l.length) (l.flatMap oldEaBytes) (l.map (fun x => (oldEaName x, x.2.2))) := by
    induction l with
    | nil => exact ReadsAs.pure _
    | cons x l ih =>
      have h1 := ReadsAs.bind (oldEa_reads x (hn x List.mem_cons_self) ver hv)
        (f := fun a => (do let l ← readList (eaReadPair ver) l.length; pure (a :: l) : Reader (List (Bytes × Bytes))))
        (ReadsAs.bind_pure (ih (fun y hy => hn y (List.mem_cons_of_mem _ hy))) rfl)
      exact h1
  have := ReadsAs.bind (e2 := []) (f := fun l => (pure (l.foldl (fun m p => eaAdd m p.1 p.2) []) : Reader EaMap)) h (ReadsAs.pure _)
  rwa [List.append_nil] at this

/-- **C47**: the immutable flag of a set of attributes is the value of this attribute, false when the set does not have it. -/
theorem C47_immutable (t : List Fsa) (h : FsaSet t) (ht : ∀ x ∈ t, x.Typed) :
    ∃ b, fsaImmutable t = .ok b ∧ (b = true ↔ (⟨.extX, .immutable, .bool true⟩ : Fsa) ∈ t) := by
  unfold fsaImmutable
  rcases C47_fsa_find t h .extX .immutable with ⟨y, h1, h2, h3, h4⟩ | ⟨h1, h2⟩
  · rw [h1]
    obtain ⟨fam, nat, val⟩ := y
    simp only at h3 h4
    subst h3; subst h4
    have hty := ht _ h2
    cases val with
    | time d => simp [Fsa.Typed] at hty
    | bool b =>
      refine ⟨b, rfl, ?_⟩
      constructor
      · intro hb; subst hb; exact h2
      · intro hm
        have huniq : ∀ (t : List Fsa), FsaSet t → ∀ a ∈ t, ∀ b ∈ t, a.fam = b.fam → a.nat = b.nat → a = b := by
          intro t hp
          induction t with
          | nil => intro a ha; cases ha
          | cons z t ih =>
            have hp' := List.pairwise_cons.mp hp
            intro a ha b hb hf hn
            rcases List.mem_cons.mp ha with rfl | ha' <;> rcases List.mem_cons.mp hb with rfl | hb'
            · rfl
            · have := hp'.1 b hb'; rw [hf, hn] at this; omega
            · have := hp'.1 a ha'; rw [hf, hn] at this; omega
            · exact ih hp'.2 a ha' b hb' hf hn
        have := huniq t h _ hm _ h2 rfl rfl
        simpa using this.symm
  · rw [h1]
    exact ⟨false, rfl, by simp; exact fun hm => h2 _ hm ⟨rfl, rfl⟩⟩

/-- a case -/
example : oldEaBytes (true, [97], [1, 2]) = [0x80, 97, 0] ++ putInt 2 ++ [1, 2] ∧ oldEaName (true, [97], [1, 2]) = [115, 121, 115, 116, 101, 109, 46, 97] := ⟨rfl, rfl⟩

end Dar
