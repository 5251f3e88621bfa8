import Verif.Spec.DatabaseTree
import Mathlib.Tactic.Ring
/- Lemmas on ordered maps and on the delta check. -/
namespace Dar


theorem get_put {α : Type} (m : SMap α) (k j : Nat) (v : α) : (SMap.put m k v).get j = if j = k then some v else m.get j := by
  induction m with
  | nil =>
    simp only [SMap.put, SMap.get]
    by_cases h : j = k
    · subst h; simp
    · rw [if_neg h, if_neg (fun h' => h h'.symm)]
  | cons q m ih =>
    obtain ⟨k', v'⟩ := q
    simp only [SMap.put]
    by_cases h1 : k < k'
    · rw [if_pos h1]
      simp only [SMap.get]
      by_cases h : j = k
      · subst h; simp
      · rw [if_neg h, if_neg (fun h' => h h'.symm)]
    · rw [if_neg h1]
      by_cases h2 : k = k'
      · rw [if_pos h2]
        subst h2
        simp only [SMap.get]
        by_cases h : j = k
        · subst h; simp
        · rw [if_neg h, if_neg (fun h' => h h'.symm), if_neg (fun h' => h h'.symm)]
      · rw [if_neg h2]
        simp only [SMap.get, ih]
        by_cases h3 : k' = j
        · subst h3; simp; exact fun h => absurd h.symm h2
        · rw [if_neg h3, if_neg h3]

theorem get_del {α : Type} (m : SMap α) (k j : Nat) : (SMap.del m k).get j = if j = k then none else m.get j := by
  induction m with
  | nil => simp [SMap.del, SMap.get]
  | cons q m ih =>
    obtain ⟨k', v'⟩ := q
    unfold SMap.del at ih ⊢
    by_cases h : k' = k
    · rw [List.filter_cons_of_neg (by simp [h]), ih]
      by_cases hj : j = k
      · simp [hj]
      · rw [if_neg hj, if_neg hj]
        simp only [SMap.get]
        rw [if_neg (fun h' => hj (h'.symm.trans h))]
    · rw [List.filter_cons_of_pos (by simp [h])]
      simp only [SMap.get, ih]
      by_cases hj : k' = j
      · subst hj; simp [h]
      · rw [if_neg hj, if_neg hj]

theorem sorted_del {α : Type} (m : SMap α) (k : Nat) (h : m.Sorted) : (SMap.del m k).Sorted := List.Pairwise.filter _ h

theorem mem_put {α : Type} (m : SMap α) (k : Nat) (v : α) (q : Nat × α) (h : q ∈ SMap.put m k v) : q = (k, v) ∨ q ∈ m := by
  induction m with
  | nil => simp [SMap.put] at h; exact Or.inl h
  | cons p m ih =>
    obtain ⟨k', v'⟩ := p
    simp only [SMap.put] at h
    split at h
    · simpa using h
    · split at h
      · simp only [List.mem_cons] at h
        rcases h with h | h
        · exact Or.inl h
        · exact Or.inr (by simp [h])
      · simp only [List.mem_cons] at h
        rcases h with h | h
        · exact Or.inr (by simp [h])
        · rcases ih h with h | h
          · exact Or.inl h
          · exact Or.inr (by simp [h])

theorem sorted_put {α : Type} (m : SMap α) (k : Nat) (v : α) (h : m.Sorted) : (SMap.put m k v).Sorted := by
  induction m with
  | nil => simp [SMap.put, SMap.Sorted]
  | cons p m ih =>
    obtain ⟨k', v'⟩ := p
    have hp := List.pairwise_cons.mp h
    simp only [SMap.put]
    split
    · rename_i hk
      refine List.pairwise_cons.mpr ⟨?_, h⟩
      intro q hq
      rcases List.mem_cons.mp hq with rfl | hq
      · exact hk
      · exact Nat.lt_trans hk (hp.1 q hq)
    · split
      · rename_i hk
        subst hk
        exact List.pairwise_cons.mpr ⟨hp.1, hp.2⟩
      · rename_i h1 h2
        refine List.pairwise_cons.mpr ⟨?_, ih hp.2⟩
        intro q hq
        rcases mem_put m k v q hq with rfl | hq
        · show k' < k; omega
        · exact hp.1 q hq

theorem get_mem {α : Type} (m : SMap α) (k : Nat) (v : α) (h : m.get k = some v) : (k, v) ∈ m := by
  induction m with
  | nil => simp [SMap.get] at h
  | cons p m ih =>
    obtain ⟨k', v'⟩ := p
    simp only [SMap.get] at h
    split at h
    · rename_i hk; subst hk; injection h with h; subst h; simp
    · simp [ih h]

theorem get_of_mem {α : Type} (m : SMap α) (hs : m.Sorted) (k : Nat) (v : α) (h : (k, v) ∈ m) : m.get k = some v := by
  induction m with
  | nil => simp at h
  | cons p m ih =>
    obtain ⟨k', v'⟩ := p
    have hp := List.pairwise_cons.mp hs
    simp only [SMap.get]
    rcases List.mem_cons.mp h with h | h
    · injection h with h1 h2; subst h1; subst h2; simp
    · have := hp.1 _ h
      simp only at this
      rw [if_neg (by omega)]; exact ih hp.2 h

/-- Two maps with the same content are the same. -/
theorem smap_ext {α : Type} : ∀ (m m' : SMap α), m.Sorted → m'.Sorted → (∀ k, m.get k = m'.get k) → m = m' := by
  intro m
  induction m with
  | nil =>
    intro m' _ _ h
    cases m' with
    | nil => rfl
    | cons p m' => obtain ⟨k, v⟩ := p; have := h k; simp [SMap.get] at this
  | cons p m ih =>
    obtain ⟨k, v⟩ := p
    intro m' hs hs' h
    cases m' with
    | nil => have := h k; simp [SMap.get] at this
    | cons p' m' =>
      obtain ⟨k', v'⟩ := p'
      have hp := List.pairwise_cons.mp hs
      have hp' := List.pairwise_cons.mp hs'
      have hk : k = k' := by
        have h1 := h k
        have h2 := h k'
        simp only [SMap.get, if_true] at h1 h2
        by_contra hne
        rw [if_neg (fun h => hne h.symm)] at h1
        rw [if_neg hne] at h2
        have m1 := get_mem _ _ _ h1.symm
        have m2 := get_mem _ _ _ h2
        have := hp'.1 _ m1
        have := hp.1 _ m2
        simp only at *
        omega
      subst hk
      have hv : v = v' := by have := h k; simpa [SMap.get] using this
      subst hv
      have : m = m' := by
        apply ih m' hp.2 hp'.2
        intro j
        by_cases hj : k = j
        · subst hj
          have n1 : SMap.get m k = none := by
            cases hg : SMap.get m k with
            | none => rfl
            | some w => have := hp.1 _ (get_mem _ _ _ hg); simp only at this; omega
          have n2 : SMap.get m' k = none := by
            cases hg : SMap.get m' k with
            | none => rfl
            | some w => have := hp'.1 _ (get_mem _ _ _ hg); simp only at this; omega
          rw [n1, n2]
        · have := h j
          simpa [SMap.get, hj] using this
      rw [this]

theorem reKey_sorted {α : Type} (f : Nat → Nat) (m : SMap α) : ∀ acc : SMap α, acc.Sorted → (reKey f m acc).Sorted := by
  induction m with
  | nil => intro acc h; exact h
  | cons p m ih => intro acc h; exact ih _ (sorted_put _ _ _ h)

theorem reKey_other {α : Type} (f : Nat → Nat) (m : SMap α) : ∀ (acc : SMap α) (j : Nat), (∀ p ∈ m, f p.1 ≠ j) →
    (reKey f m acc).get j = acc.get j := by
  induction m with
  | nil => intro acc j _; rfl
  | cons p m ih =>
    obtain ⟨k, v⟩ := p
    intro acc j h
    simp only [reKey]
    rw [ih _ j (fun q hq => h q (by simp [hq])), get_put, if_neg (fun hh => h (k, v) (by simp) hh.symm)]

/-- Rebuilding a map with other keys, when distinct keys stay distinct. -/
theorem reKey_get {α : Type} (f : Nat → Nat) (m : SMap α) (hs : m.Sorted)
    (hf : ∀ p ∈ m, ∀ q ∈ m, f p.1 = f q.1 → p.1 = q.1) : ∀ (acc : SMap α) (p : Nat × α), p ∈ m → (reKey f m acc).get (f p.1) = some p.2 := by
  induction m with
  | nil => intro acc p h; simp at h
  | cons q m ih =>
    obtain ⟨k, v⟩ := q
    have hp := List.pairwise_cons.mp hs
    intro acc p h
    simp only [reKey]
    rcases List.mem_cons.mp h with rfl | h
    · rw [reKey_other f m _ _ (fun q hq hh => by
        have := hf q (by simp [hq]) (k, v) (by simp) hh
        have := hp.1 q hq
        simp only at *
        omega), get_put, if_pos rfl]
    · exact ih hp.2 (fun p hp q hq => hf p (by simp [hp]) q (by simp [hq])) _ p h

theorem reKey_mem {α : Type} (f : Nat → Nat) (m : SMap α) (hs : m.Sorted)
    (hf : ∀ p ∈ m, ∀ q ∈ m, f p.1 = f q.1 → p.1 = q.1) (j : Nat) (v : α) (h : (reKey f m []).get j = some v) :
    ∃ k, f k = j ∧ m.get k = some v := by
  by_cases hj : ∀ p ∈ m, f p.1 ≠ j
  · rw [reKey_other f m [] j hj] at h; simp [SMap.get] at h
  · push Not at hj
    obtain ⟨p, hp, hpj⟩ := hj
    have := reKey_get f m hs hf [] p hp
    rw [hpj, h] at this
    injection this with this
    exact ⟨p.1, hpj, by rw [this]; exact get_of_mem m hs p.1 p.2 hp⟩

theorem dtPerm_inv (src dst x : Nat) : dtPerm dst src (dtPerm src dst x) = x := by
  unfold dtPerm
  split_ifs <;> omega

theorem dtPerm_inj (src dst x y : Nat) (h : dtPerm src dst x = dtPerm src dst y) : x = y := by
  have := congrArg (dtPerm dst src) h
  rwa [dtPerm_inv, dtPerm_inv] at this

theorem reKey_perm_undo {α : Type} (src dst : Nat) (m : SMap α) (hs : m.Sorted) :
    reKey (dtPerm dst src) (reKey (dtPerm src dst) m []) [] = m := by
  have hf : ∀ (a b : Nat) (m : SMap α), ∀ p ∈ m, ∀ q ∈ m, dtPerm a b p.1 = dtPerm a b q.1 → p.1 = q.1 :=
    fun a b m p _ q _ h => dtPerm_inj a b _ _ h
  have s1 := reKey_sorted (dtPerm src dst) m [] (by simp [SMap.Sorted])
  apply smap_ext _ _ (reKey_sorted _ _ _ (by simp [SMap.Sorted])) hs
  intro k
  cases hk : m.get k with
  | some v =>
    have h1 := reKey_get (dtPerm src dst) m hs (hf _ _ m) [] (k, v) (get_mem _ _ _ hk)
    have h2 := reKey_get (dtPerm dst src) _ s1 (hf _ _ _) [] _ (get_mem _ _ _ h1)
    simp only [dtPerm_inv] at h2
    exact h2
  | none =>
    cases h2 : (reKey (dtPerm dst src) (reKey (dtPerm src dst) m []) []).get k with
    | none => rfl
    | some v =>
      obtain ⟨k1, h3, h4⟩ := reKey_mem (dtPerm dst src) _ s1 (hf _ _ _) k v h2
      obtain ⟨k2, h5, h6⟩ := reKey_mem (dtPerm src dst) m hs (hf _ _ m) k1 v h4
      rw [← h5, dtPerm_inv] at h3
      subst h3
      rw [hk] at h6; cases h6

/-! ### What an archive recorded, apart from the usability of patches -/


/-- a map without the usability of patches -/
def coreMap (m : SMap StatP) : SMap StatP := m.map (fun p => (p.1, p.2.core))

theorem get_coreMap (m : SMap StatP) (k : Nat) : (coreMap m).get k = (m.get k).map StatP.core := by
  induction m with
  | nil => rfl
  | cons p m ih =>
    obtain ⟨k', v⟩ := p
    simp only [coreMap, List.map_cons, SMap.get] at ih ⊢
    split
    · rfl
    · exact ih

theorem sorted_coreMap (m : SMap StatP) : (coreMap m).Sorted ↔ m.Sorted := by
  unfold SMap.Sorted coreMap
  rw [List.pairwise_map]

theorem core_core (s : StatP) : s.core.core = s.core := by
  unfold StatP.core; cases s.present <;> rfl

theorem deltaStep_core (prev : Option Crc) (s : StatP) : deltaStep prev s.core = deltaStep prev s := by
  obtain ⟨d, p, b, r⟩ := s
  cases p <;> simp [deltaStep, StatP.core, Etat.norm]

theorem deltaStep_spec (prev : Option Crc) (s s' : StatP) (p' : Option Crc) (b : Bool) (h : deltaStep prev s = .ok (s', p', b)) :
    s'.core = s.core := by
  obtain ⟨d, p, ba, r⟩ := s
  cases p with
  | patch =>
    cases ba with
    | none => simp [deltaStep] at h
    | some c =>
      cases prev with
      | none => simp [deltaStep] at h; obtain ⟨rfl, _⟩ := h; rfl
      | some q =>
        simp only [deltaStep] at h
        cases he : q.eqv c with
        | error e => simp [he, bind, Except.bind] at h
        | ok bb => cases bb <;> simp [he, bind, Except.bind] at h <;> (obtain ⟨rfl, _⟩ := h; rfl)
  | patchUnusable =>
    cases ba with
    | none => simp [deltaStep] at h
    | some c =>
      cases prev with
      | none => simp [deltaStep] at h; obtain ⟨rfl, _⟩ := h; rfl
      | some q =>
        simp only [deltaStep] at h
        cases he : q.eqv c with
        | error e => simp [he, bind, Except.bind] at h
        | ok bb => cases bb <;> simp [he, bind, Except.bind] at h <;> (obtain ⟨rfl, _⟩ := h; rfl)
  | saved => simp [deltaStep] at h; obtain ⟨rfl, _⟩ := h; rfl
  | inode => simp [deltaStep] at h; obtain ⟨rfl, _⟩ := h; rfl
  | present => simp [deltaStep] at h; obtain ⟨rfl, _⟩ := h; rfl
  | removed => simp [deltaStep] at h; obtain ⟨rfl, _⟩ := h; rfl
  | absent => simp [deltaStep] at h; obtain ⟨rfl, _⟩ := h; rfl

theorem checkDelta_cons (prev : Option Crc) (n : Nat) (s : StatP) (m m' : SMap StatP) (h : checkDelta prev ((n, s) :: m) = .ok m') :
    ∃ s' p' b m1, deltaStep prev s = .ok (s', p', b) ∧ checkDelta p' m = .ok m1 ∧ m' = (n, s') :: m1 := by
  rw [checkDelta] at h
  cases hd : deltaStep prev s with
  | error e => rw [hd] at h; cases h
  | ok r =>
    obtain ⟨s', p', b⟩ := r
    rw [hd] at h
    change (checkDelta p' m >>= fun m' => Except.ok ((n, s') :: m')) = .ok m' at h
    cases hm : checkDelta p' m with
    | error e => rw [hm] at h; cases h
    | ok m1 => rw [hm] at h; injection h with h; exact ⟨s', p', b, m1, rfl, hm, h.symm⟩

/-- The delta check changes nothing but the usability of patches. -/
theorem checkDelta_core (m : SMap StatP) : ∀ (prev : Option Crc) (m' : SMap StatP), checkDelta prev m = .ok m' → coreMap m' = coreMap m := by
  induction m with
  | nil => intro prev m' h; simp [checkDelta] at h; subst h; rfl
  | cons p m ih =>
    obtain ⟨n, s⟩ := p
    intro prev m' h
    obtain ⟨s', p', b, m1, h1, h2, rfl⟩ := checkDelta_cons prev n s m m' h
    have := ih p' m1 h2
    simp only [coreMap, List.map_cons] at this ⊢
    rw [this, deltaStep_spec prev s s' p' b h1]

/-- The delta check does not depend on the previous usability of patches. -/
theorem checkDelta_of_core (m : SMap StatP) : ∀ (prev : Option Crc), checkDelta prev (coreMap m) = checkDelta prev m := by
  induction m with
  | nil => intro prev; rfl
  | cons p m ih =>
    obtain ⟨n, s⟩ := p
    intro prev
    show checkDelta prev ((n, s.core) :: coreMap m) = _
    rw [checkDelta, checkDelta, deltaStep_core]
    cases deltaStep prev s with
    | error e => rfl
    | ok r =>
      obtain ⟨s', p', b⟩ := r
      show (checkDelta p' (coreMap m) >>= fun m' => Except.ok ((n, s') :: m')) = (checkDelta p' m >>= fun m' => Except.ok ((n, s') :: m'))
      rw [ih]

theorem checkDelta_sorted (m m' : SMap StatP) (prev : Option Crc) (h : checkDelta prev m = .ok m') (hs : m.Sorted) : m'.Sorted := by
  rw [← sorted_coreMap, checkDelta_core m prev m' h, sorted_coreMap]; exact hs

theorem checkDelta_get (m m' : SMap StatP) (prev : Option Crc) (h : checkDelta prev m = .ok m') (k : Nat) :
    (m'.get k).map StatP.core = (m.get k).map StatP.core := by
  rw [← get_coreMap, ← get_coreMap, checkDelta_core m prev m' h]

theorem coreMap_put (m : SMap StatP) (k : Nat) (v : StatP) : coreMap (SMap.put m k v) = SMap.put (coreMap m) k v.core := by
  induction m with
  | nil => rfl
  | cons p m ih =>
    obtain ⟨k', v'⟩ := p
    simp only [coreMap, List.map_cons, SMap.put] at ih ⊢
    split
    · rfl
    · split
      · rfl
      · simp only [List.map_cons]; rw [ih]

theorem coreMap_reKey (f : Nat → Nat) (m : SMap StatP) : ∀ acc, coreMap (reKey f m acc) = reKey f (coreMap m) (coreMap acc) := by
  induction m with
  | nil => intro acc; rfl
  | cons p m ih =>
    obtain ⟨k, v⟩ := p
    intro acc
    show coreMap (reKey f m _) = reKey f ((k, v.core) :: coreMap m) _
    simp only [reKey]
    rw [ih, coreMap_put]

end Dar
