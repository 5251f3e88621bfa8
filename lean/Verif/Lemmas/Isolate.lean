import Verif.Spec.Isolate
namespace Dar

/-! ### what is stored shows the same -/

theorem FileB.shown_kept (st : SavedStatus) (dalgo : Compr) (f : FileB) : (f.kept false st dalgo).shown st = f.shown st := by
  unfold FileB.kept FileB.shown
  cases h : st.hasData <;> simp
  intro h2 h3
  exact absurd h3 h2
theorem Special.shown_kept (st : SavedStatus) (dalgo : Compr) (s : Special) : (s.kept false st dalgo).shown st = s.shown st := by
  by_cases h : st = .saved <;> cases s <;> simp [Special.kept, Special.shown, FileB.shown_kept, h]
theorem InodeB.kept_kept (i : InodeB) : (i.kept false).kept false = i.kept false := by
  unfold InodeB.kept
  by_cases h1 : i.ea = .full <;> by_cases h2 : i.fsa = .full <;> by_cases h3 : i.fsa = .none <;> simp [h1, h2, h3]
theorem Node.shown_kept (name : Bytes) (dalgo : Compr) (n : Node) : (n.kept false dalgo).shown name = n.shown name := by
  simp [Node.shown, Node.kept, InodeB.kept_kept, Special.shown_kept]

theorem sigShown_kept (data : Option Bytes) (dalgo : Compr) (n : Node) : sigShown data (n.kept false dalgo) = sigShown data n := by
  have hs : ∀ f : FileB, (f.kept false n.status dalgo).sig = f.sig.map DSig.kept := by
    intro f; unfold FileB.kept; cases n.status.hasData <;> rfl
  have hf : ∀ o : Option DSig, (o.map DSig.kept).map (fun d => (d.magic, d.result, if d.size ≠ 0 then some (sigFetch data d) else none)) =
      o.map fun d => (d.magic, d.result, if d.size ≠ 0 then some (sigFetch data d) else none) := by
    intro o
    cases o with
    | none => rfl
    | some d =>
      by_cases h0 : d.size = 0
      · simp [DSig.kept, h0]
      · simp [DSig.kept, h0]
  unfold sigShown Node.kept
  cases hn : n.special with
  | file f => simp only [Special.kept, hs, hf]
  | door f => simp only [Special.kept, hs, hf]
  | link t => rfl
  | chardev a b => by_cases h : n.status = .saved <;> simp [Special.kept, h]
  | blockdev a b => by_cases h : n.status = .saved <;> simp [Special.kept, h]
  | _ => rfl

/-! ### what is read back can be stored again -/

theorem InodeB.kept_writable (i : InodeB) (h : i.Writable false) : (i.kept false).Writable false := by
  obtain ⟨h1, h2, h3, h4, h5, h6, h7⟩ := h
  refine ⟨h1, h2, h3, h4, ?_, ?_, ?_⟩
  · intro he _
    have he' : i.ea = .full := he
    have := h5 he' rfl
    simp only [InodeB.kept, he', true_and, and_self, if_true]
    exact this
  · intro he
    have he' : i.fsa ≠ .none := he
    simp only [InodeB.kept, ne_eq, he', not_false_eq_true, if_true]
    exact h6 he'
  · intro he
    have he' : i.fsa = .full := he
    have := h7 he'
    simp only [InodeB.kept, he', true_and, and_self, if_true]
    exact ⟨this.1, fun _ => this.2 rfl⟩
theorem FileB.kept_writable (st : SavedStatus) (dalgo : Compr) (f : FileB) (h : f.Writable false st) : (f.kept false st dalgo).Writable false st := by
  obtain ⟨h1, h2, h3, h4, h5⟩ := h
  have hs : ∀ d, f.sig.map DSig.kept = some d → storedOpt d.result := by
    intro d hd
    cases hf : f.sig with
    | none => rw [hf] at hd; cases hd
    | some d0 =>
      rw [hf] at hd
      injection hd with hd
      subst hd
      exact h5 rfl d0 hf
  unfold FileB.kept
  cases hst : st.hasData with
  | true =>
    refine ⟨h1, (by intro h; cases h), ?_, fun _ _ => h4 hst rfl, fun _ => hs⟩
    intro hd
    have := h3 hd
    refine ⟨by simp only [Option.isSome_map]; exact this.1, ?_⟩
    simp only [hd, if_true]
    exact this.2
  | false =>
    refine ⟨.inl rfl, (by intro h; cases h), ?_, (by intro h; rw [hst] at h; cases h), fun _ => hs⟩
    intro hd
    rw [hd] at hst
    cases hst
theorem Special.kept_writable (st : SavedStatus) (dalgo : Compr) (s : Special) (h : s.Writable false st) : (s.kept false st dalgo).Writable false st := by
  cases s with
  | file f => exact FileB.kept_writable st dalgo f h
  | door f => exact FileB.kept_writable st dalgo f h
  | link t => simp only [Special.kept, Special.Writable] at h ⊢; split <;> simp_all
  | chardev a b => simp only [Special.kept, Special.Writable] at h; by_cases hs : st = .saved <;> simp [Special.kept, hs, Special.Writable, h]
  | blockdev a b => simp only [Special.kept, Special.Writable] at h; by_cases hs : st = .saved <;> simp [Special.kept, hs, Special.Writable, h]
  | pipe => trivial
  | socket => trivial
theorem Node.kept_writable (dalgo : Compr) (n : Node) (h : n.Writable false) : (n.kept false dalgo).Writable false :=
  ⟨h.name, InodeB.kept_writable _ h.inode, Special.kept_writable _ _ _ h.special⟩

/-! ### hard links -/

/-- the hard linked inodes of `stars` are the ones `l` leads to, each counted as many times as `l` leads to it -/
def LinksCounted (stars : Nat → Star) (l : List Entry) : Prop := ∀ k, (stars k).refs = Entry.linksToL k l ∧ (stars k).keep = false

mutual
theorem linksTo_kept (stars : Nat → Star) (hk : ∀ k, (stars k).keep = false) (dalgo : Compr) (k : Nat) (e : Entry) :
    Entry.linksTo k (Entry.kept stars dalgo e) = if (stars k).refs > 1 then Entry.linksTo k e else 0 := by
  cases e with
  | node n => simp [Entry.kept, Entry.linksTo]
  | dir name st i l => simp only [Entry.kept, Entry.linksTo]; exact linksToL_kept stars hk dalgo k l
  | detruit name s d => simp [Entry.kept, Entry.linksTo]
  | mirage name j =>
    simp only [Entry.kept, hk, Bool.false_eq_true, or_false]
    by_cases h : (stars j).refs > 1
    · rw [if_pos h]
      simp only [Entry.linksTo]
      by_cases hj : j = k
      · subst hj; rw [if_pos h]
      · simp [hj]
    · rw [if_neg h]
      simp only [Entry.linksTo]
      by_cases hj : j = k
      · subst hj; rw [if_neg h]
      · simp [hj]
  | ignored name => simp [Entry.kept, Entry.linksTo]
theorem linksToL_kept (stars : Nat → Star) (hk : ∀ k, (stars k).keep = false) (dalgo : Compr) (k : Nat) (l : List Entry) :
    Entry.linksToL k (Entry.keptList stars dalgo l) = if (stars k).refs > 1 then Entry.linksToL k l else 0 := by
  cases l with
  | nil => simp [Entry.keptList, Entry.linksToL]
  | cons e l =>
    have h1 := linksToL_kept stars hk dalgo k l
    have h2 := linksTo_kept stars hk dalgo k e
    cases e with
    | ignored name => simp only [Entry.keptList, Entry.linksToL, h1, Entry.linksTo]; split <;> omega
    | _ => simp only [Entry.keptList, Entry.linksToL, h1, h2]; split <;> omega
end

mutual
theorem labels_mono (stars : Nat → Star) (acc : List Nat) (k : Nat) (e : Entry) (h : k ∈ acc) : k ∈ Entry.labels stars acc e := by
  cases e with
  | dir name st i l => simp only [Entry.labels]; exact labelsList_mono stars acc k l h
  | mirage name j =>
    simp only [Entry.labels]
    split
    · split
      · exact h
      · exact List.mem_cons_of_mem _ h
    · exact h
  | _ => simpa only [Entry.labels] using h
theorem labelsList_mono (stars : Nat → Star) (acc : List Nat) (k : Nat) (l : List Entry) (h : k ∈ acc) : k ∈ Entry.labelsList stars acc l := by
  cases l with
  | nil => simpa only [Entry.labelsList] using h
  | cons e l => simp only [Entry.labelsList]; exact labelsList_mono stars _ k l (labels_mono stars acc k e h)
end
mutual
theorem labels_link (stars : Nat → Star) (acc : List Nat) (k : Nat) (hr : (stars k).refs > 1) (e : Entry) (h : Entry.linksTo k e ≠ 0) : k ∈ Entry.labels stars acc e := by
  cases e with
  | dir name st i l => simp only [Entry.labels, Entry.linksTo] at h ⊢; exact labelsList_link stars acc k hr l h
  | mirage name j =>
    simp only [Entry.linksTo] at h
    have hj : j = k := by by_contra hj; simp [hj] at h
    subst hj
    simp only [Entry.labels, hr, true_or, if_true]
    split
    · assumption
    · simp
  | _ => simp [Entry.linksTo] at h
theorem labelsList_link (stars : Nat → Star) (acc : List Nat) (k : Nat) (hr : (stars k).refs > 1) (l : List Entry) (h : Entry.linksToL k l ≠ 0) :
    k ∈ Entry.labelsList stars acc l := by
  cases l with
  | nil => simp [Entry.linksToL] at h
  | cons e l =>
    simp only [Entry.labelsList]
    by_cases h1 : Entry.linksTo k e = 0
    · refine labelsList_link stars _ k hr l ?_
      intro h2
      simp [Entry.linksToL, h1, h2] at h
    · exact labelsList_mono stars _ k l (labels_link stars acc k hr e h1)
end

theorem starTable_find (stars : Nat → Star) (dalgo : Compr) (ks : List Nat) (k : Nat) (h : k ∈ ks) :
    (starTable stars dalgo ks).find k = some ((stars k).node.kept false dalgo) := by
  unfold Corres.find starTable
  induction ks with
  | nil => cases h
  | cons j ks ih =>
    rw [List.map_cons, List.lookup_cons]
    by_cases hj : k = j
    · subst hj; simp
    · have hj' : (k == j) = false := by simpa using hj
      simp only [hj']
      exact ih (by simpa [hj] using h)

/-! ### reading back a tree -/

mutual
theorem shown_kept (sg : Node → SigShown) (stars stars' : Nat → Star) (dalgo : Compr) (hsg : ∀ n, sg (n.kept false dalgo) = sg n)
    (hname : ∀ n name, sg { n with name := name } = sg n) (hk : ∀ k, (stars k).keep = false) (e : Entry)
    (hs : ∀ k, Entry.linksTo k e ≠ 0 → (stars k).refs > 1 → (stars' k).node = (stars k).node.kept false dalgo ∧ (stars' k).refs = (stars k).refs) :
    Entry.shown sg stars' (Entry.kept stars dalgo e) = Entry.shown sg stars e := by
  cases e with
  | node n => simp only [Entry.kept, Entry.shown, Node.shown_kept, hsg]; rfl
  | dir name st i l =>
    simp only [Entry.kept, Entry.shown, InodeB.kept_kept]
    rw [shownL_kept sg stars stars' dalgo hsg hname hk l (fun k h1 h2 => hs k (by simpa only [Entry.linksTo] using h1) h2)]
  | detruit name s d => simp only [Entry.kept, Entry.shown]
  | mirage name j =>
    simp only [Entry.kept, hk, Bool.false_eq_true, or_false]
    by_cases h : (stars j).refs > 1
    · obtain ⟨h1, h2⟩ := hs j (by simp [Entry.linksTo]) h
      rw [if_pos h]
      simp only [Entry.shown, h1, h2, Node.shown_kept, hsg]
    · rw [if_neg h]
      simp only [Entry.shown, if_neg h, hname, hsg]
      have : ({ Node.kept false dalgo (stars j).node with name := name } : Node).shown name = (Node.kept false dalgo (stars j).node).shown name := rfl
      rw [this, Node.shown_kept]
  | ignored name => simp only [Entry.kept, Entry.shown]
theorem shownL_kept (sg : Node → SigShown) (stars stars' : Nat → Star) (dalgo : Compr) (hsg : ∀ n, sg (n.kept false dalgo) = sg n)
    (hname : ∀ n name, sg { n with name := name } = sg n) (hk : ∀ k, (stars k).keep = false) (l : List Entry)
    (hs : ∀ k, Entry.linksToL k l ≠ 0 → (stars k).refs > 1 → (stars' k).node = (stars k).node.kept false dalgo ∧ (stars' k).refs = (stars k).refs) :
    Entry.shownL sg stars' (Entry.keptList stars dalgo l) = Entry.shownL sg stars l := by
  cases l with
  | nil => simp only [Entry.keptList, Entry.shownL]
  | cons e l =>
    have h1 := shownL_kept sg stars stars' dalgo hsg hname hk l (fun k a b => hs k (by simp only [Entry.linksToL]; omega) b)
    have h2 := shown_kept sg stars stars' dalgo hsg hname hk e (fun k a b => hs k (by simp only [Entry.linksToL]; omega) b)
    cases e with
    | ignored name => simp only [Entry.keptList, Entry.shownL, h1, Entry.shown, List.nil_append]
    | _ => simp only [Entry.keptList, Entry.shownL, h1, h2]
end

mutual
theorem kept_writable (stars stars' : Nat → Star) (dalgo : Compr) (hk : ∀ k, (stars k).keep = false) (e : Entry) (hw : Entry.Writable stars e)
    (hs : ∀ k, Entry.linksTo k e ≠ 0 → (stars k).refs > 1 → (stars' k).node = (stars k).node.kept false dalgo) :
    Entry.Writable stars' (Entry.kept stars dalgo e) := by
  cases e with
  | node n => simp only [Entry.kept, Entry.Writable] at hw ⊢; exact Node.kept_writable dalgo n hw
  | dir name st i l =>
    simp only [Entry.kept, Entry.Writable] at hw ⊢
    exact ⟨hw.1, InodeB.kept_writable _ hw.2.1, keptList_writable stars stars' dalgo hk l hw.2.2 (fun k h1 h2 => hs k (by simpa only [Entry.linksTo] using h1) h2)⟩
  | detruit name s d => simpa only [Entry.kept, Entry.Writable] using hw
  | mirage name j =>
    simp only [Entry.Writable] at hw
    simp only [Entry.kept, hk, Bool.false_eq_true, or_false]
    by_cases h : (stars j).refs > 1
    · rw [if_pos h]
      simp only [Entry.Writable, hs j (by simp [Entry.linksTo]) h]
      exact ⟨hw.1, Node.kept_writable dalgo _ hw.2⟩
    · rw [if_neg h]
      simp only [Entry.Writable]
      have := Node.kept_writable dalgo _ hw.2
      exact ⟨hw.1, this.inode, this.special⟩
  | ignored name => simp only [Entry.Writable] at hw
theorem keptList_writable (stars stars' : Nat → Star) (dalgo : Compr) (hk : ∀ k, (stars k).keep = false) (l : List Entry) (hw : Entry.WritableList stars l)
    (hs : ∀ k, Entry.linksToL k l ≠ 0 → (stars k).refs > 1 → (stars' k).node = (stars k).node.kept false dalgo) :
    Entry.WritableList stars' (Entry.keptList stars dalgo l) := by
  cases l with
  | nil => simp only [Entry.keptList, Entry.WritableList]
  | cons e l =>
    have hl : ∀ hw', _ := fun hw' => keptList_writable stars stars' dalgo hk l hw' (fun k a b => hs k (by simp only [Entry.linksToL]; omega) b)
    have h2 : ∀ hw', _ := fun hw' => kept_writable stars stars' dalgo hk e hw' (fun k a b => hs k (by simp only [Entry.linksToL]; omega) b)
    cases e with
    | ignored name => simp only [Entry.WritableList] at hw; simp only [Entry.keptList]; exact hl hw
    | mirage name j =>
      simp only [Entry.WritableList] at hw
      have a := h2 hw.1
      have b := hl hw.2
      simp only [Entry.keptList]
      generalize Entry.kept stars dalgo (.mirage name j) = e' at a ⊢
      cases e' with
      | ignored n => simp only [Entry.WritableList]; exact b
      | _ => simp only [Entry.WritableList]; exact ⟨a, b⟩
    | _ =>
      simp only [Entry.WritableList] at hw
      have a := h2 hw.1
      have b := hl hw.2
      simp only [Entry.keptList]
      simp only [Entry.kept] at a ⊢
      simp only [Entry.WritableList]
      exact ⟨a, b⟩
end

/-- A catalogue that has been written and is read again shows the same, and can be written again. -/
theorem reopen (stars : Nat → Star) (c : Cat) (hw : c.Writable stars) (hc : LinksCounted stars c.children) (ver : ArchVer) (hv : ver.lt ⟨9, 0⟩ = false) :
    ∃ b, c.dump stars = .ok b ∧ ∀ dalgo, ∃ c' stars', catOf ver dalgo b = .ok (c', stars') ∧ c' = c.kept stars dalgo ∧ c'.Writable stars' ∧ LinksCounted stars' c'.children
      ∧ ∀ sg : Node → SigShown, (∀ n, sg (n.kept false dalgo) = sg n) → (∀ n name, sg { n with name := name } = sg n) →
        Entry.shownL sg stars' c'.children = Entry.shownL sg stars c.children := by
  obtain ⟨b, hb, _⟩ := C32_round_trip stars c hw .none ver hv
  refine ⟨b, hb, fun dalgo => ?_⟩
  obtain ⟨b', hb', hr⟩ := C32_round_trip stars c hw dalgo ver hv
  rw [hb] at hb'
  injection hb' with hb'
  subst hb'
  have h1 := hr (2 * b.length) (Nat.le_refl _) []
  rw [List.append_nil] at h1
  have hk : ∀ k, (stars k).keep = false := fun k => (hc k).2
  let t := starTable stars dalgo (Entry.labelsList stars [] c.children)
  let stars' := starsOf t (c.kept stars dalgo).children
  have hs : ∀ k, Entry.linksToL k c.children ≠ 0 → (stars k).refs > 1 → (stars' k).node = (stars k).node.kept false dalgo ∧ (stars' k).refs = (stars k).refs := by
    intro k h1 h2
    refine ⟨?_, ?_⟩
    · show (t.find k).getD _ = _
      rw [starTable_find stars dalgo _ k (labelsList_link stars [] k h2 _ h1)]
      rfl
    · show Entry.linksToL k (Entry.keptList stars dalgo c.children) = _
      rw [linksToL_kept stars hk, if_pos h2, (hc k).1]
  refine ⟨c.kept stars dalgo, stars', ?_, rfl, ?_, ?_, ?_⟩
  · unfold catOf
    rw [h1]
  · refine ⟨hw.label, hw.place, hw.placeStr, ?_⟩
    have ht := hw.tree
    have := kept_writable stars stars' dalgo hk _ ht (fun k h1 h2 => (hs k (by simpa only [Entry.linksTo] using h1) h2).1)
    rw [Entry.kept] at this
    exact this
  · intro k
    exact ⟨rfl, rfl⟩
  · intro sg h1 h2
    exact shownL_kept sg stars stars' dalgo h1 h2 hk c.children hs

end Dar
