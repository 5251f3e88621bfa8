import Verif.Props.CatalogueFile
/- C32: whatever the bytes are, a catalogue that could be read is consistent. -/
namespace Dar

/-- every value the reader gives meets the condition -/
def Gives {α : Type} (r : Reader α) (P : α → Prop) : Prop := ∀ s v s', r s = .ok (v, s') → P v

theorem Gives.bind {α β : Type} {r : Reader α} {f : α → Reader β} {P : α → Prop} {Q : β → Prop} (h : Gives r P) (hf : ∀ a, P a → Gives (f a) Q) : Gives (r >>= f) Q := by
  intro s v s' hr
  rw [bind_run] at hr
  cases h1 : r s with
  | error e => rw [h1] at hr; cases hr
  | ok x =>
    obtain ⟨a, s1⟩ := x
    rw [h1] at hr
    exact hf a (h s a s1 h1) s1 v s' hr
theorem Gives.any {α : Type} (r : Reader α) : Gives r (fun _ => True) := fun _ _ _ _ => trivial
theorem Gives.pure {α : Type} {P : α → Prop} (a : α) (h : P a) : Gives (Pure.pure a : Reader α) P := by
  intro s v s' hr
  cases hr
  exact h
theorem Gives.fail {α : Type} {P : α → Prop} (e : Err) : Gives (Reader.fail e : Reader α) P := by
  intro s v s' hr
  cases hr
theorem Gives.ite {α : Type} {P : α → Prop} {c : Prop} [Decidable c] {a b : Reader α} (h1 : Gives a P) (h2 : Gives b P) : Gives (if c then a else b) P := by
  by_cases h : c
  · rw [if_pos h]; exact h1
  · rw [if_neg h]; exact h2
theorem Gives.lift {α : Type} {P : α → Prop} (x : Res α) (h : ∀ a, x = .ok a → P a) : Gives (Reader.lift x) P := by
  intro s v s' hr
  unfold Reader.lift at hr
  cases x with
  | error e => cases hr
  | ok y => simp only at hr; cases hr; exact h _ rfl

mutual
/-- every hard link of the tree has an inode in the table -/
def Entry.Linked (e : Entry) (c : Corres) : Prop :=
  match e with
  | .mirage _ k => ∃ n, (k, n) ∈ c
  | .dir _ _ _ l => Entry.LinkedList l c
  | _ => True
def Entry.LinkedList (l : List Entry) (c : Corres) : Prop :=
  match l with
  | [] => True
  | e :: l => e.Linked c ∧ Entry.LinkedList l c
end

/-- no two inodes with the same label -/
def Corres.Single (c : Corres) : Prop := (c.map (·.1)).Nodup
/-- the table has been completed from `c` to `c'` -/
def Corres.Grown (c c' : Corres) : Prop := c.Single → c'.Single ∧ c ⊆ c'

def Item.Linked (i : Item) (c : Corres) : Prop :=
  match i with
  | .eod => True
  | .entry e => e.Linked c

mutual
theorem linked_mono {c c' : Corres} (h : c ⊆ c') : ∀ e : Entry, e.Linked c → e.Linked c'
  | .mirage _ k, ⟨n, hn⟩ => ⟨n, h hn⟩
  | .dir _ _ _ l, hl => linkedList_mono h l hl
  | .node _, _ => trivial
  | .detruit .., _ => trivial
  | .ignored _, _ => trivial
theorem linkedList_mono {c c' : Corres} (h : c ⊆ c') : ∀ l : List Entry, Entry.LinkedList l c → Entry.LinkedList l c'
  | [], _ => trivial
  | e :: l, ⟨h1, h2⟩ => ⟨linked_mono h e h1, linkedList_mono h l h2⟩
end

theorem corres_find_mem {c : Corres} {k : Nat} {n : Node} (h : c.find k = some n) : (k, n) ∈ c := by
  unfold Corres.find at h
  induction c with
  | nil => cases h
  | cons x c ih =>
    obtain ⟨k', n'⟩ := x
    rw [List.lookup_cons] at h
    by_cases hk : k == k'
    · rw [hk] at h
      simp only at h
      cases h
      have : k = k' := by simpa using hk
      subst this
      exact List.mem_cons_self
    · rw [show (k == k') = false by simpa using hk] at h
      exact List.mem_cons_of_mem _ (ih h)
theorem corres_find_none {c : Corres} {k : Nat} (h : c.find k = none) : k ∉ c.map (·.1) := by
  unfold Corres.find at h
  induction c with
  | nil => simp
  | cons x c ih =>
    obtain ⟨k', n'⟩ := x
    rw [List.lookup_cons] at h
    by_cases hk : k == k'
    · rw [hk] at h; cases h
    · rw [show (k == k') = false by simpa using hk] at h
      simp only [List.map_cons, List.mem_cons, not_or]
      exact ⟨by simpa using hk, ih h⟩

/-- what reading an item ensures -/
def ItemOk (c : Corres) (r : Item × Corres) : Prop := c.Single → r.2.Single ∧ c ⊆ r.2 ∧ r.1.Linked r.2

theorem alone_ok (name : Bytes) (k : Nat) (c : Corres) : Gives (Reader.lift (mirageAlone name k c)) (ItemOk c) := by
  refine Gives.lift _ ?_
  intro a h hs
  unfold mirageAlone at h
  cases hf : c.find k with
  | none => rw [hf] at h; cases h
  | some n =>
    rw [hf] at h
    cases h
    exact ⟨hs, List.Subset.refl _, n, corres_find_mem hf⟩
theorem mirbind_ok (name : Bytes) (k : Nat) (it : Item) (c0 c : Corres) (h : ItemOk c0 (it, c)) : Gives (Reader.lift (mirageBind name k it c)) (ItemOk c0) := by
  refine Gives.lift _ ?_
  intro a ha hs
  obtain ⟨h1, h2, h3⟩ := h hs
  unfold mirageBind at ha
  cases it with
  | eod => cases ha
  | entry e =>
    cases e with
    | node n =>
      simp only at ha
      cases hf : c.find k with
      | some n => rw [hf] at ha; cases ha
      | none =>
        rw [hf] at ha
        cases ha
        refine ⟨?_, fun x hx => List.mem_cons_of_mem _ (h2 hx), n, List.mem_cons_self⟩
        show ((k, n) :: c |>.map (·.1)).Nodup
        rw [List.map_cons, List.nodup_cons]
        exact ⟨corres_find_none hf, h1⟩
    | _ => cases ha

theorem entries_ok (fits : Nat → Bool) (ver : ArchVer) (small : Bool) (dalgo : Compr) (fuel : Nat) :
    (∀ c, Gives (entryRead fits ver small dalgo fuel c) (ItemOk c)) ∧
    ∀ c, Gives (entriesRead fits ver small dalgo fuel c) (fun r => c.Single → r.2.Single ∧ c ⊆ r.2 ∧ Entry.LinkedList r.1 r.2) := by
  induction fuel with
  | zero =>
    constructor <;> intro c
    · unfold entryRead; exact Gives.fail _
    · unfold entriesRead; exact Gives.fail _
  | succ fuel ih =>
    constructor <;> intro c
    · unfold entryRead
      refine Gives.bind (Gives.any _) fun sg _ => ?_
      cases sg with
      | none => exact Gives.fail _
      | some x =>
        obtain ⟨letter, st⟩ := x
        dsimp only
        cases hs : specialRead small st dalgo letter with
        | some sp => exact Gives.bind (Gives.any _) fun n _ => Gives.pure _ (fun hs => ⟨hs, List.Subset.refl _, trivial⟩)
        | none =>
          refine Gives.ite ?_ (Gives.ite ?_ (Gives.ite ?_ (Gives.ite ?_ (Gives.ite ?_ (Gives.fail _)))))
          · exact Gives.bind (Gives.any _) fun _ _ => Gives.bind (Gives.any _) fun _ _ => Gives.bind (ih.2 c) fun x hx => Gives.pure _ hx
          · exact Gives.bind (Gives.any _) fun _ _ => Gives.bind (Gives.any _) fun _ _ => Gives.bind (Gives.any _) fun _ _ =>
              Gives.ite (alone_ok _ _ _) (Gives.ite (Gives.bind (ih.1 c) fun x hx => mirbind_ok _ _ _ _ _ hx) (Gives.fail _))
          · unfold oldMirageRead
            refine Gives.ite ?_ ?_
            · exact Gives.bind (Gives.any _) fun _ _ => Gives.bind (Gives.any _) fun _ _ => alone_ok _ _ _
            · exact Gives.bind (Gives.any _) fun n _ => Gives.bind (Gives.any _) fun _ _ => mirbind_ok _ _ _ _ _ (fun hs => ⟨hs, List.Subset.refl _, trivial⟩)
          · exact Gives.ite (Gives.fail _) (Gives.pure _ (fun hs => ⟨hs, List.Subset.refl _, trivial⟩))
          · unfold detruitRead
            exact Gives.ite (Gives.fail _) (Gives.bind (Gives.any _) fun _ _ => Gives.bind (Gives.any _) fun _ _ => Gives.bind (Gives.any _) fun _ _ =>
              Gives.pure _ (fun hs => ⟨hs, List.Subset.refl _, trivial⟩))
    · unfold entriesRead
      refine Gives.bind (ih.1 c) fun x hx => ?_
      obtain ⟨it, c'⟩ := x
      cases it with
      | eod => exact Gives.pure _ (fun hs => ⟨(hx hs).1, (hx hs).2.1, trivial⟩)
      | entry e =>
        refine Gives.bind (ih.2 c') fun y hy => Gives.pure _ (fun hs => ?_)
        obtain ⟨a1, a2, a3⟩ := hx hs
        obtain ⟨b1, b2, b3⟩ := hy a1
        exact ⟨b1, fun z hz => b2 (a2 hz), linked_mono b2 e a3, b3⟩

/-- **C32**: whatever the bytes read (truncated, damaged, forged…), if they are accepted as a catalogue, then each label has a single inode and every hard link, at
any depth, has an inode. -/
theorem C32_links_consistent (fits : Nat → Bool) (ver : ArchVer) (dalgo : Compr) (fuel : Nat) (s rest : Bytes) (cat : Cat) (c : Corres)
    (h : catRead fits ver dalgo fuel s = .ok ((cat, c), rest)) : (c.map (·.1)).Nodup ∧ Entry.LinkedList cat.children c := by
  have hb : ∃ s', catReadBody fits ver dalgo fuel s = .ok ((cat, c), s') := by
    unfold catRead at h
    cases hc : catReadBody fits ver dalgo fuel s with
    | error e => rw [hc] at h; cases h
    | ok x =>
      obtain ⟨r, s'⟩ := x
      rw [hc] at h
      simp only at h
      split at h
      · cases h
      · cases h; exact ⟨_, rfl⟩
  obtain ⟨s', hb⟩ := hb
  have : Gives (catReadBody fits ver dalgo fuel) (fun r => (r.2.map (·.1)).Nodup ∧ Entry.LinkedList r.1.children r.2) := by
    unfold catReadBody
    refine Gives.bind (Gives.any _) fun _ _ => Gives.bind (Gives.any _) fun _ _ => Gives.bind (Gives.any _) fun _ _ => Gives.bind (Gives.any _) fun _ _ =>
      Gives.bind (Gives.any _) fun _ _ => Gives.bind ((entries_ok fits ver false dalgo fuel).2 []) fun x hx => Gives.pure _ ?_
    obtain ⟨h1, _, h3⟩ := hx List.nodup_nil
    exact ⟨h1, h3⟩
  exact this s _ s' hb

/-- **C32**: an entry whose first byte is none of the known types, or is a deletion record or an end of directory with another status than "saved", is refused. -/
theorem C32_unknown_type (fits : Nat → Bool) (ver : ArchVer) (small : Bool) (dalgo : Compr) (fuel : Nat) (c : Corres) (b : UInt8) (s : Bytes)
    (h : sigDecode b = none ∨ (∃ st, (sigDecode b = some (120, st) ∨ sigDecode b = some (122, st)) ∧ st ≠ .saved)) :
    entryRead fits ver small dalgo (fuel + 1) c (b :: s) = .error .range := by
  unfold entryRead
  rw [bind_run]
  rw [show sigRead (b :: s) = .ok (sigDecode b, s) from rfl]
  dsimp only
  rcases h with h | ⟨st, h | h, hst⟩
  · rw [h]; rfl
  · rw [h]
    show (if _ then _ else _ : Reader (Item × Corres)) s = _
    simp only [show (120 : UInt8) ≠ 100 by decide, show (120 : UInt8) ≠ 109 by decide, show ¬ ((120 : UInt8) = 104 ∨ (120 : UInt8) = 101) by decide,
      show (120 : UInt8) ≠ 122 by decide, if_false, if_true, detruitRead, hst, ne_eq, not_false_eq_true]
    rfl
  · rw [h]
    show (if _ then _ else _ : Reader (Item × Corres)) s = _
    simp only [show (122 : UInt8) ≠ 100 by decide, show (122 : UInt8) ≠ 109 by decide, show ¬ ((122 : UInt8) = 104 ∨ (122 : UInt8) = 101) by decide,
      if_false, if_true, hst, ne_eq, not_false_eq_true]
    rfl

/-- such bytes exist: 'x' marked as not saved, 'z' marked as inode only, an unused status -/
example : sigDecode 0x58 = some (120, .notSaved) ∧ sigDecode 0x9a = some (122, .inodeOnly) ∧ sigDecode 0xa1 = none := ⟨rfl, rfl, rfl⟩
/-- a hard link whose label has not been defined before is refused: 'm', the name "a", the label 5, no inode -/
example : entryRead (fun _ => true) ⟨11, 1⟩ false .none 5 [] ([0x6d, 97, 0] ++ putInt 5 ++ [88]) = .error .range := by
  unfold entryRead
  rw [bind_run]
  rfl

end Dar
