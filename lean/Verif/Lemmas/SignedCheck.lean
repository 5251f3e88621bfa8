import Verif.Spec.SignedCheck
import Mathlib.Tactic.Ring
/- Lemmas on is_subset_of. -/
namespace Dar

theorem findNamed_some {n : Bytes} {l : List Entry} {e : Entry} (h : findNamed n l = some e) : e.title = n ∧ e ∈ l := by
  unfold findNamed at h
  exact ⟨by simpa using List.find?_some h, List.mem_of_find?_eq_some h⟩

/-- one entry is accepted -/
def entryOk (mine theirs : Nat → Node) (e : Entry) (l : List Entry) : Prop :=
  ∃ found, findNamed e.title l = some found ∧ Entry.Agree mine theirs e found

theorem letter_file (s : Special) : lettersAgree 102 s.letter = true ↔ ∃ f, s = .file f := by
  cases s <;> simp [lettersAgree, Special.letter]

/-- same_as then operator == on two inodes: they agree -/
theorem same_equals (a b : Node) : ((CmpIno.node a).sameAs (.node b) && (CmpIno.node b).equals (.node a)) = true ↔ a.Agree b := by
  obtain ⟨an, ast, ai, as⟩ := a
  obtain ⟨bn, bst, bi, bs⟩ := b
  unfold Node.Agree CmpIno.sameAs
  simp only [CmpIno.name, CmpIno.letter, Bool.and_eq_true, beq_iff_eq]
  cases as <;> cases bs <;> simp [lettersAgree, Special.letter, CmpIno.equals] <;> tauto

theorem compareFound_nodes (mine theirs : Nat → Node) (e f : Entry) (a b : Node) (ha : e.nodeOf mine = some a) (hb : f.nodeOf theirs = some b) :
    compareFound mine theirs e f = .ok (if (CmpIno.node a).sameAs (.node b) then some (.ino (.node b)) else none) := by
  have h1 : e.ino mine = some (.node a) := by cases e <;> simp_all [Entry.nodeOf, Entry.ino]
  have h2 : f.ino theirs = some (.node b) := by cases f <;> simp_all [Entry.nodeOf, Entry.ino]
  unfold compareFound
  rw [h1]
  dsimp only
  rw [h2]

/-! ### one entry -/

theorem compare_here (mine theirs : Nat → Node) (l : List Entry) (st : List (List Entry)) (e found : Entry) (h : findNamed e.title l = some found) :
    CatCmp.compare mine theirs ⟨l :: st, []⟩ (.entry e) =
      (compareFound mine theirs e found).bind fun r => .ok (r, (CatCmp.mk (l :: st) []).follow e found) := by
  unfold CatCmp.compare
  dsimp only
  rw [if_neg (by simp)]
  simp only [List.headD_cons]
  rw [h]
  rfl

theorem compare_absent (mine theirs : Nat → Node) (l : List Entry) (st : List (List Entry)) (e : Entry) (h : findNamed e.title l = none) :
    CatCmp.compare mine theirs ⟨l :: st, []⟩ (.entry e) = .ok (none, (CatCmp.mk (l :: st) []).leave e) := by
  unfold CatCmp.compare
  dsimp only
  rw [if_neg (by simp)]
  simp only [List.headD_cons]
  rw [h]

theorem loop_compare (mine theirs : Nat → Node) (c c' : CatCmp) (it : Item) (l : List Item) (r : Option Found) (h : c.compare mine theirs it = .ok (r, c')) :
    subsetLoop mine theirs c (it :: l) = match (generalizing := false) r with
      | none => .ok false
      | some toi => if foundEquals mine toi it then subsetLoop mine theirs c' l else .ok false := by
  show (c.compare mine theirs it).bind _ = _
  rw [h]
  rfl

theorem loop_error (mine theirs : Nat → Node) (c : CatCmp) (it : Item) (l : List Item) (e : Err) (h : c.compare mine theirs it = .error e) :
    subsetLoop mine theirs c (it :: l) = .error e := by
  show (c.compare mine theirs it).bind _ = _
  rw [h]
  rfl

/-- an entry that agrees with what is at its place: the loop goes on -/
theorem loop_ok (mine theirs : Nat → Node) (l : List Entry) (st : List (List Entry)) (e found : Entry) (rest : List Item)
    (h : findNamed e.title l = some found) (ha : Entry.Agree mine theirs e found) :
    subsetLoop mine theirs ⟨l :: st, []⟩ (.entry e :: rest) = subsetLoop mine theirs ((CatCmp.mk (l :: st) []).follow e found) rest := by
  have hc := compare_here mine theirs l st e found h
  cases ha with
  | dirs n s i ch s' i' ch' =>
    have : compareFound mine theirs (.dir n s i ch) (.dir n s' i' ch') = .ok (some (.ino (.dir n))) := by
      simp [compareFound, Entry.ino, CmpIno.sameAs, CmpIno.name, CmpIno.letter, lettersAgree]
    rw [this] at hc
    rw [loop_compare _ _ _ _ _ _ _ hc]
    simp [foundEquals, Entry.ino, CmpIno.equals]
  | deleted n s d =>
    have : compareFound mine theirs (.detruit n s d) (.detruit n s d) = .ok (some (.deleted n s d)) := rfl
    rw [this] at hc
    rw [loop_compare _ _ _ _ _ _ _ hc]
    simp [foundEquals]
  | nodes h1 h2 ab =>
    rename_i a b
    rw [compareFound_nodes mine theirs e found a b h1 h2] at hc
    have := (same_equals a b).2 ab
    rw [Bool.and_eq_true] at this
    rw [this.1, if_pos rfl] at hc
    rw [loop_compare _ _ _ _ _ _ _ hc]
    have h3 : e.ino mine = some (.node a) := by cases e <;> simp_all [Entry.nodeOf, Entry.ino]
    simp [foundEquals, h3, this.2]

/-- an entry that does not: the answer is not positive -/
theorem loop_bad (mine theirs : Nat → Node) (l : List Entry) (st : List (List Entry)) (e : Entry) (rest : List Item)
    (h : ¬ entryOk mine theirs e l) : subsetLoop mine theirs ⟨l :: st, []⟩ (.entry e :: rest) ≠ .ok true := by
  cases hf : findNamed e.title l with
  | none => rw [loop_compare _ _ _ _ _ _ _ (compare_absent mine theirs l st e hf)]; simp
  | some found =>
    have hc := compare_here mine theirs l st e found hf
    have hno : ¬ Entry.Agree mine theirs e found := fun hh => h ⟨found, hf, hh⟩
    cases hcf : compareFound mine theirs e found with
    | error x =>
      rw [hcf] at hc
      rw [loop_error _ _ _ _ _ _ hc]
      simp
    | ok r =>
      rw [hcf] at hc
      rw [loop_compare _ _ _ _ _ _ _ hc]
      cases r with
      | none => simp
      | some toi =>
        dsimp only
        have hne : foundEquals mine toi (.entry e) = false := by
          by_contra hh
          have hh : foundEquals mine toi (.entry e) = true := by simpa using hh
          apply hno
          unfold compareFound at hcf
          cases hei : e.ino mine with
          | none =>
            rw [hei] at hcf
            dsimp only at hcf
            cases e with
            | detruit n s d =>
              cases found with
              | detruit n' s' d' =>
                dsimp only at hcf
                injection hcf with hcf
                injection hcf with hcf
                rw [← hcf] at hh
                simp [foundEquals] at hh
                obtain ⟨⟨rfl, rfl⟩, rfl⟩ := hh
                exact .deleted _ _ _
              | node => cases hcf
              | dir => cases hcf
              | mirage => cases hcf
              | ignored => cases hcf
            | ignored => cases hcf
            | node => cases hei
            | dir => cases hei
            | mirage => cases hei
          | some a =>
            rw [hei] at hcf
            dsimp only at hcf
            cases hfi : found.ino theirs with
            | none => rw [hfi] at hcf; cases hcf
            | some b =>
              rw [hfi] at hcf
              dsimp only at hcf
              by_cases hs : a.sameAs b = true
              · rw [if_pos hs] at hcf
                injection hcf with hcf
                injection hcf with hcf
                rw [← hcf] at hh
                simp only [foundEquals, hei] at hh
                cases a with
                | dir n =>
                  cases b with
                  | dir m =>
                    have : n = m := by
                      unfold CmpIno.sameAs at hs
                      simp only [Bool.and_eq_true, beq_iff_eq] at hs
                      exact hs.1
                    subst this
                    cases e with
                    | dir n1 s1 i1 ch1 =>
                      cases found with
                      | dir n2 s2 i2 ch2 =>
                        have e1 : n1 = n := by simpa [Entry.ino] using hei
                        have e2 : n2 = n := by simpa [Entry.ino] using hfi
                        subst e1 e2
                        exact .dirs _ _ _ _ _ _ _
                      | node => simp [Entry.ino] at hfi
                      | mirage => simp [Entry.ino] at hfi
                      | detruit => simp [Entry.ino] at hfi
                      | ignored => simp [Entry.ino] at hfi
                    | node => simp [Entry.ino] at hei
                    | mirage => simp [Entry.ino] at hei
                    | detruit => simp [Entry.ino] at hei
                    | ignored => simp [Entry.ino] at hei
                  | node y =>
                    exfalso
                    unfold CmpIno.sameAs at hs
                    obtain ⟨yn, yst, yi, ys⟩ := y
                    cases ys <;> simp [CmpIno.letter, Special.letter, lettersAgree] at hs
                | node x =>
                  cases b with
                  | dir m =>
                    exfalso
                    unfold CmpIno.sameAs at hs
                    obtain ⟨yn, yst, yi, ys⟩ := x
                    cases ys <;> simp [CmpIno.letter, Special.letter, lettersAgree] at hs
                  | node y =>
                    have ab := (same_equals x y).1 (by rw [hs, hh]; rfl)
                    refine .nodes (a := x) (b := y) ?_ ?_ ab
                    · cases e <;> simp_all [Entry.nodeOf, Entry.ino]
                    · cases found <;> simp_all [Entry.nodeOf, Entry.ino]
              · rw [if_neg hs] at hcf
                cases hcf
        rw [hne]
        simp

/-! ### the whole tree -/

/-- every entry met in `me` agrees with what `l` has at the same path -/
def AllAgree (mine theirs : Nat → Node) (me l : List Entry) : Prop :=
  ∀ path e, Occurs me path e → ∃ e', lookupPath l path = some e' ∧ Entry.Agree mine theirs e e'

theorem lookup_one (l : List Entry) (n : Bytes) : lookupPath l [n] = findNamed n l := by simp [lookupPath]
theorem lookup_dir (l ch : List Entry) (n n' : Bytes) (st : SavedStatus) (i : InodeB) (p : List Bytes) (hp : p ≠ [])
    (h : findNamed n l = some (.dir n' st i ch)) : lookupPath l (n :: p) = lookupPath ch p := by
  cases p with
  | nil => exact absurd rfl hp
  | cons m p => conv => lhs; unfold lookupPath
                rw [h]
theorem occurs_ne {l : List Entry} {p : List Bytes} {e : Entry} (h : Occurs l p e) : p ≠ [] := by cases h <;> simp

theorem agree_dir {mine theirs : Nat → Node} {n : Bytes} {st : SavedStatus} {i : InodeB} {ch : List Entry} {f : Entry}
    (h : Entry.Agree mine theirs (.dir n st i ch) f) : ∃ st' i' ch', f = .dir n st' i' ch' := by
  cases h with
  | dirs => exact ⟨_, _, _, rfl⟩
  | nodes h1 => simp [Entry.nodeOf] at h1

theorem allAgree_nil (mine theirs : Nat → Node) (l : List Entry) : AllAgree mine theirs [] l := by
  intro p e h
  cases h with
  | here h => cases h
  | inside h => cases h

theorem allAgree_leaf (mine theirs : Nat → Node) (x : Entry) (me l : List Entry) (hx : x.isFolder = false) :
    AllAgree mine theirs (x :: me) l ↔ entryOk mine theirs x l ∧ AllAgree mine theirs me l := by
  constructor
  · intro h
    refine ⟨?_, fun p e ho => h p e ?_⟩
    · obtain ⟨e', h1, h2⟩ := h _ _ (.here (e := x) (by simp))
      rw [lookup_one] at h1
      exact ⟨e', h1, h2⟩
    · cases ho with
      | here h => exact .here (List.mem_cons_of_mem _ h)
      | inside h next => exact .inside (List.mem_cons_of_mem _ h) next
  · rintro ⟨⟨f, h1, h2⟩, h3⟩ p e ho
    cases ho with
    | here h =>
      rcases List.mem_cons.1 h with rfl | h
      · exact ⟨f, by rw [lookup_one]; exact h1, h2⟩
      · exact h3 _ _ (.here h)
    | inside h next =>
      rcases List.mem_cons.1 h with h | h
      · rw [← h] at hx; cases hx
      · exact h3 _ _ (.inside h next)

theorem allAgree_dir (mine theirs : Nat → Node) (n : Bytes) (st : SavedStatus) (i : InodeB) (ch me l : List Entry) :
    AllAgree mine theirs (.dir n st i ch :: me) l ↔
      (∃ st' i' ch', findNamed n l = some (.dir n st' i' ch') ∧ AllAgree mine theirs ch ch') ∧ AllAgree mine theirs me l := by
  constructor
  · intro h
    refine ⟨?_, fun p e ho => h p e ?_⟩
    · obtain ⟨e', h1, h2⟩ := h _ _ (.here (e := .dir n st i ch) (by simp))
      rw [lookup_one] at h1
      obtain ⟨st', i', ch', rfl⟩ := agree_dir h2
      refine ⟨st', i', ch', h1, fun p e ho => ?_⟩
      obtain ⟨e', g1, g2⟩ := h (n :: p) e (.inside (st := st) (i := i) (ch := ch) (by simp) ho)
      rw [lookup_dir l ch' n n st' i' p (occurs_ne ho) h1] at g1
      exact ⟨e', g1, g2⟩
    · cases ho with
      | here h => exact .here (List.mem_cons_of_mem _ h)
      | inside h next => exact .inside (List.mem_cons_of_mem _ h) next
  · rintro ⟨⟨st', i', ch', h1, h2⟩, h3⟩ p e ho
    cases ho with
    | here h =>
      rcases List.mem_cons.1 h with rfl | h
      · exact ⟨_, by rw [lookup_one]; exact h1, .dirs _ _ _ _ _ _ _⟩
      · exact h3 _ _ (.here h)
    | inside h next =>
      rcases List.mem_cons.1 h with h | h
      · injection h with e1 e2 e3 e4
        subst e1 e4
        obtain ⟨e', g1, g2⟩ := h2 _ _ next
        exact ⟨e', by rw [lookup_dir l ch' _ _ st' i' _ (occurs_ne next) h1]; exact g1, g2⟩
      · exact h3 _ _ (.inside h next)

theorem walk_leaf (e : Entry) (l : List Entry) (h : e.isFolder = false) : walkItems (e :: l) = .entry e :: walkItems l := by
  cases e with
  | dir => cases h
  | node => simp [walkItems]
  | mirage => simp [walkItems]
  | detruit => simp [walkItems]
  | ignored => simp [walkItems]

theorem loop_walk (mine theirs : Nat → Node) (me : List Entry) : ∀ (l : List Entry) (st : List (List Entry)) (rest : List Item),
    subsetLoop mine theirs ⟨l :: st, []⟩ (walkItems me ++ rest) = .ok true ↔
      AllAgree mine theirs me l ∧ subsetLoop mine theirs ⟨l :: st, []⟩ rest = .ok true := by
  induction hl : sizeOf me using Nat.strongRecOn generalizing me with
  | _ k ih =>
    intro l st rest
    cases me with
    | nil => simp [walkItems, allAgree_nil]
    | cons x me =>
      have hrec := ih (sizeOf me) (by subst hl; simp) me rfl
      by_cases hx : x.isFolder = true
      · cases x with
        | dir n s i ch =>
          have hch := ih (sizeOf ch) (by subst hl; simp; omega) ch rfl
          rw [allAgree_dir]
          have hw : walkItems (.dir n s i ch :: me) ++ rest = .entry (.dir n s i ch) :: (walkItems ch ++ (.eod :: (walkItems me ++ rest))) := by
            simp [walkItems]
          rw [hw]
          by_cases hok : ∃ st' i' ch', findNamed n l = some (.dir n st' i' ch')
          · obtain ⟨st', i', ch', hf⟩ := hok
            rw [loop_ok mine theirs l st (.dir n s i ch) _ _ hf (.dirs _ _ _ _ _ _ _)]
            show subsetLoop mine theirs ⟨ch' :: l :: st, []⟩ _ = _ ↔ _
            rw [hch]
            rw [loop_compare (r := some .eod) (c' := ⟨l :: st, []⟩) mine theirs ⟨ch' :: l :: st, []⟩ .eod _ rfl]
            simp only [foundEquals, if_true]
            rw [hrec]
            constructor
            · rintro ⟨h1, h2, h3⟩
              exact ⟨⟨⟨st', i', ch', hf, h1⟩, h2⟩, h3⟩
            · rintro ⟨⟨⟨_, _, c2, g1, h1⟩, h2⟩, h3⟩
              rw [hf] at g1
              injection g1 with g1
              injection g1 with _ _ _ g4
              subst g4
              exact ⟨h1, h2, h3⟩
          · constructor
            · intro h
              refine absurd h (loop_bad mine theirs l st _ _ ?_)
              rintro ⟨f, h1, h2⟩
              obtain ⟨a, b, c, rfl⟩ := agree_dir h2
              exact hok ⟨a, b, c, h1⟩
            · rintro ⟨⟨⟨a, b, c, h1, _⟩, _⟩, _⟩
              exact absurd ⟨a, b, c, h1⟩ hok
        | node => cases hx
        | mirage => cases hx
        | detruit => cases hx
        | ignored => cases hx
      · have hx : x.isFolder = false := by simpa using hx
        rw [walk_leaf x me hx, List.cons_append, allAgree_leaf _ _ _ _ _ hx]
        by_cases hok : entryOk mine theirs x l
        · obtain ⟨f, h1, h2⟩ := hok
          rw [loop_ok mine theirs l st _ _ _ h1 h2]
          have hfol : (CatCmp.mk (l :: st) []).follow x f = ⟨l :: st, []⟩ := by cases x <;> first | rfl | cases hx
          rw [hfol, hrec]
          constructor
          · rintro ⟨g1, g2⟩; exact ⟨⟨⟨f, h1, h2⟩, g1⟩, g2⟩
          · rintro ⟨⟨_, g1⟩, g2⟩; exact ⟨g1, g2⟩
        · constructor
          · intro h; exact absurd h (loop_bad mine theirs l st _ _ hok)
          · rintro ⟨⟨g, _⟩, _⟩; exact absurd g hok

theorem isSubset_iff (mine theirs : Nat → Node) (me ref : List Entry) : isSubset mine theirs me ref = .ok true ↔ AllAgree mine theirs me ref := by
  have h := loop_walk mine theirs me ref [] []
  rw [List.append_nil] at h
  have h0 : subsetLoop mine theirs ⟨[ref], []⟩ [] = .ok true := rfl
  rw [show (AllAgree mine theirs me ref ↔ AllAgree mine theirs me ref ∧ subsetLoop mine theirs ⟨[ref], []⟩ [] = .ok true) from ⟨fun x => ⟨x, h0⟩, fun x => x.1⟩, ← h]
  unfold isSubset CatCmp.start
  generalize subsetLoop mine theirs ⟨[ref], []⟩ (walkItems me) = r
  cases r with
  | ok b => simp
  | error e => cases e <;> simp

/-- what remains to be given by catalogue::read -/
def stackItems : MemRd → List Item
  | [] => []
  | [l] => walkItems l
  | l :: p :: up => walkItems l ++ .eod :: stackItems (p :: up)
/-- catalogue::read gives the items of the walk one after the other -/
theorem memRead_walk (m : MemRd) : stackItems m = match memRead m with
    | (some it, m') => it :: stackItems m'
    | (none, _) => [] := by
  cases m with
  | nil => simp [memRead, stackItems]
  | cons l up =>
    cases l with
    | nil => cases up <;> simp [memRead, walkItems, stackItems]
    | cons x l => cases x <;> cases up <;> simp [memRead, walkItems, stackItems]

end Dar
