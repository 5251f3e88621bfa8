import Verif.Spec.ReadSource
import Mathlib.Tactic.Tauto
import Mathlib.Data.List.Forall2
/- Lemmas about the reading of the source. -/
namespace Dar

/-! ### the entries made for what is met -/

/-- the entries given for what is met -/
def emitAll (k : LinkSt) : List WalkEv → List (List Bytes × RdEntry) × LinkSt
  | [] => ([], k)
  | .file p st :: ws => ((p, (linkStep k (p.getLastD []) st).1) :: (emitAll (linkStep k (p.getLastD []) st).2 ws).1, (emitAll (linkStep k (p.getLastD []) st).2 ws).2)
  | .dir p st :: ws => ((p, (linkStep k (p.getLastD []) st).1) :: (emitAll (linkStep k (p.getLastD []) st).2 ws).1, (emitAll (linkStep k (p.getLastD []) st).2 ws).2)
  | .eod p :: ws => ((p, .eod) :: (emitAll k ws).1, (emitAll k ws).2)
  | .flagged _ :: ws => emitAll k ws
  | .unread _ _ :: ws => emitAll k ws
theorem emitAll_append (k : LinkSt) (a b : List WalkEv) : emitAll k (a ++ b) = ((emitAll k a).1 ++ (emitAll (emitAll k a).2 b).1, (emitAll (emitAll k a).2 b).2) := by
  induction a generalizing k with
  | nil => rfl
  | cons w a ih => cases w <;> simp [emitAll, ih]
/-- a directory is a directory and a file is not one -/
def KindOk : WalkEv → Prop
  | .file _ st => st.obj.ino.kind ≠ .dir
  | .dir _ st => st.obj.ino.kind = .dir
  | _ => True
theorem lookup_filter_ne {β : Type} (a b : Nat × Nat) (l : List ((Nat × Nat) × β)) : (l.filter (·.1 ≠ a)).lookup b = if b = a then none else l.lookup b := by
  induction l with
  | nil => simp
  | cons x l ih =>
    by_cases hx : x.1 = a
    · rw [List.filter_cons_of_neg (by simp [hx]), ih]
      by_cases hb : b = a
      · simp [hb]
      · rw [if_neg hb, if_neg hb, List.lookup_cons, show (b == x.1) = false by rw [hx]; simpa using hb]
    · rw [List.filter_cons_of_pos (by simp [hx]), List.lookup_cons, ih, List.lookup_cons]
      by_cases hb : b = a
      · subst hb
        rw [show (b == x.1) = false by simpa using fun h => hx h.symm]
      · rw [if_neg hb]
        simp [hb]

/-! ### any history: a label belongs to one inode number -/

structure OwnInv (k : LinkSt) (own : List (Nat × Nat)) : Prop where
  len : own.length = k.counter
  stars : k.stars.length = k.counter
  corres : ∀ n lab c, k.corres.lookup n = some (lab, c) → own[lab]? = some n
def nodeOf (st : FsStat) : Nat × Nat := (st.ino, st.dev)
/-- the relation between what is met and what is given, whatever happens: the object is that of the inode met, or the label is one of its number -/
def Labelled (own : List (Nat × Nat)) : WalkEv → List Bytes × RdEntry → Prop
  | .file p st, (q, e) => q = p ∧ if st.nlink > 1 then ∃ lab, e = .mirage (p.getLastD []) lab ∧ own[lab]? = some (nodeOf st) else e = .node { st.obj with name := p.getLastD [] }
  | .dir p st, (q, e) => q = p ∧ e = .dir { st.obj with name := p.getLastD [] }
  | .eod p, (q, e) => q = p ∧ e = .eod
  | _, _ => False
theorem getElem?_prefix {α : Type} {a b : List α} (h : a <+: b) {i : Nat} {x : α} (hx : a[i]? = some x) : b[i]? = some x := by
  obtain ⟨r, rfl⟩ := h
  rw [List.getElem?_append_left (by rw [List.getElem?_eq_some_iff] at hx; exact hx.1)]
  exact hx
theorem Labelled.mono {own own' : List (Nat × Nat)} (h : own <+: own') {w : WalkEv} {ev : List Bytes × RdEntry} (hl : Labelled own w ev) : Labelled own' w ev := by
  obtain ⟨q, e⟩ := ev
  cases w with
  | file p st =>
    obtain ⟨h1, h2⟩ := hl
    refine ⟨h1, ?_⟩
    by_cases hn : st.nlink > 1
    · rw [if_pos hn] at h2 ⊢
      obtain ⟨lab, h3, h4⟩ := h2
      exact ⟨lab, h3, getElem?_prefix h h4⟩
    · rw [if_neg hn] at h2 ⊢; exact h2
  | dir p st => exact hl
  | eod p => exact hl
  | flagged p => exact hl
  | unread p a => exact hl
/-- one step -/
theorem linkStep_own {k : LinkSt} {own : List (Nat × Nat)} (h : OwnInv k own) (name : Bytes) {st : FsStat} (hd : st.obj.ino.kind ≠ .dir) :
    ∃ own', own <+: own' ∧ OwnInv (linkStep k name st).2 own' ∧
      (if st.nlink > 1 then ∃ lab, (linkStep k name st).1 = .mirage name lab ∧ own'[lab]? = some (nodeOf st) else (linkStep k name st).1 = .node { st.obj with name := name }) := by
  unfold linkStep
  rw [if_neg hd]
  by_cases hn : st.nlink > 1
  · simp only [if_pos hn]
    cases hl : k.corres.lookup (st.ino, st.dev) with
    | none =>
      refine ⟨own ++ [nodeOf st], ⟨_, rfl⟩, ⟨by simp [h.len], by simp [h.stars], ?_⟩, k.counter, rfl, by rw [← h.len]; simp⟩
      intro n lab c hc
      dsimp only at hc
      rw [List.lookup_cons] at hc
      by_cases hne : n = (st.ino, st.dev)
      · subst hne
        simp at hc
        rw [← hc.1, ← h.len]; simp [nodeOf]
      · rw [show (n == (st.ino, st.dev)) = false by simpa using hne] at hc
        exact getElem?_prefix ⟨_, rfl⟩ (h.corres n lab c hc)
    | some x =>
      obtain ⟨lab0, c0⟩ := x
      dsimp only
      refine ⟨own, List.prefix_refl _, ⟨h.len, h.stars, ?_⟩, lab0, rfl, h.corres _ _ _ hl⟩
      intro n lab c hc
      dsimp only at hc
      by_cases h0 : c0 - 1 = 0
      · rw [if_pos h0, lookup_filter_ne] at hc
        by_cases hne : n = (st.ino, st.dev)
        · rw [if_pos hne] at hc; cases hc
        · rw [if_neg hne] at hc; exact h.corres n lab c hc
      · rw [if_neg h0, List.lookup_cons, lookup_filter_ne] at hc
        by_cases hne : n = (st.ino, st.dev)
        · subst hne
          simp at hc
          rw [← hc.1]; exact h.corres _ _ _ hl
        · rw [show (n == (st.ino, st.dev)) = false by simpa using hne, if_neg hne] at hc
          exact h.corres n lab c hc
  · simp only [if_neg hn]
    exact ⟨own, List.prefix_refl _, h, trivial⟩
theorem linkStep_dir {k : LinkSt} (name : Bytes) {st : FsStat} (hd : st.obj.ino.kind = .dir) : linkStep k name st = (.dir { st.obj with name := name }, k) := by
  unfold linkStep; rw [if_pos hd]
theorem forall2_mono {α β : Type} {R S : α → β → Prop} (h : ∀ a b, R a b → S a b) {l : List α} {m : List β} (hl : List.Forall₂ R l m) : List.Forall₂ S l m := by
  induction hl with
  | nil => exact .nil
  | cons h1 _ ih => exact .cons (h _ _ h1) ih
theorem emitAll_own {k : LinkSt} {own : List (Nat × Nat)} (h : OwnInv k own) (ws : List WalkEv) (hk : ∀ w ∈ ws, KindOk w) :
    ∃ own', own <+: own' ∧ OwnInv (emitAll k ws).2 own' ∧ List.Forall₂ (Labelled own') (ws.filter WalkEv.isEntry) (emitAll k ws).1 := by
  induction ws generalizing k own with
  | nil => exact ⟨own, List.prefix_refl _, h, .nil⟩
  | cons w ws ih =>
    have hk' : ∀ w ∈ ws, KindOk w := fun x hx => hk x (by simp [hx])
    have hw := hk w (by simp)
    cases w with
    | file p st =>
      obtain ⟨o1, h1, h2, h3⟩ := linkStep_own h (p.getLastD []) hw
      obtain ⟨o2, h4, h5, h6⟩ := ih h2 hk'
      refine ⟨o2, h1.trans h4, h5, ?_⟩
      rw [List.filter_cons_of_pos rfl]
      exact .cons (Labelled.mono h4 (w := .file p st) ⟨rfl, h3⟩) h6
    | dir p st =>
      have e : linkStep k (p.getLastD []) st = _ := linkStep_dir _ hw
      obtain ⟨o2, h4, h5, h6⟩ := ih (k := (linkStep k (p.getLastD []) st).2) (by rw [e]; exact h) hk'
      refine ⟨o2, h4, h5, ?_⟩
      rw [List.filter_cons_of_pos rfl]
      exact .cons ⟨rfl, by rw [e]⟩ h6
    | eod p =>
      obtain ⟨o2, h4, h5, h6⟩ := ih h hk'
      refine ⟨o2, h4, h5, ?_⟩
      rw [List.filter_cons_of_pos rfl]
      exact .cons ⟨rfl, rfl⟩ h6
    | flagged p => exact ih h hk'
    | unread p a => exact ih h hk'

/-! ### steady inodes -/

/-- the names of an inode in what is met -/
def occ (n : Nat × Nat) (ws : List WalkEv) : Nat := (ws.filter (fun w' => match w'.stat with
  | some st' => st'.ino = n.1 ∧ st'.dev = n.2
  | none => false)).length
theorem occ_file (n : Nat × Nat) (p : List Bytes) (st : FsStat) (ws : List WalkEv) : occ n (.file p st :: ws) = (if n = nodeOf st then 1 else 0) + occ n ws := by
  unfold occ nodeOf
  rw [List.filter_cons]
  simp only [WalkEv.stat]
  by_cases h : n = (st.ino, st.dev)
  · subst h; simp; omega
  · have : ¬ (st.ino = n.1 ∧ st.dev = n.2) := fun h2 => h (by rw [h2.1, h2.2])
    simp [h, this]
theorem occ_other (n : Nat × Nat) (w : WalkEv) (hw : w.stat = none) (ws : List WalkEv) : occ n (w :: ws) = occ n ws := by
  unfold occ
  rw [List.filter_cons, hw]
  simp
/-- what is expected: `rest` is still to be met; `links`: the number of names of an inode; `obj` its object -/
structure SteadyInv (links : Nat × Nat → Nat) (obj : Nat × Nat → Obj) (k : LinkSt) (own : List (Nat × Nat)) (rest : List WalkEv) : Prop where
  base : OwnInv k own
  nodup : own.Nodup
  found : ∀ n lab c, k.corres.lookup n = some (lab, c) → occ n rest ≤ c
  absent : ∀ n, k.corres.lookup n = none → (n ∈ own → occ n rest = 0) ∧ (n ∉ own → occ n rest ≤ max 1 (links n))
  objs : ∀ (i : Nat) (n : Nat × Nat), own[i]? = some n → k.stars[i]? = some (obj n)
def SteadyAs (links : Nat × Nat → Nat) (obj : Nat × Nat → Obj) (ws : List WalkEv) : Prop :=
  ∀ w ∈ ws, ∀ st, w.stat = some st → st.nlink = links (nodeOf st) ∧ { st.obj with name := [] } = obj (nodeOf st)
theorem steady_step {links : Nat × Nat → Nat} {obj : Nat × Nat → Obj} {k : LinkSt} {own : List (Nat × Nat)} {p : List Bytes} {st : FsStat} {rest : List WalkEv}
    (h : SteadyInv links obj k own (.file p st :: rest)) (hd : st.obj.ino.kind ≠ .dir) (hl : st.nlink = links (nodeOf st)) (ho : { st.obj with name := [] } = obj (nodeOf st)) (name : Bytes) :
    ∃ own', own <+: own' ∧ SteadyInv links obj (linkStep k name st).2 own' rest ∧
      (if st.nlink > 1 then ∃ lab, (linkStep k name st).1 = .mirage name lab ∧ own'[lab]? = some (nodeOf st) else (linkStep k name st).1 = .node { st.obj with name := name }) := by
  have hocc := fun n => occ_file n p st rest
  obtain ⟨h1, h2, h3, h4, h5⟩ := h
  unfold linkStep
  rw [if_neg hd]
  have hself : occ (nodeOf st) (.file p st :: rest) = 1 + occ (nodeOf st) rest := by rw [hocc, if_pos rfl]
  by_cases hn : st.nlink > 1
  · simp only [if_pos hn]
    cases hlk : k.corres.lookup (st.ino, st.dev) with
    | none =>
      have hab := h4 (nodeOf st) hlk
      have hnot : nodeOf st ∉ own := fun hm => by have := hab.1 hm; omega
      have hle := hab.2 hnot
      refine ⟨own ++ [nodeOf st], ⟨_, rfl⟩, ⟨⟨by simp [h1.len], by simp [h1.stars], ?_⟩, ?_, ?_, ?_, ?_⟩, k.counter, rfl, by rw [← h1.len]; simp⟩
      · intro n lab c hc
        dsimp only at hc
        rw [List.lookup_cons] at hc
        by_cases hne : n = (st.ino, st.dev)
        · subst hne
          simp at hc
          rw [← hc.1, ← h1.len]; simp [nodeOf]
        · rw [show (n == (st.ino, st.dev)) = false by simpa using hne] at hc
          exact getElem?_prefix ⟨_, rfl⟩ (h1.corres n lab c hc)
      · rw [List.nodup_append]
        refine ⟨h2, by simp, ?_⟩
        intro a ha b hb
        simp at hb
        subst hb
        intro hab; subst hab; exact hnot ha
      · intro n lab c hc
        dsimp only at hc
        rw [List.lookup_cons] at hc
        by_cases hne : n = (st.ino, st.dev)
        · subst hne
          simp at hc
          rw [← hc.2]
          have : occ (nodeOf st) rest ≤ st.nlink - 1 := by omega
          exact this
        · rw [show (n == (st.ino, st.dev)) = false by simpa using hne] at hc
          have := h3 n lab c hc
          rw [hocc] at this; omega
      · intro n hc
        dsimp only at hc
        rw [List.lookup_cons] at hc
        have hne : n ≠ nodeOf st := by
          rintro rfl
          simp [nodeOf] at hc
        have hne' : n ≠ (st.ino, st.dev) := hne
        rw [show (n == (st.ino, st.dev)) = false by simpa using hne'] at hc
        have := h4 n hc
        rw [hocc, if_neg hne] at this
        refine ⟨fun hm => ?_, fun hm => ?_⟩
        · rcases List.mem_append.mp hm with hm | hm
          · have := this.1 hm; omega
          · simp at hm; exact absurd hm hne
        · have := this.2 (fun h => hm (by simp [h])); omega
      · intro i n hi
        dsimp only
        by_cases hlt : i < own.length
        · rw [List.getElem?_append_left hlt] at hi
          rw [List.getElem?_append_left (by rw [h1.stars, ← h1.len]; exact hlt)]
          exact h5 i n hi
        · have : i = own.length := by
            have := (List.getElem?_eq_some_iff.mp hi).1
            simp at this; omega
          subst this
          simp at hi
          subst hi
          rw [h1.len, ← h1.stars]; simp [ho]
    | some x =>
      obtain ⟨lab0, c0⟩ := x
      dsimp only
      have hc0 := h3 _ _ _ hlk
      rw [show ((st.ino, st.dev) : Nat × Nat) = nodeOf st from rfl, hself] at hc0
      have hown := h1.corres _ _ _ hlk
      refine ⟨own, List.prefix_refl _, ⟨⟨h1.len, h1.stars, ?_⟩, h2, ?_, ?_, h5⟩, lab0, rfl, hown⟩
      · intro n lab c hc
        dsimp only at hc
        by_cases h0 : c0 - 1 = 0
        · rw [if_pos h0, lookup_filter_ne] at hc
          by_cases hne : n = (st.ino, st.dev)
          · rw [if_pos hne] at hc; cases hc
          · rw [if_neg hne] at hc; exact h1.corres n lab c hc
        · rw [if_neg h0, List.lookup_cons, lookup_filter_ne] at hc
          by_cases hne : n = (st.ino, st.dev)
          · subst hne
            simp at hc
            rw [← hc.1]; exact hown
          · rw [show (n == (st.ino, st.dev)) = false by simpa using hne, if_neg hne] at hc
            exact h1.corres n lab c hc
      · intro n lab c hc
        dsimp only at hc
        by_cases h0 : c0 - 1 = 0
        · rw [if_pos h0, lookup_filter_ne] at hc
          by_cases hne : n = (st.ino, st.dev)
          · rw [if_pos hne] at hc; cases hc
          · rw [if_neg hne] at hc
            have := h3 n lab c hc
            rw [hocc] at this; omega
        · rw [if_neg h0, List.lookup_cons, lookup_filter_ne] at hc
          by_cases hne : n = (st.ino, st.dev)
          · subst hne
            simp at hc
            have : occ (nodeOf st) rest ≤ c := by omega
            exact this
          · rw [show (n == (st.ino, st.dev)) = false by simpa using hne, if_neg hne] at hc
            have := h3 n lab c hc
            rw [hocc] at this; omega
      · intro n hc
        dsimp only at hc
        by_cases hne : n = nodeOf st
        · subst hne
          by_cases h0 : c0 - 1 = 0
          · refine ⟨fun _ => by omega, fun hm => absurd (List.mem_of_getElem? hown) hm⟩
          · rw [if_neg h0, List.lookup_cons] at hc
            simp [nodeOf] at hc
        · have hne' : n ≠ (st.ino, st.dev) := hne
          have hlk2 : k.corres.lookup n = none := by
            by_cases h0 : c0 - 1 = 0
            · rw [if_pos h0, lookup_filter_ne, if_neg hne'] at hc; exact hc
            · rw [if_neg h0, List.lookup_cons, lookup_filter_ne, show (n == (st.ino, st.dev)) = false by simpa using hne', if_neg hne'] at hc; exact hc
          have := h4 n hlk2
          rw [hocc, if_neg hne] at this
          simpa using this
  · simp only [if_neg hn]
    refine ⟨own, List.prefix_refl _, ⟨h1, h2, ?_, ?_, h5⟩, trivial⟩
    · intro n lab c hc
      have := h3 n lab c hc
      rw [hocc] at this; omega
    · intro n hc
      have := h4 n hc
      rw [hocc] at this
      exact ⟨fun hm => by have := this.1 hm; omega, fun hm => by have := this.2 hm; omega⟩
theorem SteadyInv.skip {links : Nat × Nat → Nat} {obj : Nat × Nat → Obj} {k : LinkSt} {own : List (Nat × Nat)} {w : WalkEv} {rest : List WalkEv}
    (h : SteadyInv links obj k own (w :: rest)) (hw : w.stat = none) : SteadyInv links obj k own rest := by
  obtain ⟨h1, h2, h3, h4, h5⟩ := h
  simp only [occ_other _ w hw] at h3 h4
  exact ⟨h1, h2, h3, h4, h5⟩
theorem emitAll_steady {links : Nat × Nat → Nat} {obj : Nat × Nat → Obj} {k : LinkSt} {own : List (Nat × Nat)} (ws : List WalkEv) (h : SteadyInv links obj k own ws)
    (hk : ∀ w ∈ ws, KindOk w) (hs : SteadyAs links obj ws) :
    ∃ own', own <+: own' ∧ SteadyInv links obj (emitAll k ws).2 own' [] ∧ List.Forall₂ (Labelled own') (ws.filter WalkEv.isEntry) (emitAll k ws).1 := by
  induction ws generalizing k own with
  | nil => exact ⟨own, List.prefix_refl _, h, .nil⟩
  | cons w ws ih =>
    have hk' : ∀ w ∈ ws, KindOk w := fun x hx => hk x (by simp [hx])
    have hs' : SteadyAs links obj ws := fun x hx => hs x (by simp [hx])
    have hw := hk w (by simp)
    cases w with
    | file p st =>
      obtain ⟨ha, hb⟩ := hs (.file p st) (by simp) st rfl
      obtain ⟨o1, h1, h2, h3⟩ := steady_step h hw ha hb (p.getLastD [])
      obtain ⟨o2, h4, h5, h6⟩ := ih h2 hk' hs'
      refine ⟨o2, h1.trans h4, h5, ?_⟩
      rw [List.filter_cons_of_pos rfl]
      exact .cons (Labelled.mono h4 (w := .file p st) ⟨rfl, h3⟩) h6
    | dir p st =>
      have e : linkStep k (p.getLastD []) st = _ := linkStep_dir _ hw
      obtain ⟨o2, h4, h5, h6⟩ := ih (k := (linkStep k (p.getLastD []) st).2) (by rw [e]; exact h.skip rfl) hk' hs'
      refine ⟨o2, h4, h5, ?_⟩
      rw [List.filter_cons_of_pos rfl]
      exact .cons ⟨rfl, by rw [e]⟩ h6
    | eod p =>
      obtain ⟨o2, h4, h5, h6⟩ := ih (h.skip rfl) hk' hs'
      refine ⟨o2, h4, h5, ?_⟩
      rw [List.filter_cons_of_pos rfl]
      exact .cons ⟨rfl, rfl⟩ h6
    | flagged p => exact ih (h.skip rfl) hk' hs'
    | unread p a => exact ih (h.skip rfl) hk' hs'

end Dar
