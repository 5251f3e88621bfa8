import Verif.Spec.EaRestore
import Mathlib.Tactic.Ring
/- C81: the restoration of extended attributes. -/
namespace Dar.Eas
open Dar

/-! ### one inode -/

theorem sorted_filter (m : EaMap) (f : Bytes × Bytes → Bool) (h : EaSorted m) : EaSorted (m.filter f) := List.Pairwise.filter _ h

theorem find_filter (m : EaMap) (f : Bytes → Bool) (k : Bytes) : eaFind (m.filter (fun p => f p.1)) k = if f k then eaFind m k else none := by
  induction m with
  | nil => simp [eaFind]
  | cons p m ih =>
    obtain ⟨a, b⟩ := p
    rw [List.filter_cons]
    by_cases ha : f a = true
    · rw [if_pos ha]
      unfold eaFind
      by_cases hk : k = a
      · subst hk; simp [ha]
      · rw [if_neg hk, ih, if_neg hk]
    · rw [if_neg ha, ih]
      by_cases hk : k = a
      · subst hk; simp [ha]
      · by_cases hf : f k = true
        · rw [if_pos hf, if_pos hf, eaFind, if_neg hk]
        · rw [if_neg hf, if_neg hf]

theorem find_head {k v : Bytes} {l : EaMap} (h : EaSorted ((k, v) :: l)) : eaFind l k = none := by
  have h1 := (List.pairwise_cons.1 h).1
  cases hf : eaFind l k with
  | none => rfl
  | some u =>
    have hm := (eaFind_mem l (List.pairwise_cons.1 h).2 (k, u)).2 hf
    have := h1 _ hm
    rw [strLt_irrefl] at this
    cases this

theorem find_cons (k v : Bytes) (l : EaMap) (j : Bytes) : eaFind ((k, v) :: l) j = if j = k then some v else eaFind l j := rfl

theorem write_sorted (c : Cfg) (cov : Bytes → Bool) : ∀ (l m : EaMap), EaSorted m → EaSorted (writeEa c cov l m).1
  | [], _, h => h
  | (k, v) :: l, m, h => by
    unfold writeEa
    split
    · split
      · exact write_sorted c cov l _ (eaAdd_sorted m k v h)
      · exact h
    · exact write_sorted c cov l m h

/-- everything is accepted -/
theorem write_find (c : Cfg) (cov : Bytes → Bool) (j : Bytes) : ∀ (l m : EaMap), EaSorted l → (∀ q ∈ l, cov q.1 = true → c.setOk q.1 = true) →
    (writeEa c cov l m).2 = none ∧ eaFind (writeEa c cov l m).1 j = if cov j then (eaFind l j).or (eaFind m j) else eaFind m j
  | [], m, _, _ => ⟨rfl, by simp [writeEa, eaFind]⟩
  | (k, v) :: l, m, hs, ho => by
    have hs' : EaSorted l := (List.pairwise_cons.1 hs).2
    unfold writeEa
    by_cases hk : cov k = true
    · rw [if_pos hk, if_pos (ho _ List.mem_cons_self hk)]
      obtain ⟨h1, h2⟩ := write_find c cov j l (eaAdd m k v) hs' (fun q hq => ho q (List.mem_cons_of_mem _ hq))
      refine ⟨h1, ?_⟩
      rw [h2, eaFind_add, find_cons]
      by_cases hj : j = k
      · subst hj; rw [find_head hs]; simp [hk]
      · rw [if_neg hj, if_neg hj]
    · rw [if_neg hk]
      obtain ⟨h1, h2⟩ := write_find c cov j l m hs' (fun q hq => ho q (List.mem_cons_of_mem _ hq))
      refine ⟨h1, ?_⟩
      rw [h2, find_cons]
      by_cases hj : j = k
      · subst hj; simp [hk]
      · rw [if_neg hj]

/-- whatever is accepted -/
theorem write_source (c : Cfg) (cov : Bytes → Bool) (j : Bytes) : ∀ (l m : EaMap), EaSorted l →
    eaFind (writeEa c cov l m).1 j = eaFind m j ∨ (cov j = true ∧ eaFind (writeEa c cov l m).1 j = eaFind l j)
  | [], m, _ => .inl rfl
  | (k, v) :: l, m, hs => by
    have hs' : EaSorted l := (List.pairwise_cons.1 hs).2
    unfold writeEa
    by_cases hk : cov k = true
    · rw [if_pos hk]
      by_cases ho : c.setOk k = true
      · rw [if_pos ho]
        rcases write_source c cov j l (eaAdd m k v) hs' with h | ⟨h1, h2⟩
        · rw [h, eaFind_add, find_cons]
          by_cases hj : j = k
          · subst hj; simp [hk]
          · rw [if_neg hj, if_neg hj]; exact .inl rfl
        · by_cases hj : j = k
          · subst hj
            rw [find_head hs] at h2
            rcases write_source c cov j l (eaAdd m j v) hs' with h | ⟨_, h⟩
            · rw [h, eaFind_add, if_pos rfl] at h2; cases h2
            · -- the key is not in the rest: what is written first stays
              exfalso
              have : ∀ (l m : EaMap), eaFind l j = none → EaSorted l → eaFind m j ≠ none → eaFind (writeEa c cov l m).1 j ≠ none := by
                intro l
                induction l with
                | nil => intro m _ _ h; exact h
                | cons q l ih =>
                  intro m hl hsl hm
                  obtain ⟨a, b⟩ := q
                  rw [find_cons] at hl
                  by_cases hja : j = a
                  · rw [if_pos hja] at hl; cases hl
                  · rw [if_neg hja] at hl
                    unfold writeEa
                    split
                    · split
                      · refine ih _ hl (List.pairwise_cons.1 hsl).2 ?_
                        rw [eaFind_add, if_neg hja]; exact hm
                      · exact hm
                    · exact ih _ hl (List.pairwise_cons.1 hsl).2 hm
              exact this l (eaAdd m j v) (find_head hs) hs' (by rw [eaFind_add, if_pos rfl]; simp) h2
          · right; refine ⟨h1, ?_⟩; rw [h2, find_cons, if_neg hj]
      · rw [if_neg ho]; exact .inl rfl
    · rw [if_neg hk]
      rcases write_source c cov j l m hs' with h | ⟨h1, h2⟩
      · exact .inl h
      · right; refine ⟨h1, ?_⟩
        rw [h2, find_cons, if_neg (by rintro rfl; exact hk h1)]

theorem remove_sorted (c : Cfg) : ∀ (l m : EaMap), EaSorted m → EaSorted (removeEa c l m).1
  | [], _, h => h
  | (k, _) :: l, m, h => by
    unfold removeEa
    split
    · exact remove_sorted c l _ (sorted_filter m _ h)
    · exact h

theorem find_del (m : EaMap) (k j : Bytes) : eaFind (m.filter (fun p => p.1 ≠ k)) j = if j = k then none else eaFind m j := by
  have := find_filter m (fun a => decide (a ≠ k)) j
  rw [this]
  by_cases h : j = k
  · simp [h]
  · simp [h]

theorem remove_find (c : Cfg) (j : Bytes) : ∀ (l m : EaMap), (∀ q ∈ l, c.delOk q.1 = true) →
    (removeEa c l m).2 = none ∧ eaFind (removeEa c l m).1 j = if eaFind l j = none then eaFind m j else none
  | [], m, _ => ⟨rfl, by simp [removeEa, eaFind]⟩
  | (k, v) :: l, m, ho => by
    unfold removeEa
    rw [if_pos (ho _ List.mem_cons_self)]
    obtain ⟨h1, h2⟩ := remove_find c j l (m.filter (fun p => p.1 ≠ k)) (fun q hq => ho q (List.mem_cons_of_mem _ hq))
    refine ⟨h1, ?_⟩
    rw [h2, find_del, find_cons]
    by_cases hj : j = k
    · simp [hj]
    · rw [if_neg hj, if_neg hj]

theorem remove_source (c : Cfg) (j : Bytes) : ∀ (l m : EaMap), eaFind (removeEa c l m).1 j = eaFind m j ∨ eaFind (removeEa c l m).1 j = none
  | [], _ => .inl rfl
  | (k, _) :: l, m => by
    unfold removeEa
    split
    · rcases remove_source c j l (m.filter (fun p => p.1 ≠ k)) with h | h
      · rw [h, find_del]
        by_cases hj : j = k
        · rw [if_pos hj]; exact .inr rfl
        · rw [if_neg hj]; exact .inl rfl
      · exact .inr h
    · exact .inl rfl

theorem read_find (cov : Bytes → Bool) (m : EaMap) (j : Bytes) : eaFind (readEa cov m) j = if cov j then eaFind m j else none := find_filter m cov j
theorem read_sorted (cov : Bytes → Bool) (m : EaMap) (h : EaSorted m) : EaSorted (readEa cov m) := sorted_filter m _ h

theorem clear_find (c : Cfg) (m : EaMap) (hd : ∀ k, c.delOk k = true) (j : Bytes) : (clearEa c m).2 = none ∧ eaFind (clearEa c m).1 j = none := by
  unfold clearEa
  obtain ⟨h1, h2⟩ := remove_find c j (readEa (fun _ => true) m) m (fun q _ => hd q.1)
  refine ⟨h1, ?_⟩
  rw [h2, read_find]
  by_cases h : eaFind m j = none
  · simp [h]
  · simp [h]
theorem clear_sorted (c : Cfg) (m : EaMap) (h : EaSorted m) : EaSorted (clearEa c m).1 := remove_sorted c _ m h

theorem plus_sorted (a b : EaMap) (h : EaSorted a) : EaSorted (eaPlus a b) := eaFold_sorted b a h
theorem plus_find (j : Bytes) : ∀ (b a : EaMap), EaSorted b → eaFind (eaPlus a b) j = (eaFind b j).or (eaFind a j)
  | [], a, _ => by simp [eaPlus, eaFind]
  | (k, v) :: b, a, h => by
    have ih := plus_find j b (eaAdd a k v) (List.pairwise_cons.1 h).2
    have : eaPlus a ((k, v) :: b) = eaPlus (eaAdd a k v) b := rfl
    rw [this, ih, eaFind_add, find_cons]
    by_cases hj : j = k
    · subst hj; rw [find_head h]; simp
    · rw [if_neg hj, if_neg hj]

/-! ### one entry -/

theorem put_at (w : W) (i : Nat) (m : EaMap) : (w.put i m).ea i = m := by simp [W.put]

theorem writeAt_ok {c : Cfg} {cov : Bytes → Bool} {w : W} {p : Bytes} {i : Nat} {l : EaMap} (hc : c.Allows) (hp : w.ent p = some i) (hl : EaSorted l)
    (hs : EaSorted (w.ea i)) : ∃ w', w.writeAt c cov p l = (w', none) ∧ w'.ent = w.ent ∧ w'.seen = w.seen ∧ EaSorted (w'.ea i) ∧
      ∀ j, eaFind (w'.ea i) j = if cov j then (eaFind l j).or (eaFind (w.ea i) j) else eaFind (w.ea i) j := by
  unfold W.writeAt
  rw [hp]
  simp only
  rw [(write_find c cov [] l (w.ea i) hl (fun q _ _ => (hc q.1).1)).1]
  refine ⟨_, rfl, rfl, rfl, ?_, fun j => ?_⟩
  · rw [put_at]; exact write_sorted c cov l _ hs
  · rw [put_at]; exact (write_find c cov j l (w.ea i) hl (fun q _ _ => (hc q.1).1)).2

theorem rawSet_ok {c : Cfg} {w : W} {it : Item} {i : Nat} {l : EaMap} (hc : c.Allows) (hp : w.ent it.path = some i) (hf : FirstLink w it) (hl : EaSorted l)
    (hs : EaSorted (w.ea i)) : ∃ w', w.rawSet c it l = (w', .ok true) ∧ w'.ent = w.ent ∧ EaSorted (w'.ea i) ∧
      (∀ j, eaFind (w'.ea i) j = if c.cov j then (eaFind l j).or (eaFind (w.ea i) j) else eaFind (w.ea i) j) ∧
      (∀ k, it.label = some k → ∃ q, w'.seen k = some (q, true)) := by
  unfold W.rawSet
  cases hk : it.label with
  | none =>
    obtain ⟨w', h1, h2, h3, h4, h5⟩ := writeAt_ok (cov := c.cov) hc hp hl hs
    exact ⟨w', by simp only [h1, done], h2, h4, h5, fun k h => by cases h⟩
  | some k =>
    simp only
    have key : ∀ q, ∃ w', done ((w.record k q true).writeAt c c.cov it.path l) = (w', .ok true) ∧ w'.ent = w.ent ∧ EaSorted (w'.ea i) ∧
      (∀ j, eaFind (w'.ea i) j = if c.cov j then (eaFind l j).or (eaFind (w.ea i) j) else eaFind (w.ea i) j) ∧
      (∀ k', some k = some k' → ∃ q, w'.seen k' = some (q, true)) := by
      intro q
      obtain ⟨w', h1, h2, h3, h4, h5⟩ := writeAt_ok (w := w.record k q true) (cov := c.cov) hc hp hl hs
      refine ⟨w', by simp only [h1, done], h2, h4, h5, fun k' h => ?_⟩
      cases h
      exact ⟨q, by rw [h3]; simp [W.record]⟩
    cases hq : w.seen k with
    | none => exact key it.path
    | some r =>
      obtain ⟨q, b⟩ := r
      cases b with
      | true => exact absurd hq (hf k hk q)
      | false => exact key q

theorem clearAt_ok {c : Cfg} {w : W} {p : Bytes} {i : Nat} (hc : c.Allows) (hp : w.ent p = some i) (hs : EaSorted (w.ea i)) :
    ∃ w', w.clearAt c p = (w', none) ∧ w'.ent = w.ent ∧ w'.seen = w.seen ∧ EaSorted (w'.ea i) ∧ ∀ j, eaFind (w'.ea i) j = none := by
  unfold W.clearAt
  rw [hp]
  simp only
  rw [(clear_find c (w.ea i) (fun k => (hc k).2) []).1]
  refine ⟨_, rfl, rfl, rfl, ?_, fun j => ?_⟩
  · rw [put_at]; exact clear_sorted c _ hs
  · rw [put_at]; exact (clear_find c (w.ea i) (fun k => (hc k).2) j).2

theorem rawClear_ok {c : Cfg} {w : W} {it : Item} {i : Nat} (hc : c.Allows) (hp : w.ent it.path = some i) (hf : FirstLink w it) (hs : EaSorted (w.ea i)) :
    ∃ w', w.rawClear c it = (w', .ok true) ∧ w'.ent = w.ent ∧ EaSorted (w'.ea i) ∧ (∀ j, eaFind (w'.ea i) j = none) ∧ FirstLink w' it := by
  unfold W.rawClear
  cases hk : it.label with
  | none =>
    obtain ⟨w', h1, h2, h3, h4, h5⟩ := clearAt_ok hc hp hs
    exact ⟨w', by simp only [h1, done], h2, h4, h5, fun k h => by rw [hk] at h; cases h⟩
  | some k =>
    simp only
    cases hq : w.seen k with
    | none =>
      obtain ⟨w', h1, h2, h3, h4, h5⟩ := clearAt_ok (w := w.record k it.path false) hc hp hs
      refine ⟨w', by simp only [h1, done], h2, h4, h5, fun k' h q => ?_⟩
      rw [hk] at h; cases h
      rw [h3]; simp [W.record]
    | some r =>
      obtain ⟨q, b⟩ := r
      cases b with
      | true => exact absurd hq (hf k hk q)
      | false =>
        obtain ⟨w', h1, h2, h3, h4, h5⟩ := clearAt_ok hc hp hs
        refine ⟨w', by simp only [h1, done]; rfl, h2, h4, h5, fun k' h q' => ?_⟩
        rw [hk] at h; cases h
        rw [h3, hq]; intro h; cases h

/-- what an action makes of an attribute of the inode -/
def act (cov : Bool) (arch ip m : Option Bytes) : OverEa → Option Bytes
  | .overwrite => if cov then arch else none
  | .overwriteMark => if cov then arch else none
  | .clear => none
  | .mergePreserve => if cov then ip.or (arch.or m) else m
  | .mergeOverwrite => if cov then arch.or (ip.or m) else m
  | _ => m

def IsMerge (a : OverEa) : Prop := a = .mergePreserve ∨ a = .mergeOverwrite
def IsKeep (a : OverEa) : Prop := a = .preserve ∨ a = .preserveMark

theorem or_assoc' (a b c : Option Bytes) : (a.or b).or c = a.or (b.or c) := by cases a <;> rfl

theorem overAct_ok {c : Cfg} {w : W} {it : Item} {i : Nat} {ip : EaMap} {a : OverEa} (hc : c.Allows) (hp : w.ent it.path = some i) (hf : FirstLink w it)
    (he : EaSorted it.ea) (hip : EaSorted ip) (hs : EaSorted (w.ea i)) (ha : a ≠ .undefined ∧ a ≠ .ask) (hm : IsMerge a → it.st = .full) :
    ∃ w' b, w.overAct c it ip a = (w', .ok b) ∧ w'.ent = w.ent ∧ EaSorted (w'.ea i) ∧ (b = true ↔ ¬ IsKeep a) ∧
      (∀ j, eaFind (w'.ea i) j = act (c.cov j) (eaFind it.getEa j) (eaFind ip j) (eaFind (w.ea i) j) a) ∧
      (IsKeep a → w' = w) := by
  have hg : EaSorted it.getEa := by
    unfold Item.getEa
    split
    · exact he
    · exact List.Pairwise.nil
  have hover : ∃ w', (match w.rawClear c it with
      | (w, .ok true) => w.rawSet c it it.getEa
      | r => r) = (w', .ok true) ∧ w'.ent = w.ent ∧ EaSorted (w'.ea i) ∧
      (∀ j, eaFind (w'.ea i) j = if c.cov j then eaFind it.getEa j else none) := by
    obtain ⟨w1, h1, h2, h3, h4, h5⟩ := rawClear_ok hc hp hf hs
    rw [h1]
    obtain ⟨w2, g1, g2, g3, g4, -⟩ := rawSet_ok (l := it.getEa) hc (by rw [h2]; exact hp) h5 hg h3
    refine ⟨w2, g1, g2.trans h2, g3, fun j => ?_⟩
    rw [g4, h4]; simp
  cases a with
  | preserve => exact ⟨w, false, rfl, rfl, hs, by simp [IsKeep], fun j => rfl, fun _ => rfl⟩
  | preserveMark => exact ⟨w, false, rfl, rfl, hs, by simp [IsKeep], fun j => rfl, fun _ => rfl⟩
  | overwrite =>
    obtain ⟨w', h1, h2, h3, h4⟩ := hover
    exact ⟨w', true, h1, h2, h3, by simp [IsKeep], h4, fun h => by rcases h with h | h <;> cases h⟩
  | overwriteMark =>
    obtain ⟨w', h1, h2, h3, h4⟩ := hover
    exact ⟨w', true, h1, h2, h3, by simp [IsKeep], h4, fun h => by rcases h with h | h <;> cases h⟩
  | clear =>
    obtain ⟨w1, h1, h2, h3, h4, h5⟩ := rawClear_ok hc hp hf hs
    exact ⟨w1, true, h1, h2, h3, by simp [IsKeep], h4, fun h => by rcases h with h | h <;> cases h⟩
  | mergePreserve =>
    have hfull := hm (.inl rfl)
    obtain ⟨w2, g1, g2, g3, g4, -⟩ := rawSet_ok (l := eaPlus it.getEa ip) hc hp hf (plus_sorted _ _ hg) hs
    refine ⟨w2, true, by simp only [W.overAct, if_pos hfull, g1], g2, g3, by simp [IsKeep], fun j => ?_, fun h => by rcases h with h | h <;> cases h⟩
    rw [g4, plus_find j _ _ hip, or_assoc']; rfl
  | mergeOverwrite =>
    have hfull := hm (.inr rfl)
    obtain ⟨w2, g1, g2, g3, g4, -⟩ := rawSet_ok (l := eaPlus ip it.getEa) hc hp hf (plus_sorted _ _ hip) hs
    refine ⟨w2, true, by simp only [W.overAct, if_pos hfull, g1], g2, g3, by simp [IsKeep], fun j => ?_, fun h => by rcases h with h | h <;> cases h⟩
    rw [g4, plus_find j _ _ hg, or_assoc']; rfl
  | undefined => exact absurd rfl ha.1
  | ask => exact absurd rfl ha.2

/-- once the attributes have been restored through another name nothing is done -/
theorem overAct_done {c : Cfg} {w : W} {it : Item} {ip : EaMap} {a : OverEa} {k : Nat} {q : Bytes} (hk : it.label = some k) (hq : w.seen k = some (q, true)) :
    (w.overAct c it ip a).1 = w := by
  have h1 : w.rawClear c it = (w, .ok false) := by unfold W.rawClear; rw [hk]; simp only [hq]; rfl
  have h2 : ∀ l, w.rawSet c it l = (w, .ok false) := by intro l; unfold W.rawSet; rw [hk]; simp only [hq]; rfl
  cases a <;> simp only [W.overAct, h1, h2] <;> split <;> rfl

theorem chown_find (c : Cfg) (w : W) (it : Item) (i : Nat) (hp : w.ent it.path = some i) (hs : EaSorted (w.ea i)) :
    (w.chown c it).ent = w.ent ∧ (w.chown c it).seen = w.seen ∧ EaSorted ((w.chown c it).ea i) ∧
    ∀ j, eaFind ((w.chown c it).ea i) j = if c.own = true ∧ it.dir = false ∧ j = capKey then none else eaFind (w.ea i) j := by
  unfold W.chown
  by_cases h : (c.own && !it.dir) = true
  · rw [if_pos h, hp]
    rw [Bool.and_eq_true] at h
    have hd : it.dir = false := by simpa using h.2
    refine ⟨rfl, rfl, ?_, fun j => ?_⟩
    · simp only [put_at]; exact sorted_filter _ _ hs
    · simp only [put_at, find_del]
      by_cases hj : j = capKey
      · rw [if_pos hj, if_pos ⟨h.1, hd, hj⟩]
      · rw [if_neg hj, if_neg (fun h => hj h.2.2)]
  · rw [if_neg h]
    refine ⟨rfl, rfl, hs, fun j => ?_⟩
    rw [if_neg]
    rintro ⟨h1, h2, -⟩
    exact h (by rw [h1, h2]; rfl)

/-- a new inode for an entry whose data has not been restored through another name -/
theorem makeFile_new {c : Cfg} {w : W} {it : Item} (h : NewLink w it) : (w.makeFile c it).ent it.path = some w.next ∧ (w.makeFile c it).ea w.next = c.born ∧
    FirstLink (w.makeFile c it) it := by
  unfold W.makeFile
  cases hk : it.label with
  | none => exact ⟨by simp [W.create], by simp [W.create], fun k h => by rw [hk] at h; cases h⟩
  | some k =>
    simp only [h k hk]
    refine ⟨by simp [W.create, W.record], by simp [W.create, W.record], fun k' h q => ?_⟩
    rw [hk] at h; cases h
    simp [W.record]

theorem data_ok {c : Cfg} {w : W} {it : Item} {i : Nat} {d : Data} (hc : c.Allows) (hp : w.ent it.path = some i) (hf : FirstLink w it) (hs : EaSorted (w.ea i))
    (hd : d = .replaced → NewLink w it ∧ c.born = []) :
    ∃ n, (w.data c it d).ent it.path = some n ∧ FirstLink (w.data c it d) it ∧ EaSorted ((w.data c it d).ea n) ∧
      ∀ j, eaFind ((w.data c it d).ea n) j = eaFind (w.ea i) j := by
  cases d with
  | kept => exact ⟨i, hp, hf, hs, fun _ => rfl⟩
  | restored => exact ⟨i, hp, hf, hs, fun _ => rfl⟩
  | replaced =>
    obtain ⟨hn, hb⟩ := hd rfl
    unfold W.data W.replace W.at_
    rw [hp]
    simp only
    have hn' : NewLink { w with ent := fun q => if q = it.path then none else w.ent q } it := hn
    obtain ⟨h1, h2, h3⟩ := makeFile_new (c := c) hn'
    have hr : readEa (fun _ => true) (w.ea i) = w.ea i := by simp [readEa]
    rw [hr]
    split
    · next he =>
      refine ⟨w.next, h1, h3, ?_, fun j => ?_⟩
      · simp only at h2; rw [h2, hb]; exact List.Pairwise.nil
      · simp only at h2; rw [h2, hb, he]
    · obtain ⟨w', g1, g2, g3, g4, g5⟩ := writeAt_ok (cov := fun _ => true) hc h1 hs (by simp only at h2; rw [h2, hb]; exact List.Pairwise.nil)
      rw [g1]
      refine ⟨w.next, by rw [g2]; exact h1, ?_, g4, fun j => ?_⟩
      · intro k hk q; rw [g3]; exact h3 k hk q
      · rw [g5]; simp only at h2; rw [h2, hb]; simp [eaFind]

theorem owner_find (c : Cfg) (w : W) (it : Item) (d : Data) (i : Nat) (hp : w.ent it.path = some i) (hs : EaSorted (w.ea i)) :
    (w.owner c it d).ent = w.ent ∧ (w.owner c it d).seen = w.seen ∧ EaSorted ((w.owner c it d).ea i) ∧
    ∀ j, eaFind ((w.owner c it d).ea i) j = if d ≠ .kept ∧ c.own = true ∧ it.dir = false ∧ j = capKey then none else eaFind (w.ea i) j := by
  cases d with
  | kept => exact ⟨rfl, rfl, hs, fun j => by simp [W.owner]⟩
  | restored => simpa [W.owner] using chown_find c w it i hp hs
  | replaced => simpa [W.owner] using chown_find c w it i hp hs

theorem effective_cases (ip : EaMap) (st : EaStatus) (a : OverEa) (ha : a ≠ .undefined ∧ a ≠ .ask) :
    (effective ip st a ≠ .undefined ∧ effective ip st a ≠ .ask) ∧ (IsMerge (effective ip st a) → st ≠ .removed) := by
  unfold effective IsMerge
  constructor
  · constructor
    · intro h
      cases a <;> simp_all <;> (split at h <;> simp_all) <;> (split at h <;> simp_all)
    · intro h
      cases a <;> simp_all <;> (split at h <;> simp_all) <;> (split at h <;> simp_all)
  · intro h hr
    subst hr
    cases a <;> simp_all <;> (split at h <;> simp_all)

theorem act_twice (cov : Bool) (arch ip m : Option Bytes) (a : OverEa) : act cov arch ip (act cov arch ip m a) a = act cov arch ip m a := by
  cases a <;> cases cov <;> cases arch <;> cases ip <;> rfl

/-- the actions give what is wanted -/
theorem act_wanted (cov : Bool) (arch old : Option Bytes) (ip : EaMap) (st : EaStatus) (a : OverEa) (hi : IsMerge a → st = .full → ip ≠ [])
    (hst : st = .full ∨ st = .removed) (hr : st = .removed → arch = none) (ha : a ≠ .undefined ∧ a ≠ .ask) :
    act cov arch (if cov then old else none) old (effective ip st a) = wanted (decide (st = .removed)) cov arch old a := by
  rcases hst with rfl | rfl
  · have hi' : IsMerge a → ip ≠ [] := fun h => hi h rfl
    unfold IsMerge at hi'
    cases a <;> simp [effective] <;> first | rfl | (simp at hi'; rw [if_neg hi']; cases cov <;> cases arch <;> cases old <;> rfl) | exact absurd rfl ha.1 | exact absurd rfl ha.2
  · have := hr rfl
    subst this
    cases a <;> simp [effective] <;> first | rfl | (by_cases h : ip = [] <;> simp [h] <;> cases cov <;> rfl) | exact absurd rfl ha.1 | exact absurd rfl ha.2

/-- C81: restoring an entry whose attributes are in the archive over an existing file leaves each attribute as the overwriting policy and the mask say, on a system that accepts to set and to
remove every attribute: when the attributes are merged the file must have an attribute covered by the mask (`hm`, see C81_merge_counterexample), and
security.capability is the one wanted when no ownership is restored, or the entry is not a hard link, the mask covers it and attributes are not preserved (`hcap`, see C81_capability_counterexample). -/
theorem C81_policy_partial (c : Cfg) (w w' : W) (it : Item) (d : Data) (a : OverEa) (i : Nat) (k : Bytes) (h : w.writeOver c it d a = (w', none))
    (hc : c.Allows) (hp : w.ent it.path = some i) (hs : EaSorted (w.ea i)) (he : EaSorted it.ea) (hst : it.st = .full ∨ it.st = .removed)
    (ha : a ≠ .undefined ∧ a ≠ .ask) (hf : FirstLink w it) (hd : d = .replaced → NewLink w it ∧ c.born = [])
    (hm : IsMerge a → it.st = .full → ∃ j, c.cov j = true ∧ eaFind (w.ea i) j ≠ none)
    (hcap : k = capKey → d = .kept ∨ c.own = false ∨ it.dir = true ∨ (it.label = none ∧ c.cov k = true ∧ ¬ IsKeep a)) :
    eaFind (w'.at_ it.path) k = wanted (decide (it.st = .removed)) (c.cov k) (eaFind it.getEa k) (eaFind (w.ea i) k) a := by
  have hsav : it.eaSaved = true := by unfold Item.eaSaved; rcases hst with h | h <;> simp [h]
  have hat : w.at_ it.path = w.ea i := by unfold W.at_; rw [hp]
  unfold W.writeOver at h
  simp only at h
  rw [hat, if_pos hsav] at h
  have hip : EaSorted (readEa c.cov (w.ea i)) := read_sorted _ _ hs
  have hipf : ∀ j, eaFind (readEa c.cov (w.ea i)) j = if c.cov j then eaFind (w.ea i) j else none := read_find _ _
  have hne : IsMerge a → it.st = .full → readEa c.cov (w.ea i) ≠ [] := by
    intro h1 h2 h3
    obtain ⟨j, hj, hj'⟩ := hm h1 h2
    have := hipf j
    rw [h3, if_pos hj] at this
    exact hj' this.symm
  generalize hgip : readEa c.cov (w.ea i) = ip at h hip hipf hne
  obtain ⟨⟨ha1, ha2⟩, hmr⟩ := effective_cases ip it.st a ha
  have hmf : IsMerge (effective ip it.st a) → it.st = .full := by
    intro hh
    rcases hst with h | h
    · exact h
    · exact absurd h (hmr hh)
  have hk2 : IsKeep (effective ip it.st a) ↔ IsKeep a := by
    unfold effective IsKeep
    cases a <;> simp <;> split <;> simp <;> split <;> simp
  have hw := act_wanted (c.cov k) (eaFind it.getEa k) (eaFind (w.ea i) k) ip it.st a hne hst
    (by intro h; unfold Item.getEa; rw [h]; rfl) ha
  rw [← hw, ← hipf k]
  generalize hga : effective ip it.st a = a' at *
  obtain ⟨n, d1, d2, d3, d4⟩ := data_ok hc hp hf hs hd
  generalize hgw : w.data c it d = w1 at *
  obtain ⟨w2, b, o1, o2, o3, o4, o5, o6⟩ := overAct_ok hc d1 d2 he hip d3 ⟨ha1, ha2⟩ hmf
  have hov : w1.overEa c it ip a = (w2, .ok b) := by unfold W.overEa; rw [hga]; exact o1
  rw [hov] at h
  have p2 : w2.ent it.path = some n := by rw [o2]; exact d1
  obtain ⟨q1, q2, q3, q4⟩ := owner_find c w2 it d n p2 o3
  have p3 : (w2.owner c it d).ent it.path = some n := by rw [q1]; exact p2
  have fin : ∀ w3 : W, w3.ent it.path = some n → w3.at_ it.path = w3.ea n := fun w3 h => by unfold W.at_; rw [h]
  cases b with
  | false =>
    have hkeep : IsKeep a' := by
      by_cases hx : IsKeep a'
      · exact hx
      · exact absurd (o4.2 hx) (by simp)
    simp only [W.after] at h
    cases h
    rw [fin _ p3, q4, if_neg, o5, d4]
    rintro ⟨h1, h2, h3, h4⟩
    rcases hcap h4 with h | h | h | h
    · exact h1 h
    · rw [h] at h2; cases h2
    · rw [h] at h3; cases h3
    · exact h.2.2 (hk2.1 hkeep)
  | true =>
    have hnk : ¬ IsKeep a' := o4.1 rfl
    simp only [W.after] at h
    have hov2 : (w2.owner c it d).overEa c it ip a = (w2.owner c it d).overAct c it ip a' := by unfold W.overEa; rw [hga]
    rw [hov2] at h
    cases h
    by_cases hfl : FirstLink (w2.owner c it d) it
    · obtain ⟨w4, b4, r1, r2, r3, r4, r5, r6⟩ := overAct_ok hc p3 hfl he hip q3 ⟨ha1, ha2⟩ hmf
      rw [r1]
      have p4 : w4.ent it.path = some n := by rw [r2]; exact p3
      rw [fin _ p4, r5, q4]
      by_cases hcc : d ≠ .kept ∧ c.own = true ∧ it.dir = false ∧ k = capKey
      · rw [if_pos hcc]
        rcases hcap hcc.2.2.2 with h | h | h | h
        · exact absurd h hcc.1
        · rw [h] at hcc; cases hcc.2.1
        · rw [h] at hcc; cases hcc.2.2.1
        · have hcov := h.2.1
          rw [hipf k, if_pos hcov, hcov]
          generalize eaFind (w.ea i) k = o
          generalize eaFind it.getEa k = r
          unfold IsKeep at hnk
          cases a' <;> cases o <;> cases r <;> first | rfl | exact absurd (.inl rfl) hnk | exact absurd (.inr rfl) hnk | exact absurd rfl ha1 | exact absurd rfl ha2
      · rw [if_neg hcc, o5, d4, act_twice]
    · obtain ⟨l, hl, q, hq⟩ : ∃ l, it.label = some l ∧ ∃ q, (w2.owner c it d).seen l = some (q, true) := by
        unfold FirstLink at hfl
        push Not at hfl
        obtain ⟨l, h1, q, h2⟩ := hfl
        exact ⟨l, h1, q, h2⟩
      rw [overAct_done hl hq, fin _ p3, q4, if_neg, o5, d4]
      rintro ⟨h1, h2, h3, h4⟩
      rcases hcap h4 with h | h | h | h
      · exact h1 h
      · rw [h] at h2; cases h2
      · rw [h] at h3; cases h3
      · rw [h.1] at hl; cases hl

theorem rawSet_done {c : Cfg} {w : W} {it : Item} {l : EaMap} {k : Nat} {q : Bytes} (hk : it.label = some k) (hq : w.seen k = some (q, true)) :
    (w.rawSet c it l).1 = w := by
  unfold W.rawSet; rw [hk]; simp only [hq]; rfl

/-- C81: restoring an entry where there is nothing gives it the attributes of the archive covered by the mask, and those the system gives to any new file. -/
theorem C81_new_partial (c : Cfg) (w : W) (it : Item) (k : Bytes) (hc : c.Allows) (hn : NewLink w it) (hb : EaSorted c.born) (he : EaSorted it.ea) (hst : it.st = .full)
    (hcap : k = capKey → c.own = false ∨ it.dir = true ∨ (it.label = none ∧ c.cov k = true ∧ eaFind it.ea k ≠ none)) :
    eaFind ((w.writeNew c it).at_ it.path) k = (if c.cov k then (eaFind it.ea k).or (eaFind c.born k) else eaFind c.born k) := by
  have hsav : it.eaSaved = true := by unfold Item.eaSaved; simp [hst]
  have hg : it.getEa = it.ea := by unfold Item.getEa; rw [if_pos hst]
  unfold W.writeNew
  simp only [if_pos hsav, hg]
  obtain ⟨h1, h2, h3⟩ := makeFile_new (c := c) hn
  generalize w.makeFile c it = w1 at *
  generalize w.next = n at *
  obtain ⟨w2, g1, g2, g3, g4, g5⟩ := rawSet_ok (l := it.ea) hc h1 h3 he (by rw [h2]; exact hb)
  rw [g1]
  have p2 : w2.ent it.path = some n := by rw [g2]; exact h1
  obtain ⟨q1, q2, q3, q4⟩ := chown_find c w2 it n p2 g3
  have p3 : (w2.chown c it).ent it.path = some n := by rw [q1]; exact p2
  have fin : ∀ w3 : W, w3.ent it.path = some n → w3.at_ it.path = w3.ea n := fun w3 h => by unfold W.at_; rw [h]
  cases hl : it.label with
  | none =>
    obtain ⟨w4, r1, r2, r3, r4, -⟩ := rawSet_ok (l := it.ea) hc p3 (fun k h => by rw [hl] at h; cases h) he q3
    rw [r1, fin w4 (by rw [r2]; exact p3), r4, q4]
    by_cases hcc : c.own = true ∧ it.dir = false ∧ k = capKey
    · rw [if_pos hcc]
      rcases hcap hcc.2.2 with h | h | h
      · rw [h] at hcc; cases hcc.1
      · rw [h] at hcc; cases hcc.2.1
      · rw [if_pos h.2.1, if_pos h.2.1]
        cases hx : eaFind it.ea k with
        | none => exact absurd hx h.2.2
        | some v => rfl
    · rw [if_neg hcc, g4, h2]
      cases c.cov k <;> cases eaFind it.ea k <;> rfl
  | some l =>
    obtain ⟨q, hq⟩ := g5 l hl
    rw [rawSet_done hl (by rw [q2]; exact hq), fin _ p3, q4, if_neg, g4, h2]
    rintro ⟨a1, a2, a3⟩
    rcases hcap a3 with h | h | h
    · rw [h] at a1; cases a1
    · rw [h] at a2; cases a2
    · rw [h.1] at hl; cases hl

/-- C81: another name of an inode whose attributes have been restored shows the attributes the inode has, and restoring it changes none of them (but security.capability when the ownership is
restored, see C81_capability_counterexample) -/
theorem C81_link_partial (c : Cfg) (w : W) (it : Item) (l i : Nat) (q k : Bytes) (hl : it.label = some l) (hq : w.seen l = some (q, true)) (hp : w.ent q = some i)
    (hs : EaSorted (w.ea i)) (hcap : k = capKey → c.own = false ∨ it.dir = true) :
    eaFind ((w.writeNew c it).at_ it.path) k = eaFind (w.ea i) k ∧ eaFind ((w.writeNew c it).ea i) k = eaFind (w.ea i) k := by
  have hmk : w.makeFile c it = { w with ent := fun p => if p = it.path then some i else w.ent p } := by
    unfold W.makeFile; rw [hl]; simp only [hq, hp]
  unfold W.writeNew
  simp only [hmk]
  have h1 : ∀ (w1 : W), w1.seen l = some (q, true) → (if it.eaSaved = true then (w1.rawSet c it it.getEa).1 else w1) = w1 := by
    intro w1 h
    split
    · exact rawSet_done hl h
    · rfl
  rw [h1 { w with ent := fun p => if p = it.path then some i else w.ent p } hq]
  obtain ⟨q1, q2, q3, q4⟩ := chown_find c { w with ent := fun p => if p = it.path then some i else w.ent p } it i (by simp) hs
  rw [h1 _ (by rw [q2]; exact hq)]
  have : eaFind ((W.chown c { w with ent := fun p => if p = it.path then some i else w.ent p } it).ea i) k = eaFind (w.ea i) k := by
    rw [q4, if_neg]
    rintro ⟨a1, a2, a3⟩
    rcases hcap a3 with h | h
    · rw [h] at a1; cases a1
    · rw [h] at a2; cases a2
  refine ⟨?_, this⟩
  unfold W.at_
  rw [q1]
  simp only [if_true]
  exact this

/-! ### whatever the system refuses -/

/-- where the value an attribute of an inode has may come from: nowhere, the inode itself, the file that was at this path, the system, or the archive for an attribute that is covered -/
def Source (c : Cfg) (w : W) (it : Item) (j : Nat) (k : Bytes) (v : Option Bytes) : Prop :=
  v = none ∨ v = eaFind (w.ea j) k ∨ v = eaFind (w.at_ it.path) k ∨ v = eaFind c.born k ∨ (c.cov k = true ∧ v = eaFind it.ea k)

/-- all the inodes of a state have such values, and only one inode may have changed: the one found at the path -/
def Sourced (c : Cfg) (w : W) (it : Item) (w' : W) : Prop :=
  (∀ j k, Source c w it j k (eaFind (w'.ea j) k)) ∧ (∀ j, w'.ea j ≠ w.ea j → w'.ent it.path = some j)

theorem sourced_put {c : Cfg} {w : W} {it : Item} {w' : W} {i : Nat} {m : EaMap} (h : Sourced c w it w') (hp : w'.ent it.path = some i)
    (hm : ∀ k, Source c w it i k (eaFind m k)) : Sourced c w it (w'.put i m) := by
  refine ⟨fun j k => ?_, fun j hj => ?_⟩
  · by_cases hji : j = i
    · subst hji; rw [put_at]; exact hm k
    · simp only [W.put, if_neg hji]; exact h.1 j k
  · by_cases hji : j = i
    · rw [hji]; exact hp
    · simp only [W.put, if_neg hji] at hj; exact h.2 j hj

theorem sourced_congr {c : Cfg} {w : W} {it : Item} {w1 w2 : W} (h : Sourced c w it w1) (he : w2.ent = w1.ent) (ha : w2.ea = w1.ea) : Sourced c w it w2 := by
  refine ⟨fun j k => ?_, fun j hj => ?_⟩
  · rw [ha]; exact h.1 j k
  · rw [he]; rw [ha] at hj; exact h.2 j hj

theorem sourced_writeAt {c : Cfg} {w : W} {it : Item} {w' : W} {cov : Bytes → Bool} {l : EaMap} (h : Sourced c w it w') (hl : EaSorted l)
    (hsrc : ∀ k, cov k = true → ∀ v, eaFind l k = some v → ∀ j, Source c w it j k (some v)) : Sourced c w it (w'.writeAt c cov it.path l).1 := by
  unfold W.writeAt
  cases hp : w'.ent it.path with
  | none => exact h
  | some i =>
    refine sourced_put h hp (fun k => ?_)
    rcases write_source c cov k l (w'.ea i) hl with g | ⟨g1, g2⟩
    · rw [g]; exact h.1 i k
    · rw [g2]
      cases hv : eaFind l k with
      | none => exact .inl rfl
      | some v => exact hsrc k g1 v hv i

theorem sourced_clearAt {c : Cfg} {w : W} {it : Item} {w' : W} (h : Sourced c w it w') : Sourced c w it (w'.clearAt c it.path).1 := by
  unfold W.clearAt
  cases hp : w'.ent it.path with
  | none => exact h
  | some i =>
    refine sourced_put h hp (fun k => ?_)
    rcases remove_source c k (readEa (fun _ => true) (w'.ea i)) (w'.ea i) with g | g
    · unfold clearEa; rw [g]; exact h.1 i k
    · unfold clearEa; rw [g]; exact .inl rfl

theorem sourced_rawSet {c : Cfg} {w : W} {it : Item} {w' : W} {l : EaMap} (h : Sourced c w it w') (hl : EaSorted l)
    (hsrc : ∀ k, c.cov k = true → ∀ v, eaFind l k = some v → ∀ j, Source c w it j k (some v)) : Sourced c w it (w'.rawSet c it l).1 := by
  unfold W.rawSet
  cases it.label with
  | none => exact sourced_writeAt h hl hsrc
  | some k =>
    simp only
    cases w'.seen k with
    | none => exact sourced_writeAt (sourced_congr (w2 := w'.record k it.path true) h rfl rfl) hl hsrc
    | some r =>
      obtain ⟨q, b⟩ := r
      cases b with
      | true => exact h
      | false => exact sourced_writeAt (sourced_congr (w2 := w'.record k q true) h rfl rfl) hl hsrc

theorem sourced_rawClear {c : Cfg} {w : W} {it : Item} {w' : W} (h : Sourced c w it w') : Sourced c w it (w'.rawClear c it).1 := by
  unfold W.rawClear
  cases it.label with
  | none => exact sourced_clearAt h
  | some k =>
    simp only
    cases w'.seen k with
    | none => exact sourced_clearAt (sourced_congr (w2 := w'.record k it.path false) h rfl rfl)
    | some r =>
      obtain ⟨q, b⟩ := r
      cases b with
      | true => exact h
      | false => exact sourced_clearAt h

theorem sourced_chown {c : Cfg} {w : W} {it : Item} {w' : W} (h : Sourced c w it w') : Sourced c w it (w'.chown c it) := by
  unfold W.chown
  split
  · cases hp : w'.ent it.path with
    | none => exact h
    | some i =>
      refine sourced_put h hp (fun k => ?_)
      rw [find_del]
      split
      · exact .inl rfl
      · exact h.1 i k
  · exact h

theorem sourced_overEa {c : Cfg} {w : W} {it : Item} {w' : W} {ip : EaMap} {a : OverEa} (h : Sourced c w it w') (he : EaSorted it.ea) (hip : EaSorted ip)
    (hsip : ∀ k v, eaFind ip k = some v → eaFind (w.at_ it.path) k = some v) : Sourced c w it (w'.overEa c it ip a).1 := by
  have hg : EaSorted it.getEa := by
    unfold Item.getEa
    split
    · exact he
    · exact List.Pairwise.nil
  have hsg : ∀ k, c.cov k = true → ∀ v, eaFind it.getEa k = some v → ∀ j, Source c w it j k (some v) := by
    intro k hk v hv j
    unfold Item.getEa at hv
    split at hv
    · exact .inr (.inr (.inr (.inr ⟨hk, hv.symm⟩)))
    · cases hv
  have hover : Sourced c w it (match w'.rawClear c it with
      | (w, .ok true) => w.rawSet c it it.getEa
      | r => r).1 := by
    have h1 := sourced_rawClear h
    split
    · next w1 heq => rw [heq] at h1; exact sourced_rawSet h1 hg hsg
    · exact h1
  have hor : ∀ k, c.cov k = true → ∀ (x y : Option Bytes) v, x.or y = some v → (x = eaFind it.getEa k ∧ y = eaFind ip k ∨ x = eaFind ip k ∧ y = eaFind it.getEa k) →
      ∀ j, Source c w it j k (some v) := by
    intro k hk x y v hv hxy j
    have hx : eaFind it.getEa k = some v ∨ eaFind ip k = some v := by
      rcases hxy with ⟨rfl, rfl⟩ | ⟨rfl, rfl⟩
      · rcases Option.or_eq_some_iff.1 hv with h | h
        · exact .inl h
        · exact .inr h.2
      · rcases Option.or_eq_some_iff.1 hv with h | h
        · exact .inr h
        · exact .inl h.2
    rcases hx with h | h
    · exact hsg k hk v h j
    · exact .inr (.inr (.inl (hsip k v h).symm))
  unfold W.overEa
  cases effective ip it.st a with
  | preserve => exact h
  | preserveMark => exact h
  | overwrite => exact hover
  | overwriteMark => exact hover
  | clear => exact sourced_rawClear h
  | mergePreserve =>
    simp only [W.overAct]
    split
    · refine sourced_rawSet h (plus_sorted _ _ hg) (fun k hk v hv j => ?_)
      rw [plus_find k _ _ hip] at hv
      exact hor k hk _ _ v hv (.inr ⟨rfl, rfl⟩) j
    · exact h
  | mergeOverwrite =>
    simp only [W.overAct]
    split
    · refine sourced_rawSet h (plus_sorted _ _ hip) (fun k hk v hv j => ?_)
      rw [plus_find k _ _ hg] at hv
      exact hor k hk _ _ v hv (.inl ⟨rfl, rfl⟩) j
    · exact h
  | undefined => exact h
  | ask => exact h

theorem sourced_create {c : Cfg} {w : W} {it : Item} (w' : W) (h : w'.ea = w.ea) (p : Bytes) (hpe : p = it.path) : Sourced c w it (w'.create c p) := by
  subst hpe
  refine ⟨fun j k => ?_, fun j hj => ?_⟩
  · simp only [W.create]
    split
    · exact .inr (.inr (.inr (.inl rfl)))
    · rw [h]; exact .inr (.inl rfl)
  · simp only [W.create] at hj ⊢
    split at hj
    · next hjn => simp [hjn]
    · rw [h] at hj; exact absurd rfl hj

theorem sourced_makeFile {c : Cfg} {w : W} {it : Item} (w' : W) (h : w'.ea = w.ea) : Sourced c w it (w'.makeFile c it) := by
  have hself : ∀ w2 : W, w2.ea = w.ea → Sourced c w it w2 := fun w2 h2 =>
    ⟨fun j k => by rw [h2]; exact .inr (.inl rfl), fun j hj => absurd (by rw [h2]) hj⟩
  unfold W.makeFile
  cases it.label with
  | none => exact sourced_create w' h _ rfl
  | some k =>
    simp only
    cases w'.seen k with
    | none => exact sourced_congr (sourced_create w' h _ rfl) rfl rfl
    | some r =>
      obtain ⟨q, b⟩ := r
      simp only
      cases w'.ent q with
      | some i => exact hself _ h
      | none =>
        simp only
        split
        · exact sourced_congr (sourced_create w' h _ rfl) rfl rfl
        · exact hself _ h

theorem sourced_data {c : Cfg} {w : W} {it : Item} {d : Data} (hs : EaSorted (w.at_ it.path)) : Sourced c w it (w.data c it d) := by
  have hself : Sourced c w it w := ⟨fun j k => .inr (.inl rfl), fun j hj => absurd rfl hj⟩
  cases d with
  | kept => exact hself
  | restored => exact hself
  | replaced =>
    unfold W.data W.replace
    simp only
    have h1 : Sourced c w it (W.makeFile c { w with ent := fun q => if q = it.path then none else w.ent q } it) := sourced_makeFile _ rfl
    split
    · exact h1
    · refine sourced_writeAt h1 (read_sorted _ _ hs) (fun k _ v hv j => ?_)
      rw [read_find] at hv
      exact .inr (.inr (.inl hv.symm))

/-- C81: whatever the system accepts or refuses, restoring an entry over an existing file changes the attributes of no other inode than the one found at its path afterwards, and each attribute
of this one has no value, the one the inode or the file replaced had, the one given by the system to new files or, when the mask covers it, the one in the archive. -/
theorem C81_sources (c : Cfg) (w : W) (it : Item) (d : Data) (a : OverEa) (hs : EaSorted (w.at_ it.path)) (he : EaSorted it.ea) :
    (∀ j k, Source c w it j k (eaFind ((w.writeOver c it d a).1.ea j) k)) ∧
    (∀ j, (w.writeOver c it d a).1.ea j ≠ w.ea j → (w.writeOver c it d a).1.ent it.path = some j) := by
  show Sourced c w it (w.writeOver c it d a).1
  have h1 : Sourced c w it (w.data c it d) := sourced_data hs
  have hip := read_sorted c.cov _ hs
  have hsip : ∀ k v, eaFind (readEa c.cov (w.at_ it.path)) k = some v → eaFind (w.at_ it.path) k = some v := by
    intro k v h
    rw [read_find] at h
    split at h
    · exact h
    · cases h
  have how : ∀ w1, Sourced c w it w1 → Sourced c w it (w1.owner c it d) := by
    intro w1 h
    cases d with
    | kept => exact h
    | restored => exact sourced_chown h
    | replaced => exact sourced_chown h
  unfold W.writeOver
  simp only
  have h2 : Sourced c w it (if it.eaSaved = true then (w.data c it d).overEa c it (readEa c.cov (w.at_ it.path)) a else (w.data c it d, .ok false)).1 := by
    split
    · exact sourced_overEa h1 he hip hsip
    · exact h1
  generalize (if it.eaSaved = true then (w.data c it d).overEa c it (readEa c.cov (w.at_ it.path)) a else (w.data c it d, .ok false)) = r at h2
  unfold W.after
  split
  · exact sourced_overEa (how _ h2) he hip hsip
  · exact how _ h2
  · split
    · exact how _ h2
    · exact h2

/-- C81: the same where there was nothing -/
theorem C81_sources_new (c : Cfg) (w : W) (it : Item) (he : EaSorted it.ea) :
    (∀ j k, Source c w it j k (eaFind ((w.writeNew c it).ea j) k)) ∧ (∀ j, (w.writeNew c it).ea j ≠ w.ea j → (w.writeNew c it).ent it.path = some j) := by
  show Sourced c w it (w.writeNew c it)
  have hg : EaSorted it.getEa := by
    unfold Item.getEa
    split
    · exact he
    · exact List.Pairwise.nil
  have hsg : ∀ k, c.cov k = true → ∀ v, eaFind it.getEa k = some v → ∀ j, Source c w it j k (some v) := by
    intro k hk v hv j
    unfold Item.getEa at hv
    split at hv
    · exact .inr (.inr (.inr (.inr ⟨hk, hv.symm⟩)))
    · cases hv
  have hset : ∀ w1, Sourced c w it w1 → Sourced c w it (if it.eaSaved = true then (w1.rawSet c it it.getEa).1 else w1) := by
    intro w1 h
    split
    · exact sourced_rawSet h hg hsg
    · exact h
  unfold W.writeNew
  exact hset _ (sourced_chown (hset _ (sourced_makeFile w rfl)))

/-! ### cases -/

/-- "user.a", "user.b" -/
def keyA : Bytes := [117, 115, 101, 114, 46, 97]
def keyB : Bytes := [117, 115, 101, 114, 46, 98]
/-- root: all is accepted, the ownership is restored; all the attributes are selected -/
def root : Cfg := ⟨fun _ => true, fun _ => true, fun _ => true, true, []⟩
/-- -u user.b -/
def rootNoB : Cfg := { root with cov := fun k => decide (k ≠ keyB) }
/-- one file, at "f" -/
def oneFile (m : EaMap) : W := ⟨fun p => if p = [102] then some 0 else none, fun _ => m, 1, fun _ => none⟩
/-- the entry "f" of an archive -/
def plain (m : EaMap) : Item := ⟨none, [102], .full, m, true, false⟩

/-- C81: the hypotheses of C81_policy_partial are met by a file with a capability and an attribute that is not covered, replaced by an archived one: each action does what the manual says -/
theorem C81_policy_example :
    let old : EaMap := [(capKey, [1]), (keyA, [2]), (keyB, [3])]
    let it := plain [(capKey, [9]), (keyA, [8])]
    let run := fun a => (oneFile old).writeOver rootNoB it .replaced a
    ((run .overwrite).2 = none ∧ (run .overwrite).1.at_ [102] = [(capKey, [9]), (keyA, [8])]) ∧
    ((run .mergePreserve).1.at_ [102] = [(capKey, [1]), (keyA, [2]), (keyB, [3])]) ∧
    ((run .mergeOverwrite).1.at_ [102] = [(capKey, [9]), (keyA, [8]), (keyB, [3])]) ∧
    ((run .clear).1.at_ [102] = []) ∧ ((oneFile []).writeNew root { it with path := [103] }).at_ [103] = [(capKey, [9]), (keyA, [8])] := by decide +kernel
/-- and the hypotheses are those of the theorem -/
theorem C81_hypotheses_example : rootNoB.Allows ∧ NewLink (oneFile []) (plain []) ∧ FirstLink (oneFile []) (plain []) ∧
    EaSorted [(capKey, [1]), (keyA, [2]), (keyB, [3])] ∧ rootNoB.born = [] := by
  refine ⟨fun _ => ⟨rfl, rfl⟩, fun _ h => (by cases h), fun _ h => (by cases h), ?_, rfl⟩
  unfold EaSorted; decide

/-- C81: merging the attributes removes those of the file that the mask does not cover when the file has no other: "merging when in_place has no EA is equivalent to overwriting"
(src/libdar/filesystem_restore.cpp:908-916), but the attributes in place are read through the mask and all are erased -/
theorem C81_merge_counterexample : ((oneFile [(keyB, [3])]).writeOver rootNoB (plain [(keyA, [8])]) .kept .mergePreserve).1.at_ [102] = [(keyA, [8])] ∧
    wanted false (rootNoB.cov keyB) none (some [3]) .mergePreserve = some [3] := by decide +kernel

/-- C81: the capabilities of a hard linked file are not restored: the second raw_set_ea, after the ownership, does nothing as the first one recorded the attributes as restored
(src/libdar/filesystem_hard_link_write.cpp:140-157, src/libdar/filesystem_restore.cpp:391-411) -/
theorem C81_capability_counterexample : ((oneFile []).writeNew root { plain [(capKey, [9]), (keyA, [8])] with path := [103], label := some 5 }).at_ [103] = [(keyA, [8])] ∧
    ((oneFile []).writeOver root { plain [(capKey, [9]), (keyA, [8])] with label := some 5 } .replaced .overwrite).1.at_ [102] = [(keyA, [8])] := by decide +kernel
/-- C81: when the data is overwritten and the attributes are preserved the file loses its capabilities -/
theorem C81_preserve_counterexample : ((oneFile [(capKey, [1]), (keyA, [2])]).writeOver root (plain [(keyA, [8])]) .replaced .preserve).1.at_ [102] = [(keyA, [2])] := by decide +kernel

/-- C81: two names "f" and "g" of one archived inode, restored over two existing files, data and attributes overwritten: the attributes "g" had are given to the inode restored first
(src/libdar/filesystem_restore.cpp:815-833), and stay there -/
theorem C81_shared_counterexample :
    let w : W := ⟨fun p => if p = [102] then some 0 else if p = [103] then some 1 else none, fun j => if j = 1 then [(keyB, [7])] else [], 2, fun _ => none⟩
    let w1 := (w.writeOver root { plain [(keyA, [8])] with label := some 5 } .replaced .overwrite).1
    let w2 := (w1.writeOver root { plain [(keyA, [8])] with label := some 5, path := [103] } .replaced .overwrite).1
    w1.at_ [102] = [(keyA, [8])] ∧ w2.at_ [102] = [(keyA, [8]), (keyB, [7])] := by decide +kernel

/-- C81: an attribute the system refuses (security.capability for a user who is not root) stops the restoration of the others, and the ones the file had are lost -/
theorem C81_refused_counterexample :
    ((oneFile [(keyB, [3])]).writeOver { root with setOk := fun k => decide (k ≠ capKey), own := false } (plain [(capKey, [9]), (keyA, [8])]) .kept .overwrite).1.at_ [102] = [] := by decide +kernel

end Dar.Eas
