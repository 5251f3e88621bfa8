import Verif.Lemmas.Merge4
/- The steps of the second archive: the states after each of the possible decisions. -/
namespace Dar

mutual
theorem select_distinct (o : MgOpts) (p : List Bytes) (e : BEntry) (h : e.Distinct) : ∀ a ∈ e.select o p, a.Distinct := by
  match e, h with
  | .dir x c, h =>
    intro a ha
    rw [BEntry.select] at ha
    by_cases h1 : o.subtree (p ++ [x.name]) = true
    · rw [if_pos h1] at ha
      rw [List.mem_singleton.1 ha]
      unfold BEntry.Distinct at h ⊢
      exact selectL_distinct o _ c h
    · rw [if_neg h1] at ha
      by_cases h2 : o.emptyDir = true
      · rw [if_pos h2] at ha
        rw [List.mem_singleton.1 ha]
        unfold BEntry.Distinct; trivial
      · rw [if_neg h2] at ha; cases ha
  | .node x, _ => intro a ha; simp only [BEntry.select] at ha; split at ha <;> simp at ha; subst ha; unfold BEntry.Distinct; trivial
  | .mirage n k, _ => intro a ha; simp only [BEntry.select] at ha; split at ha <;> simp at ha; subst ha; unfold BEntry.Distinct; trivial
  | .detruit n k d, _ => intro a ha; simp only [BEntry.select] at ha; split at ha <;> simp at ha; subst ha; unfold BEntry.Distinct; trivial
  | .ignored n, _ => intro a ha; simp only [BEntry.select] at ha; split at ha <;> simp at ha; subst ha; unfold BEntry.Distinct; trivial
  | .ignoredDir x, _ => intro a ha; simp only [BEntry.select] at ha; split at ha <;> simp at ha; subst ha; unfold BEntry.Distinct; trivial
theorem selectL_distinct (o : MgOpts) (p : List Bytes) (l : List BEntry) (h : BEntry.DistinctL l) : BEntry.DistinctL (BEntry.selectL o p l) := by
  match l, h with
  | [], h => rw [BEntry.selectL]; exact h
  | e :: l, h =>
    unfold BEntry.DistinctL at h
    have h1 := select_distinct o p e h.1
    have h3 := selectL_distinct o p l h.2.2
    rw [BEntry.selectL]
    have hmem : ∀ (l : List BEntry) a, a ∈ BEntry.selectL o p l → ∃ b ∈ l, a.name = b.name := by
      intro l
      induction l with
      | nil => intro a ha; rw [BEntry.selectL] at ha; cases ha
      | cons b l ih =>
        intro a ha
        rw [BEntry.selectL] at ha
        rcases List.mem_append.1 ha with ha | ha
        · exact ⟨b, List.mem_cons_self .., select_names o p b a ha⟩
        · obtain ⟨c, hc, hn⟩ := ih a ha
          exact ⟨c, List.mem_cons_of_mem _ hc, hn⟩
    rcases select_short o p e with hs | ⟨a, hs⟩
    · rw [hs]; exact h3
    · rw [hs]
      show BEntry.DistinctL (a :: BEntry.selectL o p l)
      unfold BEntry.DistinctL
      refine ⟨h1 a (by rw [hs]; simp), fun c hc => ?_, h3⟩
      obtain ⟨b, hb, hn⟩ := hmem l c hc
      rw [hn, select_names o p e a (by rw [hs]; simp)]
      exact h.2.1 b hb
end

/-! ### children -/

theorem find_mid {l : List BEntry} {n : Bytes} {al z : BEntry} (h : findChild l n = some al) (hz : z.name = n) (m : Bytes) :
    findChild (beforeChild l n ++ z :: afterChild l n) m = if m = n then some z else findChild l m := by
  have hb : ∀ x ∈ beforeChild l n, x.name ≠ n := by
    intro x hx
    unfold beforeChild at hx
    have := (List.all_eq_true.1 (List.all_takeWhile (p := fun e : BEntry => decide (e.name ≠ n)) (l := l))) x hx
    simpa using this
  by_cases hm : m = n
  · subst hm
    rw [if_pos rfl]
    unfold findChild
    rw [List.find?_append, List.find?_cons]
    have : (beforeChild l m).find? (fun e => decide (e.name = m)) = none := by
      rw [List.find?_eq_none]
      intro x hx
      simpa using hb x hx
    rw [this]
    simp [hz]
  · rw [if_neg hm]
    conv_rhs => rw [child_split l n al h]
    unfold findChild
    rw [List.find?_append, List.find?_append, List.find?_cons, List.find?_cons]
    have h1 : decide (z.name = m) = false := decide_eq_false (hz ▸ Ne.symm hm)
    have h2 : decide (al.name = m) = false := decide_eq_false (by rw [findChild_name h]; exact Ne.symm hm)
    rw [h1, h2]
theorem distinct_mid {l : List BEntry} {n : Bytes} {al z : BEntry} (hd : BEntry.DistinctL l) (h : findChild l n = some al) (hz : z.name = n) (hz2 : z.Distinct) :
    BEntry.DistinctL (beforeChild l n ++ z :: afterChild l n) := by
  rw [distinctL_iff] at hd ⊢
  have hs := child_split l n al h
  refine ⟨fun e he => ?_, ?_⟩
  · rcases List.mem_append.1 he with he | he
    · exact hd.1 e (by rw [hs]; exact List.mem_append.2 (Or.inl he))
    · rcases List.mem_cons.1 he with rfl | he
      · exact hz2
      · exact hd.1 e (by rw [hs]; exact List.mem_append.2 (Or.inr (List.mem_cons_of_mem _ he)))
  · have := hd.2
    rw [hs] at this
    rw [List.map_append, List.map_cons, hz]
    rw [List.map_append, List.map_cons, findChild_name h] at this
    exact this
theorem distinct_snoc {l : List BEntry} {z : BEntry} (hd : BEntry.DistinctL l) (h : findChild l z.name = none) (hz : z.Distinct) : BEntry.DistinctL (l ++ [z]) := by
  rw [distinctL_iff] at hd ⊢
  refine ⟨fun e he => ?_, ?_⟩
  · rcases List.mem_append.1 he with he | he
    · exact hd.1 e he
    · rw [List.mem_singleton.1 he]; exact hz
  · rw [List.map_append, List.nodup_append]
    refine ⟨hd.2, by simp, ?_⟩
    intro a ha b hb hab
    obtain ⟨e, he, rfl⟩ := List.mem_map.1 ha
    have : b = z.name := by simpa using hb
    exact (find_none_iff l z.name).1 h e he (hab.trans this)
theorem find_snoc_self {l : List BEntry} {z : BEntry} (h : findChild l z.name = none) : findChild (l ++ [z]) z.name = some z := by
  unfold findChild at h ⊢
  rw [List.find?_append, h]
  simp
theorem find_snoc {l : List BEntry} {z : BEntry} (h : findChild l z.name = none) (m : Bytes) : findChild (l ++ [z]) m = if m = z.name then some z else findChild l m := by
  by_cases hm : m = z.name
  · rw [if_pos hm, hm, find_snoc_self h]
  · rw [if_neg hm, find_append_one _ _ _ (Ne.symm hm)]

/-! ### what is expected of the catalogue -/

mutual
/-- What the first archive leaves: filtered, with labels below `off`. -/
def BEntry.Clean (o : MgOpts) (off : Nat) (p : List Bytes) (e : BEntry) : Prop :=
  match e with
  | .dir x c => o.subtree (p ++ [x.name]) = true ∧ BEntry.CleanL o off (p ++ [x.name]) c
  | .ignoredDir x => o.subtree (p ++ [x.name]) = false
  | .ignored _ => False
  | .mirage n k => o.subtree (p ++ [n]) = true ∧ k < off
  | .node x => o.subtree (p ++ [x.name]) = true
  | .detruit n _ _ => o.subtree (p ++ [n]) = true
def BEntry.CleanL (o : MgOpts) (off : Nat) (p : List Bytes) (l : List BEntry) : Prop :=
  match l with
  | [] => True
  | e :: l => BEntry.Clean o off p e ∧ BEntry.CleanL o off p l
end
mutual
/-- an archive has no record of ignored entries -/
def BEntry.Src (e : BEntry) : Prop :=
  match e with
  | .dir _ c => BEntry.SrcL c
  | .ignoredDir _ => False
  | .ignored _ => False
  | _ => True
def BEntry.SrcL (l : List BEntry) : Prop :=
  match l with
  | [] => True
  | e :: l => BEntry.Src e ∧ BEntry.SrcL l
end
theorem cleanL_mem {o : MgOpts} {off : Nat} {p : List Bytes} : ∀ {l : List BEntry}, BEntry.CleanL o off p l → ∀ e ∈ l, e.Clean o off p
  | [], _, e, he => by cases he
  | a :: l, h, e, he => by
    unfold BEntry.CleanL at h
    rcases List.mem_cons.1 he with rfl | he
    · exact h.1
    · exact cleanL_mem h.2 e he
theorem cleanL_find {o : MgOpts} {off : Nat} {p : List Bytes} {l : List BEntry} (h : BEntry.CleanL o off p l) {n : Bytes} {al : BEntry} (hf : findChild l n = some al) :
    al.Clean o off p := cleanL_mem h al (List.mem_of_find?_eq_some hf)
mutual
theorem clean_links {o : MgOpts} {off : Nat} {p : List Bytes} {e : BEntry} (h : e.Clean o off p) {j : Nat} (hj : off ≤ j) : BEntry.links j e = 0 := by
  match e, h with
  | .dir x c, h => unfold BEntry.Clean at h; rw [BEntry.links]; exact cleanL_links h.2 hj
  | .mirage n k, h =>
    unfold BEntry.Clean at h
    rw [BEntry.links, if_neg (by omega)]
  | .node x, _ => simp [BEntry.links]
  | .detruit n k d, _ => simp [BEntry.links]
  | .ignored n, _ => simp [BEntry.links]
  | .ignoredDir x, _ => simp [BEntry.links]
theorem cleanL_links {o : MgOpts} {off : Nat} {p : List Bytes} {l : List BEntry} (h : BEntry.CleanL o off p l) {j : Nat} (hj : off ≤ j) : BEntry.linksL j l = 0 := by
  match l, h with
  | [], _ => rw [BEntry.linksL]
  | e :: l, h =>
    unfold BEntry.CleanL at h
    rw [BEntry.linksL, clean_links h.1 hj, cleanL_links h.2 hj]
end
theorem clean_sub {o : MgOpts} {off : Nat} {p : List Bytes} {e : BEntry} (h : e.Clean o off p) : o.subtree (p ++ [e.name]) = !e.isIgnoredDir := by
  cases e <;> unfold BEntry.Clean at h <;> simp only [BEntry.isIgnoredDir, BEntry.name, Bool.not_true, Bool.not_false]
  · exact h
  · exact h.1
  · exact h.1
  · exact h
  · exact h.elim
  · exact h

/-! ### states -/

section
variable {o : MgOpts} {T : Nat → Obj}

theorem update_links (e : BEntry) (x : Option Obj) (k : Nat) : BEntry.links k (e.update x) = BEntry.links k e := by
  cases x with
  | none => rfl
  | some x => cases e <;> simp [BEntry.update, BEntry.withInode, BEntry.links]
theorem update_mirage {e : BEntry} {k : Nat} (h : e.label = some k) (x : Option Obj) : e.update x = e := by
  cases e <;> first | (cases h; done) | (cases x <;> rfl)

theorem MInv.links_congr {y : Option Nat} {s s' : MgSt} (hi : MInv T y s) (h0 : s'.skip = 0) (hk : s'.known = s.known) (hs : ∀ j ∈ s.known, s'.stars j = s.stars j)
    (hl : ∀ j, s'.at_.links j = s.at_.links j) : MInv T y s' :=
  ⟨h0, hk ▸ hi.nodup, fun j => by rw [hk, hl]; exact hi.known j, fun j hj => by rw [hk] at hj; rw [hs j hj]; exact hi.right j hj⟩

theorem writeBack_inv {y : Option Nat} {s : MgSt} {al : BEntry} {n : Bytes} {x : Option Obj} (hi : MInv T y s) (hf : findChild s.at_.cur n = some al)
    (hx : ∀ k, al.label = some k → x = some { T k with name := al.name }) :
    MInv T y (s.writeBack al x) ∧ (s.writeBack al x).at_ = ⟨s.at_.frames, beforeChild s.at_.cur n ++ al.update x :: afterChild s.at_.cur n⟩ ∧
    (s.writeBack al x).dates = s.dates := by
  have hn := findChild_name hf
  have hself : (⟨s.at_.frames, beforeChild s.at_.cur n ++ al :: afterChild s.at_.cur n⟩ : Cursor) = s.at_ := by
    rw [← child_split _ _ _ hf]
  cases x with
  | none =>
    refine ⟨hi, ?_, rfl⟩
    show s.at_ = _
    exact hself.symm
  | some w =>
    cases hl : al.label with
    | some k =>
      have hw := hx k hl
      cases hw
      rw [update_mirage hl, hself]
      cases al <;> first | (cases hl; done) | skip
      cases hl
      refine ⟨hi.links_congr hi.skip rfl (fun j hj => ?_) (fun j => rfl), rfl, rfl⟩
      by_cases hj2 : j = k
      · subst hj2
        refine (if_pos rfl).trans ?_
        simp only [hi.right j hj]
      · exact if_neg hj2
    | none =>
      have hwb : s.writeBack al (some w) = { s with at_ := ⟨s.at_.frames, beforeChild s.at_.cur n ++ al.withInode w :: afterChild s.at_.cur n⟩ } := by
        cases al <;> first | (cases hl; done) | (simp only [MgSt.writeBack, hn])
      rw [hwb]
      refine ⟨hi.links_congr hi.skip rfl (fun j hj => rfl) (fun j => ?_), rfl, rfl⟩
      show Cursor.links j ⟨s.at_.frames, beforeChild s.at_.cur n ++ al.withInode w :: afterChild s.at_.cur n⟩ = _
      conv_rhs => rw [← hself]
      rw [cursor_links, cursor_links, linksL_append, linksL_append, linksL_cons, linksL_cons]
      have := update_links al (some w) j
      rw [show al.withInode w = al.update (some w) from rfl, this]

theorem setNew_inv {s : MgSt} {d : BEntry} {x : Option Obj} (hi : MInv T d.label s) (hx : ∀ k, d.label = some k → x = some { T k with name := d.name }) :
    ∃ s1, s.setNew d x = (d.update x, s1) ∧ s1.at_ = s.at_ ∧ s1.dates = s.dates ∧ MInv T d.label s1 := by
  cases x with
  | none => exact ⟨s, rfl, rfl, rfl, hi⟩
  | some w =>
    cases hl : d.label with
    | some k =>
      have hw := hx k hl
      cases hw
      cases d <;> first | (cases hl; done) | skip
      cases hl
      refine ⟨_, rfl, rfl, rfl, hi.links_congr hi.skip rfl (fun j hj => ?_) (fun j => rfl)⟩
      by_cases hj2 : j = k
      · subst hj2
        refine (if_pos rfl).trans ?_
        simp only [hi.right j hj]
      · exact if_neg hj2
    | none =>
      refine ⟨s, ?_, rfl, rfl, hl ▸ hi⟩
      cases d <;> first | (cases hl; done) | rfl

theorem find_left {l : List BEntry} {n : Bytes} {al : BEntry} (hd : BEntry.DistinctL l) (hf : findChild l n = some al) (m : Bytes) :
    findChild (without l n ++ leftBehind o al) m = if m = n then (leftBehind o al).head? else findChild l m := by
  have hn := findChild_name hf
  have h0 := find_without hd hf
  cases al with
  | dir x c =>
    change x.name = n at hn
    unfold leftBehind
    dsimp only
    by_cases he : o.emptyDir = true
    · rw [if_pos he]
      have h1 : findChild (without l n) (BEntry.ignoredDir x).name = none := by
        show findChild _ x.name = none
        rw [h0, if_pos hn]
      rw [find_snoc h1]
      show (if m = x.name then _ else _) = _
      rw [hn]
      by_cases hm : m = n
      · rw [if_pos hm, if_pos hm]; rfl
      · rw [if_neg hm, if_neg hm, h0, if_neg hm]
    · rw [if_neg he, List.append_nil, h0]; rfl
  | _ => simp only [leftBehind, List.append_nil]; rw [h0]; rfl
theorem distinct_left {l : List BEntry} {n : Bytes} {al : BEntry} (hd : BEntry.DistinctL l) (hf : findChild l n = some al) : BEntry.DistinctL (without l n ++ leftBehind o al) := by
  have hn := findChild_name hf
  have h1 := distinct_without hd hf
  cases al with
  | dir x c =>
    change x.name = n at hn
    unfold leftBehind
    dsimp only
    by_cases he : o.emptyDir = true
    · rw [if_pos he]
      refine distinct_snoc h1 ?_ (by unfold BEntry.Distinct; trivial)
      show findChild _ x.name = none
      rw [find_without hd hf, if_pos hn]
    · rw [if_neg he, List.append_nil]; exact h1
  | _ => simp only [leftBehind, List.append_nil]; exact h1
/-- what took its place is removed by the addition of the new entry -/
theorem remove_left {fr : List (List BEntry × Obj × List BEntry)} {l : List BEntry} {n : Bytes} {al : BEntry} (hd : BEntry.DistinctL l) (hf : findChild l n = some al) :
    (if (findChild (without l n ++ leftBehind o al) n).isSome then Cursor.removeChild ⟨fr, without l n ++ leftBehind o al⟩ n else ⟨fr, without l n ++ leftBehind o al⟩) =
      ⟨fr, without l n⟩ := by
  have hn := findChild_name hf
  have h0 := (find_none_iff _ _).1 (by have := find_without hd hf n; rwa [if_pos rfl] at this)
  have hlb : leftBehind o al = [] ∨ ∃ y, leftBehind o al = [y] ∧ y.name = n := by
    cases al with
    | dir x c =>
      unfold leftBehind
      dsimp only
      by_cases he : o.emptyDir = true
      · rw [if_pos he]; exact Or.inr ⟨_, rfl, hn⟩
      · rw [if_neg he]; exact Or.inl rfl
    | _ => exact Or.inl rfl
  rcases hlb with h | ⟨y, h, hy⟩
  · rw [h, List.append_nil]
    have : findChild (without l n) n = none := (find_none_iff _ _).2 h0
    rw [this]
    rfl
  · rw [h]
    have : findChild (without l n ++ [y]) n = some y := by
      have := find_snoc_self (l := without l n) (z := y) (by rw [hy]; exact (find_none_iff _ _).2 h0)
      rwa [hy] at this
    rw [this]
    show Cursor.removeChild _ n = _
    unfold Cursor.removeChild
    dsimp only
    rw [before_of h0 hy, after_of h0 hy, List.append_nil]

/-- the new entry, not a directory, replaces the old one -/
theorem put_left_leaf {fr : List (List BEntry × Obj × List BEntry)} {l : List BEntry} {n : Bytes} {al d : BEntry} (hd : BEntry.DistinctL l) (hf : findChild l n = some al)
    (hdn : d.name = n) (hdd : d.isDir = false) : Cursor.put ⟨fr, without l n ++ leftBehind o al⟩ d = ⟨fr, without l n ++ [d]⟩ := by
  unfold Cursor.put
  rw [hdn]
  dsimp only
  rw [remove_left hd hf]
  cases d <;> first | rfl | (cases hdd)
theorem put_left_dir {fr : List (List BEntry × Obj × List BEntry)} {l : List BEntry} {n : Bytes} {al : BEntry} {x : Obj} {c : List BEntry} (hd : BEntry.DistinctL l) (hf : findChild l n = some al)
    (hdn : x.name = n) : Cursor.put ⟨fr, without l n ++ leftBehind o al⟩ (.dir x c) = ⟨(without l n, x, []) :: fr, []⟩ := by
  unfold Cursor.put
  show (let c := if (findChild (without l n ++ leftBehind o al) x.name).isSome then Cursor.removeChild ⟨fr, without l n ++ leftBehind o al⟩ x.name else ⟨fr, without l n ++ leftBehind o al⟩
    (⟨(c.cur, x, []) :: c.frames, []⟩ : Cursor)) = _
  dsimp only
  rw [hdn, remove_left hd hf]
theorem left_links {l : List BEntry} {al : BEntry} {n : Bytes} (j : Nat) : BEntry.linksL j (without l n ++ leftBehind o al) = BEntry.linksL j (without l n) := by
  rw [linksL_append]
  cases al <;> simp only [leftBehind, BEntry.linksL, Nat.add_zero]
  split <;> simp [BEntry.linksL, BEntry.links]
end

end Dar
