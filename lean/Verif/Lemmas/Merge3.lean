import Verif.Lemmas.Merge2
/- Adding the entries of an archive to a directory that has none of their names. -/
namespace Dar

/-- a directory without its contents -/
def BEntry.emptied : BEntry → BEntry
  | .dir x _ => .dir x []
  | e => e

theorem relabel_name (f : Nat → Nat) (e : BEntry) : (e.relabel f).name = e.name := by cases e <;> simp [BEntry.relabel, BEntry.name]
theorem relabel_isDir (f : Nat → Nat) (e : BEntry) : (e.relabel f).isDir = e.isDir := by cases e <;> simp [BEntry.relabel, BEntry.isDir]
theorem relabelL_eq (f : Nat → Nat) (l : List BEntry) : BEntry.relabelL f l = l.map (BEntry.relabel f) := by
  induction l with
  | nil => rw [BEntry.relabelL]; rfl
  | cons e l ih => rw [BEntry.relabelL, ih]; rfl
theorem relabelL_find (f : Nat → Nat) (l : List BEntry) (n : Bytes) : findChild (BEntry.relabelL f l) n = (findChild l n).map (BEntry.relabel f) := by
  rw [relabelL_eq]
  unfold findChild
  rw [List.find?_map]
  congr 2
  funext e
  simp [relabel_name]
mutual
theorem relabel_distinct (f : Nat → Nat) (e : BEntry) (h : e.Distinct) : (e.relabel f).Distinct := by
  match e, h with
  | .dir x c, h =>
    rw [BEntry.relabel]
    unfold BEntry.Distinct at h ⊢
    exact relabelL_distinct f c h
  | .node x, _ => rw [BEntry.relabel]; unfold BEntry.Distinct; trivial
  | .mirage n k, _ => rw [BEntry.relabel]; unfold BEntry.Distinct; trivial
  | .detruit n k d, _ => rw [BEntry.relabel]; unfold BEntry.Distinct; trivial
  | .ignored n, _ => rw [BEntry.relabel]; unfold BEntry.Distinct; trivial
  | .ignoredDir x, _ => rw [BEntry.relabel]; unfold BEntry.Distinct; trivial
theorem relabelL_distinct (f : Nat → Nat) (l : List BEntry) (h : BEntry.DistinctL l) : BEntry.DistinctL (BEntry.relabelL f l) := by
  match l, h with
  | [], h => rw [BEntry.relabelL]; exact h
  | e :: l, h =>
    rw [BEntry.relabelL]
    unfold BEntry.DistinctL at h ⊢
    refine ⟨relabel_distinct f e h.1, ?_, relabelL_distinct f l h.2.2⟩
    rw [relabelL_eq]
    intro a ha
    obtain ⟨b, hb, rfl⟩ := List.mem_map.1 ha
    rw [relabel_name, relabel_name]
    exact h.2.1 b hb
end

theorem select_names (o : MgOpts) (p : List Bytes) (e a : BEntry) (h : a ∈ e.select o p) : a.name = e.name := by
  cases e <;> simp only [BEntry.select] at h <;> (repeat' split at h) <;> simp only [List.mem_singleton, List.not_mem_nil] at h <;> subst h <;> rfl
theorem select_short (o : MgOpts) (p : List Bytes) (e : BEntry) : e.select o p = [] ∨ ∃ a, e.select o p = [a] := by
  cases e <;> simp only [BEntry.select] <;> (repeat' split) <;> simp
/-- what is retained of an entry -/
def BEntry.sel (o : MgOpts) (p : List Bytes) (e : BEntry) : Option BEntry := (e.select o p).head?
theorem sel_list (o : MgOpts) (p : List Bytes) (e : BEntry) : e.select o p = (e.sel o p).toList := by
  unfold BEntry.sel
  rcases select_short o p e with h | ⟨a, h⟩ <;> rw [h] <;> rfl
theorem selectL_find (o : MgOpts) (p : List Bytes) : ∀ (l : List BEntry), BEntry.DistinctL l → ∀ n,
    findChild (BEntry.selectL o p l) n = (findChild l n).bind (BEntry.sel o p)
  | [], _, n => by rw [BEntry.selectL]; rfl
  | e :: l, h, n => by
    unfold BEntry.DistinctL at h
    have ih := selectL_find o p l h.2.2 n
    rw [BEntry.selectL, sel_list]
    by_cases hn : e.name = n
    · have h2 : findChild (e :: l) n = some e := by unfold findChild; simp [List.find?_cons, hn]
      have h3 : findChild l n = none := (find_none_iff l n).2 (fun a ha => hn ▸ h.2.1 a ha)
      rw [h2]
      rw [h3] at ih
      cases hs : e.sel o p with
      | none => simpa [hs] using ih
      | some a =>
        have : a.name = n := by
          rw [← hn]
          apply select_names o p
          rw [sel_list, hs]
          simp
        simp [findChild, List.find?_cons, this, hs]
    · have h2 : findChild (e :: l) n = findChild l n := by unfold findChild; simp [List.find?_cons, hn]
      rw [h2, ← ih]
      cases hs : e.sel o p with
      | none => rfl
      | some a =>
        have : a.name ≠ n := by
          have := select_names o p e a (by rw [sel_list, hs]; simp)
          rw [this]; exact hn
        simp [findChild, List.find?_cons, this]
theorem find_append_one (l : List BEntry) (a : BEntry) (m : Bytes) (h : a.name ≠ m) : findChild (l ++ [a]) m = findChild l m := by
  unfold findChild
  rw [List.find?_append]
  simp [List.find?_cons, h]

theorem path_cons (fr : List (List BEntry × Obj × List BEntry)) (b a cur cur' : List BEntry) (x : Obj) :
    Cursor.path ⟨(b, x, a) :: fr, cur⟩ = Cursor.path ⟨fr, cur'⟩ ++ [x.name] := by
  simp [Cursor.path]

section
variable (o : MgOpts) (T rs : Nat → Obj) (off : Nat)

theorem clone_inv (hT : ∀ k, T (k + off) = rs k) {s : MgSt} (e : BEntry) (hi : MInv T none s) :
    ∃ s1, s.clone rs off e = ((e.relabel (· + off)).emptied, s1) ∧ s1.at_ = s.at_ ∧ s1.dates = s.dates ∧ MInv T (e.relabel (· + off)).label s1 := by
  cases e with
  | mirage n k =>
    unfold MgSt.clone
    by_cases hk : k + off ∈ s.known
    · simp only [hk, if_true]
      refine ⟨s, by simp [BEntry.relabel, BEntry.emptied], rfl, rfl, hi.skip, hi.nodup, fun j => ?_, hi.right⟩
      rw [hi.known j]
      simp only [BEntry.relabel, BEntry.label]
      constructor
      · rintro (h | h)
        · exact Or.inl h
        · cases h
      · rintro (h | h)
        · exact Or.inl h
        · cases h; exact (hi.known _).1 hk
    · simp only [hk, if_false]
      refine ⟨{ s with stars := (fun j => if j = k + off then rs k else s.stars j), known := (k + off) :: s.known },
        by simp only [BEntry.relabel, BEntry.emptied], rfl, rfl, hi.skip, List.nodup_cons.2 ⟨hk, hi.nodup⟩, fun j => ?_, fun j hj => ?_⟩
      · simp only [List.mem_cons, BEntry.relabel, BEntry.label, hi.known j]
        constructor
        · rintro (h | h | h)
          · exact Or.inr (by rw [h])
          · exact Or.inl h
          · cases h
        · rintro (h | h)
          · exact Or.inr (Or.inl h)
          · cases h; exact Or.inl rfl
      · show (if j = k + off then rs k else s.stars j) = T j
        by_cases hj2 : j = k + off
        · rw [if_pos hj2, hj2, hT]
        · rw [if_neg hj2]
          exact hi.right j ((List.mem_cons.1 hj).resolve_left hj2)
  | dir x c => exact ⟨s, by simp [MgSt.clone, BEntry.relabel, BEntry.emptied], rfl, rfl, by simpa [BEntry.relabel, BEntry.label] using hi⟩
  | node x => exact ⟨s, by simp [MgSt.clone, BEntry.relabel, BEntry.emptied], rfl, rfl, by simpa [BEntry.relabel, BEntry.label] using hi⟩
  | detruit n k d => exact ⟨s, by simp [MgSt.clone, BEntry.relabel, BEntry.emptied], rfl, rfl, by simpa [BEntry.relabel, BEntry.label] using hi⟩
  | ignored n => exact ⟨s, by simp [MgSt.clone, BEntry.relabel, BEntry.emptied], rfl, rfl, by simpa [BEntry.relabel, BEntry.label] using hi⟩
  | ignoredDir x => exact ⟨s, by simp [MgSt.clone, BEntry.relabel, BEntry.emptied], rfl, rfl, by simpa [BEntry.relabel, BEntry.label] using hi⟩

variable {o T rs off}
/-- an entry that is not a directory, absent from the current directory, is appended -/
theorem putNew_leaf {s : MgSt} {d : BEntry} (dt : DateT) (hd : d.isDir = false) (hi : MInv T d.label s) (hn : findChild s.at_.cur d.name = none) :
    ∃ s', s.putNew d dt = s' ∧ s'.at_ = ⟨s.at_.frames, s.at_.cur ++ [d]⟩ ∧ s'.dates = s.dates ∧ MInv T none s' := by
  have hput : s.at_.put d = ⟨s.at_.frames, s.at_.cur ++ [d]⟩ := by
    unfold Cursor.put
    simp only [hn, Option.isSome_none, Bool.false_eq_true, if_false]
    cases d <;> first | rfl | (cases hd)
  refine ⟨_, rfl, hput, by simp [MgSt.putNew, hd], hi.skip, hi.nodup, fun j => ?_, hi.right⟩
  show j ∈ s.known ↔ 0 < Cursor.links j (s.at_.put d) ∨ _
  rw [hput, hi.known j, cursor_links _ (_ ++ _), linksL_append, linksL_cons]
  have hl : BEntry.links j d = if d.label = some j then 1 else 0 := by
    cases d <;> simp [BEntry.links, BEntry.label, BEntry.isDir] at *
  rw [hl]
  have : s.at_.links j = (s.at_.frames.map (fun f => BEntry.linksL j f.1 + BEntry.linksL j f.2.2)).sum + BEntry.linksL j s.at_.cur := rfl
  rw [this]
  simp only [BEntry.linksL, Nat.add_zero]
  by_cases h : d.label = some j
  · simp [h]
  · simp only [h, or_false, if_false, Nat.add_zero, reduceCtorEq]

/-- one turn for an entry which is covered -/
theorem step_cov {b : Bool} {s : MgSt} {e : BEntry} (h0 : s.skip = 0) (hc : o.covers s.at_.path e = true) :
    mergeStep o b rs off s (.entry e) = (match findChild (s.clone rs off e).2.at_.cur e.name with
      | some al => mergeConflict o (s.clone rs off e).2 al e (s.clone rs off e).1
      | none => mergeNew o b rs (s.clone rs off e).2 e (s.clone rs off e).1) := by
  unfold mergeStep
  rw [if_neg (by omega)]
  simp only [hc, if_true]
  rfl
theorem step_excl {b : Bool} {s : MgSt} {e : BEntry} (h0 : s.skip = 0) (hc : o.covers s.at_.path e = false) :
    mergeStep o b rs off s (.entry e) = .ok (mergeExcl o s e) := by
  unfold mergeStep
  rw [if_neg (by omega)]
  simp only [hc, Bool.false_eq_true, if_false]
theorem loop_one {b : Bool} {s : MgSt} (ev : BEv) (l : List BEv) : mergeLoop o b rs off s (ev :: l) = (mergeStep o b rs off s ev >>= fun s => mergeLoop o b rs off s l) := rfl

theorem sel_leaf {p : List Bytes} {e : BEntry} (hd : e.isDir = false) : e.sel o p = if o.covers p e then some e else none := by
  unfold BEntry.sel MgOpts.covers
  cases e <;> simp [BEntry.isDir] at hd <;> simp only [BEntry.select, BEntry.isDir, Bool.false_or] <;> split <;> rfl
theorem sel_dir {p : List Bytes} {x : Obj} {c : List BEntry} : (BEntry.dir x c).sel o p =
    if o.subtree (p ++ [x.name]) then some (.dir x (BEntry.selectL o (p ++ [x.name]) c)) else if o.emptyDir then some (.ignoredDir x) else none := by
  unfold BEntry.sel
  simp only [BEntry.select]
  (repeat' split) <;> rfl
theorem covers_relabel {p : List Bytes} {e : BEntry} {f : Nat → Nat} : o.covers p (e.relabel f) = o.covers p e := by
  unfold MgOpts.covers
  rw [relabel_name, relabel_isDir]

theorem leave {b : Bool} {s : MgSt} {fr : List (List BEntry × Obj × List BEntry)} {bf af cur : List BEntry} {x : Obj} (h0 : s.skip = 0)
    (ha : s.at_ = ⟨(bf, x, af) :: fr, cur⟩) :
    mergeLoop o b rs off s [BEv.eod] = .ok { s with at_ := ⟨fr, bf ++ .dir x cur :: af⟩, dates := s.dates.tail } := by
  rw [loop_one]
  unfold mergeStep
  rw [if_neg (by omega), ha]
  rfl

mutual
theorem fresh_entry (hT : ∀ k, T (k + off) = rs k) {b : Bool} (hb : (b && o.decremental) = false) (e : BEntry) (hde : e.Distinct) (s : MgSt) (hi : MInv T none s)
    (hn : findChild s.at_.cur e.name = none) :
    ∃ s', mergeLoop o b rs off s e.events = .ok s' ∧ s'.at_ = ⟨s.at_.frames, s.at_.cur ++ (e.relabel (· + off)).select o s.at_.path⟩ ∧
      s'.dates = s.dates ∧ MInv T none s' := by
  have leaf : ∀ e : BEntry, e.isDir = false → findChild s.at_.cur e.name = none → e.events = [.entry e] →
      ∃ s', mergeLoop o b rs off s e.events = .ok s' ∧ s'.at_ = ⟨s.at_.frames, s.at_.cur ++ (e.relabel (· + off)).select o s.at_.path⟩ ∧
      s'.dates = s.dates ∧ MInv T none s' := by
    intro e hd hn hev
    rw [hev, loop_one, sel_list, sel_leaf (by rw [relabel_isDir]; exact hd), covers_relabel]
    cases hc : o.covers s.at_.path e with
    | false =>
      rw [step_excl hi.skip hc]
      have : mergeExcl o s e = s := by cases e <;> first | rfl | (cases hd)
      rw [this]
      exact ⟨s, rfl, by simp, rfl, hi⟩
    | true =>
      rw [step_cov hi.skip hc]
      obtain ⟨s1, h1, h2, h3, h4⟩ := clone_inv T rs off hT e hi
      rw [h1]
      dsimp only
      rw [h2, hn]
      dsimp only
      unfold mergeNew
      rw [hb]
      have hem : (e.relabel (· + off)).emptied = e.relabel (· + off) := by
        cases e <;> simp [BEntry.relabel, BEntry.emptied, BEntry.isDir] at *
      rw [hem]
      have hn1 : findChild s1.at_.cur (e.relabel (· + off)).name = none := by rw [h2, relabel_name]; exact hn
      obtain ⟨s', h5, h6, h7, h8⟩ := putNew_leaf e.mtime (by rw [relabel_isDir]; exact hd) h4 hn1
      refine ⟨s', ?_, ?_, h7.trans h3, h8⟩
      · simp only [Bool.false_eq_true, if_false]
        rw [h5]
        rfl
      · rw [h6, h2]; simp
  match e, hde, hn with
  | .node x, _, hn => exact leaf _ rfl hn (by rw [BEntry.events])
  | .mirage n k, _, hn => exact leaf _ rfl hn (by rw [BEntry.events])
  | .detruit n k d, _, hn => exact leaf _ rfl hn (by rw [BEntry.events])
  | .ignored n, _, hn => exact leaf _ rfl hn (by rw [BEntry.events])
  | .ignoredDir x, _, hn => exact leaf _ rfl hn (by rw [BEntry.events])
  | .dir x c, hde, hn =>
    change findChild s.at_.cur x.name = none at hn
    rw [BEntry.events, loop_one, sel_list, BEntry.relabel, sel_dir]
    have hcov : o.covers s.at_.path (.dir x c) = o.subtree (s.at_.path ++ [x.name]) := by simp [MgOpts.covers, BEntry.isDir, BEntry.name]
    cases hc : o.subtree (s.at_.path ++ [x.name]) with
    | false =>
      rw [hc] at hcov
      rw [step_excl hi.skip hcov]
      simp only [Bool.false_eq_true, if_false]
      show ∃ s', mergeLoop o b rs off (mergeExcl o s (.dir x c)) (BEntry.eventsList c ++ [BEv.eod]) = .ok s' ∧ _
      rw [merge_skipped _ _ _ _ _ _ rfl]
      refine ⟨_, rfl, ?_, rfl, ?_⟩
      · cases he : o.emptyDir with
        | false => simp [mergeExcl, he]
        | true =>
          simp only [mergeExcl, he, if_true]
          simp only [Cursor.put, BEntry.name, hn, Option.isSome_none, Bool.false_eq_true, if_false]
          rfl
      · refine ⟨rfl, hi.nodup, fun j => ?_, hi.right⟩
        show j ∈ s.known ↔ 0 < Cursor.links j (if o.emptyDir then s.at_.put (.ignoredDir x) else s.at_) ∨ _
        rw [hi.known j]
        cases he : o.emptyDir with
        | false => rfl
        | true =>
          simp only [Cursor.put, BEntry.name, hn, Option.isSome_none, Bool.false_eq_true, if_false, if_true]
          unfold Cursor.add
          rw [cursor_links _ (_ ++ _), linksL_append, linksL_cons]
          simp only [BEntry.links, BEntry.linksL, Nat.add_zero]
          rfl
    | true =>
      rw [hc] at hcov
      rw [step_cov hi.skip hcov]
      simp only [if_true]
      show ∃ s', ((match findChild s.at_.cur x.name with
          | some al => mergeConflict o s al (.dir x c) (.dir x [])
          | none => mergeNew o b rs s (.dir x c) (.dir x [])) >>= fun s => mergeLoop o b rs off s (BEntry.eventsList c ++ [BEv.eod])) = .ok s' ∧ _
      rw [hn]
      dsimp only
      unfold mergeNew
      rw [hb]
      simp only [Bool.false_eq_true, if_false]
      have hput : s.at_.put (.dir x []) = ⟨(s.at_.cur, x, []) :: s.at_.frames, []⟩ := by
        simp only [Cursor.put, BEntry.name, hn, Option.isSome_none, Bool.false_eq_true, if_false]
      have hst : s.putNew (.dir x []) (BEntry.dir x c).mtime = { s with at_ := ⟨(s.at_.cur, x, []) :: s.at_.frames, []⟩, dates := x.ino.mtime :: s.dates } := by
        unfold MgSt.putNew
        rw [hput]
        rfl
      show ∃ s', mergeLoop o b rs off (s.putNew (.dir x []) (BEntry.dir x c).mtime) (BEntry.eventsList c ++ [BEv.eod]) = .ok s' ∧ _
      rw [hst, mergeLoop_append]
      have hdc : BEntry.DistinctL c := by unfold BEntry.Distinct at hde; exact hde
      have hi2 : MInv T none { s with at_ := ⟨(s.at_.cur, x, []) :: s.at_.frames, []⟩, dates := x.ino.mtime :: s.dates } := by
        refine ⟨hi.skip, hi.nodup, fun j => ?_, hi.right⟩
        show j ∈ s.known ↔ 0 < Cursor.links j ⟨(s.at_.cur, x, []) :: s.at_.frames, []⟩ ∨ _
        rw [hi.known j, cursor_links (_ :: _)]
        simp only [List.map_cons, List.sum_cons, BEntry.linksL, Nat.add_zero]
        have : s.at_.links j = (s.at_.frames.map (fun f => BEntry.linksL j f.1 + BEntry.linksL j f.2.2)).sum + BEntry.linksL j s.at_.cur := rfl
        rw [this, Nat.add_comm]
      obtain ⟨s2, h1, h2, h3, h4⟩ := fresh_list hT hb c hdc _ hi2 (fun e he => rfl)
      rw [h1]
      show ∃ s', mergeLoop o b rs off s2 [BEv.eod] = .ok s' ∧ _
      dsimp only at h2 h3
      rw [leave h4.skip h2]
      refine ⟨_, rfl, ?_, ?_, ?_⟩
      · show (⟨s.at_.frames, _⟩ : Cursor) = _
        rw [path_cons s.at_.frames s.at_.cur [] [] s.at_.cur x]
        rfl
      · show s2.dates.tail = s.dates
        rw [h3]; rfl
      · refine ⟨h4.skip, h4.nodup, fun j => ?_, h4.right⟩
        show j ∈ s2.known ↔ 0 < Cursor.links j _ ∨ _
        rw [h4.known j, h2, up_links]
theorem fresh_list (hT : ∀ k, T (k + off) = rs k) {b : Bool} (hb : (b && o.decremental) = false) (l : List BEntry) (hdl : BEntry.DistinctL l) (s : MgSt) (hi : MInv T none s)
    (hn : ∀ e ∈ l, findChild s.at_.cur e.name = none) :
    ∃ s', mergeLoop o b rs off s (BEntry.eventsList l) = .ok s' ∧ s'.at_ = ⟨s.at_.frames, s.at_.cur ++ BEntry.selectL o s.at_.path (BEntry.relabelL (· + off) l)⟩ ∧
      s'.dates = s.dates ∧ MInv T none s' := by
  match l, hdl, hn with
  | [], _, _ => exact ⟨s, rfl, by simp [BEntry.relabelL, BEntry.selectL], rfl, hi⟩
  | e :: l, hdl, hn =>
    unfold BEntry.DistinctL at hdl
    obtain ⟨s1, h1, h2, h3, h4⟩ := fresh_entry hT hb e hdl.1 s hi (hn e (List.mem_cons_self ..))
    have hn1 : ∀ a ∈ l, findChild s1.at_.cur a.name = none := by
      intro a ha
      rw [h2, find_none_iff]
      intro c hc
      rcases List.mem_append.1 hc with hc | hc
      · exact (find_none_iff _ _).1 (hn a (List.mem_cons_of_mem _ ha)) c hc
      · rw [select_names o _ _ _ hc, relabel_name]
        exact Ne.symm (hdl.2.1 a ha)
    obtain ⟨s2, h5, h6, h7, h8⟩ := fresh_list hT hb l hdl.2.2 s1 h4 hn1
    refine ⟨s2, ?_, ?_, h7.trans h3, h8⟩
    · rw [BEntry.eventsList, mergeLoop_append, h1]
      exact h5
    · rw [h6, h2, BEntry.relabelL, BEntry.selectL, List.append_assoc]
      rfl
end
end

end Dar
