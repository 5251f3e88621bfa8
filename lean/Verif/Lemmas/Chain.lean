import Verif.Spec.Chain
import Verif.Props.Restore
/- Lemmas on chains of differential backups. -/
namespace Dar

/-! ### distinct names -/

theorem distinctL_iff (l : List BEntry) : BEntry.DistinctL l ↔ (∀ e ∈ l, BEntry.Distinct e) ∧ (l.map BEntry.name).Nodup := by
  induction l with
  | nil => unfold BEntry.DistinctL; simp
  | cons e l ih =>
    unfold BEntry.DistinctL
    rw [ih]
    simp only [List.mem_cons, forall_eq_or_imp, List.map_cons, List.nodup_cons, List.mem_map, not_exists, not_and]
    tauto

mutual
theorem bk_distinct_entry {o : BkOpts} {rstars : Nat → Obj} (e : BEntry) (refd : Option (List BEntry)) (path : List Bytes) (c : BkCore) (e' : BEntry) (c' : BkCore)
    (h : bkEntry o rstars refd path e c = .ok (e', c')) (hd : BEntry.Distinct e) : BEntry.Distinct e' := by
  have hinv := (bkEntry_inv h).2
  match e, hd with
  | .dir x ch, hd =>
    cases e' with
    | dir x' ch' =>
      obtain ⟨-, -, y, ch2, c1, heq, hl⟩ := hinv x' ch' rfl
      cases heq
      unfold BEntry.Distinct at hd ⊢
      exact bk_distinct_list ch _ _ _ _ _ hl hd
    | _ => unfold BEntry.Distinct; trivial
  | .node x, _ => cases e' with
    | dir x' ch' => obtain ⟨-, -, y, ch2, c1, heq, hl⟩ := hinv x' ch' rfl; cases heq
    | _ => unfold BEntry.Distinct; trivial
  | .mirage n k, _ => cases e' with
    | dir x' ch' => obtain ⟨-, -, y, ch2, c1, heq, hl⟩ := hinv x' ch' rfl; cases heq
    | _ => unfold BEntry.Distinct; trivial
  | .detruit n k t, _ => cases e' with
    | dir x' ch' => obtain ⟨-, -, y, ch2, c1, heq, hl⟩ := hinv x' ch' rfl; cases heq
    | _ => unfold BEntry.Distinct; trivial
  | .ignored n, _ => cases e' with
    | dir x' ch' => obtain ⟨-, -, y, ch2, c1, heq, hl⟩ := hinv x' ch' rfl; cases heq
    | _ => unfold BEntry.Distinct; trivial
  | .ignoredDir x, _ => cases e' with
    | dir x' ch' => obtain ⟨-, -, y, ch2, c1, heq, hl⟩ := hinv x' ch' rfl; cases heq
    | _ => unfold BEntry.Distinct; trivial
theorem bk_distinct_list {o : BkOpts} {rstars : Nat → Obj} (l : List BEntry) (refd : Option (List BEntry)) (path : List Bytes) (c : BkCore) (l' : List BEntry) (c' : BkCore)
    (h : bkList o rstars refd path l c = .ok (l', c')) (hd : BEntry.DistinctL l) : BEntry.DistinctL l' := by
  match l, hd with
  | [], hd => rw [bkList] at h; cases h; exact hd
  | e :: l, hd =>
    rw [bkList] at h
    cases h1 : bkEntry o rstars refd path e c with
    | error err => rw [h1] at h; cases h
    | ok r =>
      obtain ⟨e', c1⟩ := r
      rw [h1] at h
      simp only [bind, Except.bind] at h
      cases h2 : bkList o rstars refd path l c1 with
      | error err => rw [h2] at h; cases h
      | ok r2 =>
        obtain ⟨l2, c2⟩ := r2
        rw [h2] at h
        cases h
        unfold BEntry.DistinctL at hd ⊢
        refine ⟨bk_distinct_entry e _ _ _ _ _ h1 hd.1, fun a ha hn => ?_, bk_distinct_list l _ _ _ _ _ h2 hd.2.2⟩
        rw [bkEntry_name h1] at hn
        have hdom := (bkList_domain h2 e.name).1
        have hne : findChild l2 e.name ≠ none := by
          intro hc
          unfold findChild at hc
          have := List.find?_eq_none.1 hc a ha
          simp [hn] at this
        have hne2 : findChild l e.name ≠ none := fun hc => hne (hdom.2 hc)
        cases hf : findChild l e.name with
        | none => exact hne2 hf
        | some b => exact hd.2.1 b (List.mem_of_find?_eq_some hf) (findChild_name hf)
end

theorem distinct_add {l : List BEntry} {e : BEntry} (h : BEntry.DistinctL l) (hf : findChild l e.name = none) (he : BEntry.Distinct e) : BEntry.DistinctL (l ++ [e]) := by
  rw [distinctL_iff] at h ⊢
  refine ⟨?_, ?_⟩
  · intro a ha
    rcases List.mem_append.1 ha with ha | ha
    · exact h.1 a ha
    · rw [List.mem_singleton.1 ha]; exact he
  · rw [List.map_append, List.nodup_append]
    refine ⟨h.2, by simp, ?_⟩
    intro a ha b hb
    obtain ⟨c, hc, rfl⟩ := List.mem_map.1 ha
    simp at hb
    subst hb
    intro hn
    have := List.find?_eq_none.1 hf c hc
    simp [hn] at this

theorem distinct_replace {l : List BEntry} {e e' : BEntry} {n : Bytes} (h : BEntry.DistinctL l) (hf : findChild l n = some e) (hn : e'.name = n) (he : BEntry.Distinct e') :
    BEntry.DistinctL (beforeChild l n ++ e' :: afterChild l n) := by
  have hs := child_split l n e hf
  have hen := findChild_name hf
  rw [hs] at h
  rw [distinctL_iff] at h ⊢
  refine ⟨?_, ?_⟩
  · intro a ha
    rcases List.mem_append.1 ha with ha | ha
    · exact h.1 a (List.mem_append.2 (Or.inl ha))
    · rcases List.mem_cons.1 ha with ha | ha
      · rw [ha]; exact he
      · exact h.1 a (List.mem_append.2 (Or.inr (List.mem_cons_of_mem _ ha)))
  · have h2 := h.2
    rw [List.map_append, List.map_cons] at h2 ⊢
    rw [hen] at h2
    rw [hn]
    exact h2

theorem distinct_child {l : List BEntry} {n : Bytes} {e : BEntry} (h : BEntry.DistinctL l) (hf : findChild l n = some e) : BEntry.Distinct e :=
  ((distinctL_iff l).1 h).1 e (List.mem_of_find?_eq_some hf)

mutual
theorem dest_distinct_entry (rstars : Nat → Obj) (e : BEntry) (d : DateT) (cur : List BEntry) (h : BEntry.DistinctL cur) : BEntry.DistinctL (destEntry rstars d e cur).1 := by
  have leaf : ∀ k, BEntry.DistinctL (match findChild cur e.name with
      | none => (cur ++ [.detruit e.name k d], 1)
      | some _ => (cur, 0) : List BEntry × Nat).1 := by
    intro k
    cases hf : findChild cur e.name with
    | none => exact distinct_add h hf (by unfold BEntry.Distinct; trivial)
    | some a => exact h
  match e, leaf with
  | .dir x ch, _ =>
    unfold destEntry
    cases hf : findChild cur x.name with
    | none => exact distinct_add h hf (by unfold BEntry.Distinct; trivial)
    | some a =>
      cases a with
      | dir y c =>
        have hy : y.name = x.name := findChild_name hf
        dsimp only
        rw [hy]
        refine distinct_replace h hf hy ?_
        have hc := distinct_child h hf
        unfold BEntry.Distinct at hc ⊢
        exact dest_distinct_list rstars ch _ c hc
      | _ => exact h
  | .detruit n k t, _ => unfold destEntry; exact h
  | .node x, leaf => unfold destEntry; exact leaf _
  | .mirage n k, leaf => unfold destEntry; exact leaf _
  | .ignored n, leaf => unfold destEntry; exact leaf _
  | .ignoredDir x, leaf => unfold destEntry; exact leaf _
theorem dest_distinct_list (rstars : Nat → Obj) (l : List BEntry) (d : DateT) (cur : List BEntry) (h : BEntry.DistinctL cur) : BEntry.DistinctL (destList rstars d l cur).1 := by
  match l with
  | [] => unfold destList; exact h
  | e :: l => unfold destList; exact dest_distinct_list rstars l d _ (dest_distinct_entry rstars e d cur h)
end

theorem backupAll_distinct {o : BkOpts} {d : DateT} {t ref a : BCat} {st : Stats} (h : backupAll o d t ref = .ok (a, st)) (hd : BEntry.DistinctL t.root) :
    BEntry.DistinctL a.root := by
  unfold backupAll at h
  rw [backup_eq] at h
  cases hl : bkList o ref.stars (some ref.root) [] t.root ⟨t.stars, [], Stats.zero⟩ with
  | error e => rw [hl] at h; cases h
  | ok r =>
    rw [hl] at h
    simp only [bind, Except.bind] at h
    rw [updateDestroyed_eq] at h
    cases h
    exact dest_distinct_list _ _ _ _ (bk_distinct_list _ _ _ _ _ _ hl hd)

theorem occurs_tree {l : List BEntry} {p : List Bytes} {e : BEntry} (hd : BEntry.DistinctL l) (h : OccursIn l p e) : treeAt l p = some e := by
  induction h with
  | here h => exact findChild_mem hd h
  | @inside l x c p e h1 h2 ih =>
    have hf := findChild_mem hd h1
    have hc := distinct_child hd hf
    unfold BEntry.Distinct at hc
    have := ih hc
    cases p with
    | nil => cases this
    | cons m p =>
      show treeAt l (x.name :: m :: p) = _
      rw [treeAt_more, subOf, show findChild l x.name = some (.dir x c) from hf]
      exact this

/-! ### what an archive tells about the tree it saved -/

theorem Faithful.kept {o : BkOpts} (h : Faithful o) (p : List Bytes) : Kept o p := fun q _ _ => ⟨h.cov q false, h.fails q⟩

/-- the two inodes differ by what is stored only -/
structure SameBut (x x' : Obj) : Prop where
  same : ∃ s a d f, x' = { x with ino := { x.ino with status := s, eaStatus := a, dirty := d }, fsa := f }
  eaNone : x.ino.eaStatus = .none → x'.ino.eaStatus = .none ∨ x'.ino.eaStatus = .removed
  eaFull : x.ino.eaStatus = .full → x'.ino.eaStatus = .part ∨ x'.ino.eaStatus = .full
  fsaNone : x.fsa = .none → x'.fsa = .none
  fsaFull : x.fsa = .full → x'.fsa ≠ .none

theorem Recorded.but {o : BkOpts} {ref : BCat} {p : List Bytes} {x x' : Obj} (h : Recorded o ref p x x') : SameBut x x' := by
  refine ⟨?_, fun h1 => (h.eaNone h1).2.symm, fun h1 => (h.eaFull h1).2, h.fsaNone, fun h1 => ?_⟩
  · obtain ⟨s, a, d, f, h1, -⟩ := h.same
    exact ⟨s, a, d, f, h1⟩
  · rcases (h.fsaFull h1).2 with h2 | h2 <;> rw [h2] <;> simp

/-- the archive `a` is the one of the tree `t` -/
def Archived (t a : BCat) : Prop := ∀ p, match treeAt t.root p with
  | some (.node x) => ∃ x', treeAt a.root p = some (.node x') ∧ SameBut x x'
  | some (.dir x _) => ∃ x' c', treeAt a.root p = some (.dir x' c') ∧ SameBut x x'
  | _ => ∀ e, treeAt a.root p = some e → e.isDet = true

theorem snoc_of_ne {p : List Bytes} (h : p ≠ []) : ∃ q m, p = q ++ [m] := ⟨p.dropLast, p.getLast h, (List.dropLast_concat_getLast h).symm⟩

theorem backupAll_at {o : BkOpts} (ho : Faithful o) {d : DateT} {t ref a : BCat} {st : Stats} (h : backupAll o d t ref = .ok (a, st)) (p : List Bytes) :
    (∀ x, treeAt t.root p = some (.node x) → ∃ x', treeAt a.root p = some (.node x') ∧ Recorded o ref p x x') ∧
    (∀ x c, treeAt t.root p = some (.dir x c) → ∃ x' c', treeAt a.root p = some (.dir x' c') ∧ Recorded o ref p x x') ∧
    (treeAt t.root p = none → ∀ e, treeAt a.root p = some e → ∃ m k td, e = .detruit m k td) := by
  unfold backupAll at h
  cases hb : backup o t ref with
  | error e => rw [hb] at h; cases h
  | ok r =>
    obtain ⟨cat0, st0⟩ := r
    rw [hb] at h
    obtain ⟨cat1, n, hu, -, hkept, -⟩ := C34_completes d cat0 ref
    simp only [bind, Except.bind] at h
    rw [hu] at h
    cases h
    refine ⟨fun x ht => ?_, fun x c ht => ?_, fun ht e he => ?_⟩
    · obtain ⟨x', h1, h2⟩ := (C33_recorded o t ref _ _ hb p x (ho.kept p)).1 ht
      obtain ⟨e', h3, h4⟩ := hkept p _ h1
      cases h4
      exact ⟨x', h3, h2⟩
    · obtain ⟨x', c', h1, h2⟩ := (C33_recorded o t ref _ _ hb p x (ho.kept p)).2 c ht
      obtain ⟨e', h3, c2, h4⟩ := hkept p _ h1
      subst h4
      exact ⟨x', c2, h3, h2⟩
    · have hpe : p ≠ [] := by rintro rfl; cases he
      obtain ⟨q, m, rfl⟩ := snoc_of_ne hpe
      have hno : treeAt cat0.root (q ++ [m]) = none := by
        cases hc : treeAt cat0.root (q ++ [m]) with
        | none => rfl
        | some e0 =>
          exfalso
          have hbl : ∃ c', bkList o ref.stars (some ref.root) [] t.root ⟨t.stars, [], Stats.zero⟩ = .ok (cat0.root, c') := by
            rw [backup_eq] at hb
            cases hl : bkList o ref.stars (some ref.root) [] t.root ⟨t.stars, [], Stats.zero⟩ with
            | error e => rw [hl] at hb; cases hb
            | ok r => rw [hl] at hb; cases hb; exact ⟨_, rfl⟩
          obtain ⟨c', hbl⟩ := hbl
          rcases treeAt_parent hc with rfl | ⟨x', ch', hq⟩
          · have := (bkList_domain hbl m).1.2 ht
            rw [List.nil_append, treeAt_one, this] at hc
            cases hc
          · obtain ⟨x, ch, r1, p1, c1, c2, hs, hl⟩ := from_dir q t.root _ _ _ _ _ x' ch' hbl hq
            rw [treeAt_snoc _ m q _ _ hq] at hc
            rw [treeAt_snoc _ m q _ _ hs] at ht
            rw [(bkList_domain hl m).1.2 ht] at hc
            cases hc
      obtain ⟨td, g, -, -, -, h2⟩ := (C34_recorded d cat0 ref _ n hu q m hno).2 e he
      exact ⟨_, _, _, h2⟩

theorem backupAll_archived {o : BkOpts} (ho : Faithful o) {d : DateT} {t ref a : BCat} {st : Stats} (hs : Scanned t) (h : backupAll o d t ref = .ok (a, st)) : Archived t a := by
  intro p
  obtain ⟨h1, h2, h3⟩ := backupAll_at ho h p
  cases ht : treeAt t.root p with
  | none =>
    intro e he
    obtain ⟨m, k, td, rfl⟩ := h3 ht e he
    rfl
  | some e =>
    have he := hs.entries p e ht
    cases e with
    | node x => obtain ⟨x', a1, a2⟩ := h1 x ht; exact ⟨x', a1, a2.but⟩
    | dir x c => obtain ⟨x', c', a1, a2⟩ := h2 x c ht; exact ⟨x', c', a1, a2.but⟩
    | _ => exact absurd he id

theorem SameBut.match {x x' y : Obj} (hb : SameBut x x') (hs : ScannedObj x) (h : Match y x') : Match y x := by
  obtain ⟨s, a, d, f, rfl⟩ := hb.same
  refine ⟨h.kind, h.uid, h.gid, h.perm, h.mtime, h.content, h.eas, fun hf => ?_⟩
  refine h.fsas ?_
  rcases hs.fsa with ⟨h1, -⟩ | h1
  · exact hb.fsaFull h1
  · exact absurd h1 hf

/-- the archive and the tree describe the same filesystem -/
theorem SameTree.scanned {fs : FS} {t a : BCat} (hs : Scanned t) (ha : Archived t a) (h : SameTree fs a) : SameTree fs t := by
  have hm : ∀ p n k, treeAt a.root p ≠ some (.mirage n k) := by
    intro p n k hc
    have := ha p
    cases ht : treeAt t.root p with
    | none => rw [ht] at this; have := this _ hc; cases this
    | some e =>
      have he := hs.entries p e ht
      rw [ht] at this
      cases e with
      | node x => obtain ⟨x', h1, -⟩ := this; rw [hc] at h1; cases h1
      | dir x c => obtain ⟨x', c', h1, -⟩ := this; rw [hc] at h1; cases h1
      | _ => exact absurd he id
  refine ⟨fun p hp => ?_, fun p q i h1 h2 => ?_, fun p q m n k h1 => ?_⟩
  · have hn := h.names p hp
    have hap := ha p
    cases ht : treeAt t.root p with
    | none =>
      rw [ht] at hap
      cases hv : treeAt a.root p with
      | none => rw [hv] at hn; exact hn
      | some e =>
        have := hap e hv
        rw [hv] at hn
        cases e with
        | detruit m k td => exact hn
        | _ => cases this
    | some e =>
      have he := hs.entries p e ht
      rw [ht] at hap
      cases e with
      | node x =>
        obtain ⟨x', h1, h2⟩ := hap
        rw [h1] at hn
        obtain ⟨i, h3, h4⟩ := hn
        exact ⟨i, h3, h2.match he.2 h4⟩
      | dir x c =>
        obtain ⟨x', c', h1, h2⟩ := hap
        rw [h1] at hn
        obtain ⟨i, h3, h4⟩ := hn
        exact ⟨i, h3, h2.match he.2 h4⟩
      | _ => exact absurd he id
  · rcases h.notLinked p q i h1 h2 with h3 | ⟨m, n, k, h3, -⟩
    · exact Or.inl h3
    · exact absurd h3 (hm p m k)
  · have := hs.entries p _ h1
    exact absurd this id

theorem SameTree.wf {fs : FS} {t : BCat} (hs : Scanned t) (h : SameTree fs t) (hroot : ∃ y, fs.ent [] = some (.dir y))
    (hids : ∀ p i, fs.ent p = some (.ino i) → i < fs.next) : FSWf fs := by
  obtain ⟨y0, hy0⟩ := hroot
  refine ⟨⟨y0, hy0⟩, fun p hp hne => ?_, hids, fun p i hi => ?_, fun p y hp hy => ?_, fun p q i h1 h2 => ?_⟩
  · obtain ⟨q, m, rfl⟩ := snoc_of_ne hp
    rw [List.dropLast_concat]
    have hn := h.names _ hp
    cases ht : treeAt t.root (q ++ [m]) with
    | none => rw [ht] at hn; exact absurd hn hne
    | some e =>
      rcases treeAt_parent ht with rfl | ⟨x, c, hq⟩
      · unfold FS.isDir; rw [hy0]
      · have hqn : q ≠ [] := by rintro rfl; cases hq
        have := h.names q hqn
        rw [hq] at this
        obtain ⟨y, h1, -⟩ := this
        unfold FS.isDir; rw [h1]
  · have hp : p ≠ [] := by rintro rfl; rw [hy0] at hi; cases hi
    have hn := h.names p hp
    cases ht : treeAt t.root p with
    | none => rw [ht] at hn; unfold FoundAt at hn; rw [hi] at hn; cases hn
    | some e =>
      have he := hs.entries p e ht
      rw [ht] at hn
      cases e with
      | node x =>
        obtain ⟨j, h1, h2⟩ := hn
        rw [hi] at h1; cases h1
        rw [h2.kind]; exact he.1
      | dir x c => obtain ⟨j, h1, h2⟩ := hn; rw [hi] at h1; cases h1
      | _ => exact absurd he id
  · · have hn := h.names p hp
      cases ht : treeAt t.root p with
      | none => rw [ht] at hn; unfold FoundAt at hn; rw [hy] at hn; cases hn
      | some e =>
        have he := hs.entries p e ht
        rw [ht] at hn
        cases e with
        | dir x c =>
          obtain ⟨j, h1, h2⟩ := hn
          rw [hy] at h1; cases h1
          rw [h2.kind]; exact he.1
        | node x => obtain ⟨j, h1, h2⟩ := hn; rw [hy] at h1; cases h1
        | _ => exact absurd he id
  · rcases h.notLinked p q i h1 h2 with h3 | ⟨m, n, k, h3, -⟩
    · exact h3
    · exact absurd (hs.entries p _ h3) id

end Dar
