import Verif.Lemmas.Merge11
/- The decremental policy; what the description of each directory says of paths. -/
namespace Dar

/-! ### the decremental policy -/

/-- the two conditions -/
def decrData : Crit := .and [.sameInodeData, .dataMoreRecent 0, .invert (.dataMoreRecent 0), .or [.isNewHardlinked, .not .isHardlinked]]
def decrEa : Crit :=
  .or [.and [.eaPresent, .invert .eaPresent, .eaMoreRecent 0, .invert (.eaMoreRecent 0)], .and [.not .eaPresent, .not (.invert .eaPresent)]]

theorem decr_eval (capa : TimeUnit) (x y : CEntry) (b c : Bool) (h1 : decrData.eval capa x y = .ok b) (h2 : decrEa.eval capa x y = .ok c) :
    decrPolicy.get capa x y = .ok (if b then .preserveMark else .preserve, if c then .preserveMark else .preserve) := by
  unfold decrPolicy
  change Action.get capa (.chain [.test decrData (.const .preserveMark .undefined) (.const .preserve .undefined),
    .test decrEa (.const .undefined .preserveMark) (.const .undefined .preserve)]) x y = _
  rw [Action.get, if_neg (by simp), Action.chainGet, if_pos (Or.inl rfl), Action.get, h1]
  cases b <;> cases c <;> simp [Action.get, Action.chainGet, h2]

theorem decrData_good : decrData.Good true := by
  unfold decrData
  refine .and (by simp) ?_
  intro c hc
  simp only [List.mem_cons, List.not_mem_nil, or_false] at hc
  rcases hc with rfl | rfl | rfl | rfl
  · exact .sameInodeData
  · exact .dataMoreRecent
  · exact .invert .dataMoreRecent
  · refine .or (by simp) ?_
    intro c hc
    simp only [List.mem_cons, List.not_mem_nil, or_false] at hc
    rcases hc with rfl | rfl
    · exact .isNewHardlinked
    · exact .not .isHardlinked
theorem decrEa_good : decrEa.Good false := by
  unfold decrEa
  refine .or (by simp) ?_
  intro c hc
  simp only [List.mem_cons, List.not_mem_nil, or_false] at hc
  rcases hc with rfl | rfl
  · refine .and (by simp) ?_
    intro c hc
    simp only [List.mem_cons, List.not_mem_nil, or_false] at hc
    rcases hc with rfl | rfl | rfl | rfl
    · exact .eaPresent rfl
    · exact .invert (.eaPresent rfl)
    · exact .eaMoreRecent
    · exact .invert .eaMoreRecent
  · refine .and (by simp) ?_
    intro c hc
    simp only [List.mem_cons, List.not_mem_nil, or_false] at hc
    rcases hc with rfl | rfl
    · exact .not (.eaPresent rfl)
    · exact .not (.invert (.eaPresent rfl))

theorem decr_keeps {capa : TimeUnit} {x y : CEntry} {d : OverData} {a : OverEa} (h : decrPolicy.get capa x y = .ok (d, a)) :
    (d = .preserve ∨ d = .preserveMark) ∧ (a = .preserve ∨ a = .preserveMark) := by
  obtain ⟨b, hb⟩ := Crit.total capa true decrData_good x y
  obtain ⟨c, hc⟩ := Crit.total capa false decrEa_good x y
  rw [decr_eval capa x y b c hb hc] at h
  cases h
  cases b <;> cases c <;> simp

theorem unitMax_comm (a b : TimeUnit) : unitMax a b = unitMax b a := by cases a <;> cases b <;> rfl
theorem looseUnit_comm (capa : TimeUnit) (a b : DateT) : looseUnit capa a b = looseUnit capa b a := by
  unfold looseUnit; rw [unitMax_comm]
theorem notOlder_both (capa : TimeUnit) (a b : DateT) : (NotOlder capa 0 a b ∧ NotOlder capa 0 b a) ↔
    a.instant / (looseUnit capa a b).nanos = b.instant / (looseUnit capa a b).nanos := by
  unfold NotOlder
  rw [looseUnit_comm capa b a]
  generalize hn : (looseUnit capa a b).nanos = n
  have hpos : 0 < n := by rw [← hn]; generalize looseUnit capa a b = u; cases u <;> decide
  dsimp only
  have key : (∃ h, h ≤ 0 ∧ (a.instant / n * n = b.instant / n * n + h * 3600 * 1000000000 ∨ b.instant / n * n = a.instant / n * n + h * 3600 * 1000000000)) ↔
      a.instant / n = b.instant / n := by
    constructor
    · rintro ⟨h, h0, hh⟩
      have : h = 0 := by omega
      subst this
      rcases hh with hh | hh
      · exact Nat.eq_of_mul_eq_mul_right hpos (by simpa using hh)
      · exact (Nat.eq_of_mul_eq_mul_right hpos (by simpa using hh)).symm
    · intro h
      exact ⟨0, Nat.le_refl _, Or.inl (by rw [h]; simp)⟩
  have key2 : (∃ h, h ≤ 0 ∧ (b.instant / n * n = a.instant / n * n + h * 3600 * 1000000000 ∨ a.instant / n * n = b.instant / n * n + h * 3600 * 1000000000)) ↔
      a.instant / n = b.instant / n := by
    rw [← key]
    constructor <;> (rintro ⟨h, h0, hh⟩; exact ⟨h, h0, hh.symm⟩)
  rw [key, key2]
  constructor
  · rintro ⟨h1 | h1, h2 | h2⟩
    · rw [Nat.le_antisymm h2 h1]
    · exact h2
    · exact h1
    · exact h1
  · exact fun h => ⟨Or.inr h, Or.inr h⟩

theorem sameInode_date {i j : Ino} (capa : TimeUnit) (h : SameInode i j) : NotOlder capa 0 i.mtime j.mtime ∧ NotOlder capa 0 j.mtime i.mtime := by
  obtain ⟨_, _, _, _, h, _⟩ := h
  exact ⟨Or.inl (by omega), Or.inl (by omega)⟩

/-- the first condition, for entries that are not hard links -/
theorem decrData_spec {capa : TimeUnit} {x y : CEntry} (hx : x.Wf) (hy : y.Wf) (hm : ∀ i f, x ≠ .mirage i f) :
    ∃ b, decrData.eval capa x y = .ok b ∧ (b = true ↔ ∃ i j, x.getInode = some i ∧ y.getInode = some j ∧ SameInode i j) := by
  obtain ⟨b, hb, h⟩ := C28_condition capa decrData true decrData_good x y hx hy (fun h => by cases h)
  refine ⟨b, hb, h.trans ?_⟩
  unfold decrData
  rw [Crit.Doc]
  simp only [List.mem_cons, List.not_mem_nil, or_false, forall_eq_or_imp, forall_eq]
  constructor
  · rintro ⟨h, _⟩
    rw [Crit.Doc] at h; exact h
  · intro h
    refine ⟨by rw [Crit.Doc]; exact h, ?_, ?_, ?_⟩
    · unfold Crit.Doc
      intro i' j' hi hj
      obtain ⟨i, j, h1, h2, h3⟩ := h
      rw [h1] at hi; rw [h2] at hj; cases hi; cases hj
      exact (sameInode_date capa h3).1
    · unfold Crit.Doc Crit.Doc
      intro i' j' hi hj
      obtain ⟨i, j, h1, h2, h3⟩ := h
      rw [h1] at hj; rw [h2] at hi; cases hi; cases hj
      exact (sameInode_date capa h3).2
    · rw [Crit.Doc]
      refine ⟨.not .isHardlinked, by simp, ?_⟩
      unfold Crit.Doc Crit.Doc
      rintro ⟨i, f, h⟩
      exact hm i f h

/-- An entry has extended attributes on the filesystem. -/
def CEntry.HasEa (x : CEntry) : Prop := ∃ i, x.getInode = some i ∧ i.hasEa
/-- the second condition, for entries that are not hard links -/
theorem decrEa_spec {capa : TimeUnit} {x y : CEntry} (hx : x.Wf) (hy : y.Wf) (hm : ∀ i f, x ≠ .mirage i f) (hm' : ∀ i f, y ≠ .mirage i f) :
    ∃ b, decrEa.eval capa x y = .ok b ∧ (b = true ↔
      (∃ i j, x.getInode = some i ∧ y.getInode = some j ∧ i.hasEa ∧ j.hasEa ∧ NotOlder capa 0 i.ctime j.ctime ∧ NotOlder capa 0 j.ctime i.ctime) ∨ (¬ x.HasEa ∧ ¬ y.HasEa)) := by
  obtain ⟨b, hb, h⟩ := C28_condition capa decrEa false decrEa_good x y hx hy (fun _ => ⟨hm, hm'⟩)
  refine ⟨b, hb, h.trans ?_⟩
  unfold decrEa
  rw [Crit.Doc]
  simp only [List.mem_cons, List.not_mem_nil, or_false, exists_prop, exists_eq_or_imp, exists_eq_left]
  refine or_congr ?_ ?_
  · rw [Crit.Doc]
    simp only [List.mem_cons, List.not_mem_nil, or_false, forall_eq_or_imp, forall_eq]
    simp only [Crit.Doc]
    constructor
    · rintro ⟨⟨i, hi, hie⟩, ⟨j, hj, hje⟩, h1, h2⟩
      refine ⟨i, j, hi, hj, hie, hje, ?_, ?_⟩
      · rcases h1 j hj hje with ⟨i', hi', _, h⟩ | ⟨h, _⟩
        · rw [hi] at hi'; cases hi'; exact h
        · exact absurd hie (h i hi)
      · rcases h2 i hi hie with ⟨j', hj', _, h⟩ | ⟨h, _⟩
        · rw [hj] at hj'; cases hj'; exact h
        · exact absurd hje (h j hj)
    · rintro ⟨i, j, hi, hj, hie, hje, h1, h2⟩
      refine ⟨⟨i, hi, hie⟩, ⟨j, hj, hje⟩, ?_, ?_⟩
      · intro j' hj' _
        rw [hj] at hj'; cases hj'
        exact Or.inl ⟨i, hi, hie, h1⟩
      · intro i' hi' _
        rw [hi] at hi'; cases hi'
        exact Or.inl ⟨j, hj, hje, h2⟩
  · rw [Crit.Doc]
    simp only [List.mem_cons, List.not_mem_nil, or_false, forall_eq_or_imp, forall_eq]
    simp only [Crit.Doc]
    rfl

/-! ### paths -/

/-- `Merged`, below the directory of path `b` -/
def MergedB (o : MgOpts) (t1 t2 : Nat → Obj) (b : List Bytes) (dt : DateT) (l1 l2 r : List BEntry) : Prop :=
  ∀ p c1 c2 c d, dirAt l1 p = some c1 → dirAt l2 p = some c2 → dirAt r p = some c → dirDate dt l2 p = some d →
    ∀ n, MergedAt o t1 t2 d (b ++ p ++ [n]) (findChild c1 n) (findChild c2 n) (findChild c n)

section
variable {o : MgOpts} {t1 t2 : Nat → Obj}

theorem MergedB.here {b : List Bytes} {dt : DateT} {l1 l2 r : List BEntry} (h : MergedB o t1 t2 b dt l1 l2 r) (n : Bytes) :
    MergedAt o t1 t2 dt (b ++ [n]) (findChild l1 n) (findChild l2 n) (findChild r n) := by
  have := h [] l1 l2 r dt rfl rfl rfl (dirDate_root _ _) n
  rwa [List.append_nil] at this
theorem dirAt_below {l c : List BEntry} {x : Obj} {n : Bytes} {p : List Bytes} (h : findChild l n = some (.dir x c)) : dirAt l (n :: p) = dirAt c p := by
  rw [dirAt, h]
theorem MergedB.below {b : List Bytes} {dt : DateT} {l1 l2 r c1 c2 c : List BEntry} {x1 x2 x : Obj} {n : Bytes} (h : MergedB o t1 t2 b dt l1 l2 r)
    (h1 : findChild l1 n = some (.dir x1 c1)) (h2 : findChild l2 n = some (.dir x2 c2)) (h3 : findChild r n = some (.dir x c)) :
    MergedB o t1 t2 (b ++ [n]) x2.ino.mtime c1 c2 c := by
  intro p k1 k2 k d g1 g2 g3 g4 m
  have := h (n :: p) k1 k2 k d (by rw [dirAt_below h1]; exact g1) (by rw [dirAt_below h2]; exact g2) (by rw [dirAt_below h3]; exact g3)
    (by rw [dirDate_below h2]; exact g4) m
  simpa [List.append_assoc] using this

theorem treeAt_inside {l : List BEntry} {n m : Bytes} {p : List Bytes} {e : BEntry} (h : treeAt l (n :: m :: p) = some e) :
    ∃ x c, findChild l n = some (.dir x c) ∧ treeAt c (m :: p) = some e := by
  unfold findChild
  simp only [treeAt] at h
  split at h
  · rename_i x c hf
    exact ⟨x, c, hf, h⟩
  · cases h
theorem treeAt_none_below {l : List BEntry} {n m : Bytes} {p : List Bytes} {e : BEntry} (hf : findChild l n = some e) (hd : e.isDir = false) : treeAt l (n :: m :: p) = none := by
  unfold findChild at hf
  simp only [treeAt, hf]
  cases e <;> first | rfl | cases hd

/-- the entry in the result of two directories, unless it is removed -/
theorem head_dirs {d : OverData} {a : OverEa} {x1 x2 : Obj} {c1 c2 : List BEntry} {e : BEntry} (h : HeadOf o t1 t2 d a (.dir x1 c1) (.dir x2 c2) e) : ∃ z c, e = .dir z c := by
  unfold HeadOf at h
  by_cases hd : d = .overwrite ∨ d = .overwriteMark
  · rw [if_pos hd] at h
    obtain ⟨z, c, rfl, _⟩ := h
    exact ⟨z, c, rfl⟩
  · rw [if_neg hd] at h
    obtain ⟨z, c, rfl, _⟩ := h
    exact ⟨z, c, rfl⟩
theorem head_keeps_dir {d : OverData} {a : OverEa} {x1 : Obj} {c1 : List BEntry} {e2 e : BEntry} (hk : KeepsOld d) (h : HeadOf o t1 t2 d a (.dir x1 c1) e2 e) : ∃ z c, e = .dir z c := by
  unfold HeadOf at h
  rw [if_neg (by rcases hk with rfl | rfl | rfl <;> simp)] at h
  obtain ⟨z, c, rfl, _⟩ := h
  exact ⟨z, c, rfl⟩
theorem head_takes_dir {d : OverData} {a : OverEa} {x2 : Obj} {c2 : List BEntry} {e1 e : BEntry} (hk : TakesNew d) (h : HeadOf o t1 t2 d a e1 (.dir x2 c2) e) : ∃ z c, e = .dir z c := by
  unfold HeadOf at h
  rw [if_pos (show d = .overwrite ∨ d = .overwriteMark from hk)] at h
  obtain ⟨z, c, rfl, _⟩ := h
  exact ⟨z, c, rfl⟩
theorem keeps_or_takes {d : OverData} (h1 : d ≠ .remove) (h2 : d ≠ .ask) : KeepsOld d ∨ TakesNew d := by
  unfold KeepsOld TakesNew
  cases d <;> simp at h1 h2 ⊢
theorem dir_not_ignored {e : BEntry} (h : e.isDir = true) : e.isIgnoredDir = false := by cases e <;> first | rfl | cases h

/-- what is at the path of an entry of the first archive only -/
theorem path_first : ∀ (p : List Bytes) (l1 l2 r : List BEntry) (dt : DateT) (b : List Bytes) (e : BEntry), MergedB o t1 t2 b dt l1 l2 r →
    treeAt l1 p = some e → treeAt l2 p = none →
    (∀ q s, p = q ++ s → q ≠ [] → s ≠ [] → ∀ e1 e2, treeAt l1 q = some e1 → treeAt l2 q = some e2 →
      ∀ d a, Decided o t1 t2 (b ++ q) e1 e2 d a → d ≠ .remove ∧ (TakesNew d → e2.isDir = true)) →
    treeAt r p = some e
  | [], _, _, _, _, _, _ => fun _ h => by cases h
  | [n], l1, l2, r, dt, b, e => fun hm h1 h2 _ => (hm.here n).first e h1 h2
  | n :: m :: p, l1, l2, r, dt, b, e => fun hm h1 h2 hd => by
    obtain ⟨x1, c1, g1, k1⟩ := treeAt_inside h1
    cases g2 : findChild l2 n with
    | none =>
      have := (hm.here n).first _ g1 g2
      rw [treeAt_cons this (by simp)]
      exact k1
    | some e2 =>
      cases hi : e2.isIgnoredDir with
      | true =>
        have := ((hm.here n).excluded _ _ g1 g2 (Or.inr hi)).1
        cases this
      | false =>
        obtain ⟨d, a, hdec, hkt, _, hask⟩ := (hm.here n).conflict _ _ g1 g2 rfl hi
        obtain ⟨hrem, htd⟩ := hd [n] (m :: p) rfl (by simp) (by simp) _ e2 g1 g2 d a hdec
        obtain ⟨e', he', hhead⟩ := hkt (keeps_or_takes hrem hask)
        cases hdir : e2.isDir with
        | true =>
          obtain ⟨x2, c2, rfl⟩ : ∃ x c, e2 = .dir x c := by cases e2 <;> first | exact ⟨_, _, rfl⟩ | cases hdir
          obtain ⟨z, c, rfl⟩ := head_dirs hhead
          rw [treeAt_cons he' (by simp)]
          refine path_first (m :: p) c1 c2 c _ _ e (hm.below g1 g2 he') k1 ?_ ?_
          · rw [treeAt_cons g2 (by simp)] at h2; exact h2
          · intro q s hq hq0 hs0 e1' e2' q1 q2 d' a' hdd
            refine hd (n :: q) s (by rw [hq]; rfl) (by simp) hs0 e1' e2' (by rw [treeAt_cons g1 hq0]; exact q1) (by rw [treeAt_cons g2 hq0]; exact q2) d' a' ?_
            simpa [List.append_assoc] using hdd
        | false =>
          have hk : KeepsOld d := by
            rcases keeps_or_takes hrem hask with h | h
            · exact h
            · rw [htd h] at hdir; cases hdir
          obtain ⟨z, c, rfl⟩ := head_keeps_dir hk hhead
          have := ((hm.here n).alone _ _ _ g1 g2 he' rfl).1 rfl hdir
          change c = c1 at this
          rw [treeAt_cons he' (by simp), this]
          exact k1

/-- what is at the path of an entry of the second archive only -/
theorem path_second (hdecr : o.decremental = false) : ∀ (p : List Bytes) (l1 l2 r : List BEntry) (dt : DateT) (b : List Bytes) (e : BEntry), MergedB o t1 t2 b dt l1 l2 r →
    treeAt l1 p = none → treeAt l2 p = some e →
    (∀ q s, p = q ++ s → q ≠ [] → s ≠ [] → ∀ e1 e2, treeAt l1 q = some e1 → treeAt l2 q = some e2 →
      ∀ d a, Decided o t1 t2 (b ++ q) e1 e2 d a → d ≠ .remove ∧ (KeepsOld d → e1.isDir = true)) →
    treeAt r p = some e
  | [], _, _, _, _, _, _ => fun _ _ h => by cases h
  | [n], l1, l2, r, dt, b, e => fun hm h1 h2 _ => (hm.here n).second e h1 h2 (Or.inl hdecr)
  | n :: m :: p, l1, l2, r, dt, b, e => fun hm h1 h2 hd => by
    obtain ⟨x2, c2, g2, k2⟩ := treeAt_inside h2
    cases g1 : findChild l1 n with
    | none =>
      have := (hm.here n).second _ g1 g2 (Or.inl hdecr)
      rw [treeAt_cons this (by simp)]
      exact k2
    | some e1 =>
      cases hi : e1.isIgnoredDir with
      | true =>
        have := ((hm.here n).excluded _ _ g1 g2 (Or.inl hi)).2.1
        cases this
      | false =>
        obtain ⟨d, a, hdec, hkt, _, hask⟩ := (hm.here n).conflict _ _ g1 g2 hi rfl
        obtain ⟨hrem, htd⟩ := hd [n] (m :: p) rfl (by simp) (by simp) e1 _ g1 g2 d a hdec
        obtain ⟨e', he', hhead⟩ := hkt (keeps_or_takes hrem hask)
        cases hdir : e1.isDir with
        | true =>
          obtain ⟨x1, c1, rfl⟩ : ∃ x c, e1 = .dir x c := by cases e1 <;> first | exact ⟨_, _, rfl⟩ | cases hdir
          obtain ⟨z, c, rfl⟩ := head_dirs hhead
          rw [treeAt_cons he' (by simp)]
          refine path_second hdecr (m :: p) c1 c2 c _ _ e (hm.below g1 g2 he') ?_ k2 ?_
          · rw [treeAt_cons g1 (by simp)] at h1; exact h1
          · intro q s hq hq0 hs0 e1' e2' q1 q2 d' a' hdd
            refine hd (n :: q) s (by rw [hq]; rfl) (by simp) hs0 e1' e2' (by rw [treeAt_cons g1 hq0]; exact q1) (by rw [treeAt_cons g2 hq0]; exact q2) d' a' ?_
            simpa [List.append_assoc] using hdd
        | false =>
          have hk : TakesNew d := by
            rcases keeps_or_takes hrem hask with h | h
            · rw [htd h] at hdir; cases hdir
            · exact h
          obtain ⟨z, c, rfl⟩ := head_takes_dir hk hhead
          have := ((hm.here n).alone _ _ _ g1 g2 he' rfl).2 hdir rfl
          change c = c2 at this
          rw [treeAt_cons he' (by simp), this]
          exact k2

/-- what is at the path of an entry of both archives -/
theorem path_both : ∀ (p : List Bytes) (l1 l2 r : List BEntry) (dt : DateT) (b : List Bytes) (e1 e2 : BEntry), MergedB o t1 t2 b dt l1 l2 r →
    treeAt l1 p = some e1 → treeAt l2 p = some e2 →
    (∀ q s, p = q ++ s → q ≠ [] → s ≠ [] → ∀ e1 e2, treeAt l1 q = some e1 → treeAt l2 q = some e2 → ∀ d a, Decided o t1 t2 (b ++ q) e1 e2 d a → d ≠ .remove) →
    ∃ dt', MergedAt o t1 t2 dt' (b ++ p) (some e1) (some e2) (treeAt r p)
  | [], _, _, _, _, _, _, _ => fun _ h => by cases h
  | [n], l1, l2, r, dt, b, e1, e2 => fun hm h1 h2 _ => by
    have := hm.here n
    rw [treeAt_one] at h1 h2
    rw [h1, h2] at this
    exact ⟨dt, this⟩
  | n :: m :: p, l1, l2, r, dt, b, e1, e2 => fun hm h1 h2 hd => by
    obtain ⟨x1, c1, g1, k1⟩ := treeAt_inside h1
    obtain ⟨x2, c2, g2, k2⟩ := treeAt_inside h2
    obtain ⟨d, a, hdec, hkt, _, hask⟩ := (hm.here n).conflict _ _ g1 g2 rfl rfl
    obtain ⟨e', he', hhead⟩ := hkt (keeps_or_takes (hd [n] (m :: p) rfl (by simp) (by simp) _ _ g1 g2 d a hdec) hask)
    obtain ⟨z, c, rfl⟩ := head_dirs hhead
    rw [treeAt_cons he' (by simp)]
    obtain ⟨dt', h⟩ := path_both (m :: p) c1 c2 c _ _ e1 e2 (hm.below g1 g2 he') k1 k2 (by
      intro q s hq hq0 hs0 e1' e2' q1 q2 d' a' hdd
      refine hd (n :: q) s (by rw [hq]; rfl) (by simp) hs0 e1' e2' (by rw [treeAt_cons g1 hq0]; exact q1) (by rw [treeAt_cons g2 hq0]; exact q2) d' a' ?_
      simpa [List.append_assoc] using hdd)
    refine ⟨dt', ?_⟩
    simpa [List.append_assoc] using h

/-- nothing else -/
theorem path_only : ∀ (p : List Bytes) (l1 l2 r : List BEntry) (dt : DateT) (b : List Bytes) (e : BEntry), MergedB o t1 t2 b dt l1 l2 r → treeAt r p = some e →
    treeAt l1 p ≠ none ∨ treeAt l2 p ≠ none
  | [], _, _, _, _, _, _ => fun _ h => by cases h
  | [n], l1, l2, r, dt, b, e => fun hm h => by
    by_cases h1 : findChild l1 n = none
    · by_cases h2 : findChild l2 n = none
      · have := (hm.here n).neither h1 h2
        rw [treeAt_one, this] at h; cases h
      · exact Or.inr h2
    · exact Or.inl h1
  | n :: m :: p, l1, l2, r, dt, b, e => fun hm h => by
    obtain ⟨z, c, g, k⟩ := treeAt_inside h
    cases g1 : findChild l1 n with
    | none =>
      cases g2 : findChild l2 n with
      | none => rw [(hm.here n).neither g1 g2] at g; cases g
      | some e2 =>
        by_cases hq : o.decremental = false ∨ e2.isIgnoredDir = true
        · have := (hm.here n).second e2 g1 g2 hq
          rw [g] at this; cases this
          refine Or.inr ?_
          rw [treeAt_cons g2 (by simp), k]; simp
        · push Not at hq
          have := (hm.here n).gone e2 g1 g2 (by simpa using hq.1) (by simpa using hq.2)
          rw [g] at this; cases this
    | some e1 =>
      cases g2 : findChild l2 n with
      | none =>
        have := (hm.here n).first e1 g1 g2
        rw [g] at this; cases this
        refine Or.inl ?_
        rw [treeAt_cons g1 (by simp), k]; simp
      | some e2 =>
        by_cases hi : e1.isIgnoredDir = true ∨ e2.isIgnoredDir = true
        · obtain ⟨_, hi2, this⟩ := (hm.here n).excluded e1 e2 g1 g2 hi
          rw [g] at this; cases this; cases hi2
        · push Not at hi
          obtain ⟨d, a, hdec, hkt, hrm, hask⟩ := (hm.here n).conflict _ _ g1 g2 (by simpa using hi.1) (by simpa using hi.2)
          by_cases hrem : d = .remove
          · have := hrm hrem
            rw [g] at this
            unfold emptyMark at this
            split at this
            · split at this <;> cases this
            · cases this
          obtain ⟨e', he', hhead⟩ := hkt (keeps_or_takes hrem hask)
          rw [g] at he'; cases he'
          have hal := (hm.here n).alone _ _ _ g1 g2 g rfl
          cases hd1 : e1.isDir with
          | true =>
            obtain ⟨x1, c1, rfl⟩ : ∃ x c, e1 = .dir x c := by cases e1 <;> first | exact ⟨_, _, rfl⟩ | cases hd1
            cases hd2 : e2.isDir with
            | true =>
              obtain ⟨x2, c2, rfl⟩ : ∃ x c, e2 = .dir x c := by cases e2 <;> first | exact ⟨_, _, rfl⟩ | cases hd2
              rw [treeAt_cons g1 (by simp), treeAt_cons g2 (by simp)]
              exact path_only (m :: p) c1 c2 c _ _ e (hm.below g1 g2 g) k
            | false =>
              have := hal.1 rfl hd2
              change c = c1 at this
              refine Or.inl ?_
              rw [treeAt_cons g1 (by simp), ← this, k]; simp
          | false =>
            cases hd2 : e2.isDir with
            | true =>
              obtain ⟨x2, c2, rfl⟩ : ∃ x c, e2 = .dir x c := by cases e2 <;> first | exact ⟨_, _, rfl⟩ | cases hd2
              have := hal.2 hd1 rfl
              change c = c2 at this
              refine Or.inr ?_
              rw [treeAt_cons g2 (by simp), ← this, k]; simp
            | false =>
              exfalso
              unfold HeadOf at hhead
              have : ∀ e0 : BEntry, e0.isDir = false → ¬ (match e0 with
                  | .node t => ∃ z', BEntry.dir z c = .node z' ∧ ResultInode o t1 t2 d a e1 e2 t z'
                  | .dir t _ => ∃ z' c', BEntry.dir z c = .dir z' c' ∧ ResultInode o t1 t2 d a e1 e2 t z'
                  | e' => BEntry.dir z c = e') := by
                intro e0 h0 hh
                cases e0 with
                | node => obtain ⟨_, h, _⟩ := hh; cases h
                | dir => cases h0
                | _ => cases hh
              refine this _ ?_ hhead
              split <;> assumption

end

end Dar
