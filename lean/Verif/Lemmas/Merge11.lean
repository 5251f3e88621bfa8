import Verif.Lemmas.Merge10
import Verif.Props.Policies
/- Merging without hard links; policies; the decremental mode. -/
namespace Dar

/-! ### no hard link -/

mutual
theorem nolabel_entry (e : BEntry) (hd : e.Distinct) (h : ∀ x c, e = .dir x c → ∀ p a, treeAt c p = some a → a.isHardLink = false) (h0 : e.isHardLink = false) : e.labels = [] := by
  match e, hd, h, h0 with
  | .dir x c, hd, h, _ =>
    unfold BEntry.Distinct at hd
    rw [BEntry.labels]
    exact nolabel_list c hd (h x c rfl)
  | .node x, _, _, _ => simp [BEntry.labels]
  | .mirage n k, _, _, h0 => cases h0
  | .detruit n k d, _, _, _ => simp [BEntry.labels]
  | .ignored n, _, _, _ => simp [BEntry.labels]
  | .ignoredDir x, _, _, _ => simp [BEntry.labels]
theorem nolabel_list (l : List BEntry) (hd : BEntry.DistinctL l) (h : ∀ p a, treeAt l p = some a → a.isHardLink = false) : BEntry.labelsL l = [] := by
  match l, hd, h with
  | [], _, _ => rw [BEntry.labelsL]
  | e :: l, hd, h =>
    have hd' := hd
    unfold BEntry.DistinctL at hd'
    rw [BEntry.labelsL]
    have hfe : findChild (e :: l) e.name = some e := by unfold findChild; simp
    have h1 : e.labels = [] := nolabel_entry e hd'.1 (fun x c he p a hp => by
        have hq : p ≠ [] := by rintro rfl; cases hp
        refine h (e.name :: p) a ?_
        rw [treeAt_cons (x := x) (c := c) (by rw [hfe, he]) hq]
        exact hp) (h [e.name] e hfe)
    have h2 : BEntry.labelsL l = [] := nolabel_list l hd'.2.2 (fun p a hp => by
        refine h p a ?_
        cases p with
        | nil => cases hp
        | cons n p =>
          have hne : findChild (e :: l) n = findChild l n := by
            by_cases hn : e.name = n
            · exfalso
              have hnone : findChild l n = none := (find_none_iff l n).2 (fun a ha => hn ▸ hd'.2.1 a ha)
              cases p with
              | nil => rw [treeAt_one, hnone] at hp; cases hp
              | cons m p =>
                unfold findChild at hnone
                simp only [treeAt, hnone] at hp
                cases hp
            · unfold findChild; simp [hn]
          cases p with
          | nil => exact hne.trans hp
          | cons m p =>
            unfold findChild at hne
            simp only [treeAt] at hp ⊢
            rw [hne]; exact hp)
    rw [h1, h2]
    rfl
end

mutual
theorem select_labels (o : MgOpts) (p : List Bytes) (e : BEntry) : ∀ a ∈ e.select o p, ∀ k ∈ a.labels, k ∈ e.labels := by
  match e with
  | .dir x c =>
    intro a ha k hk
    rw [BEntry.select] at ha
    by_cases h1 : o.subtree (p ++ [x.name]) = true
    · rw [if_pos h1] at ha
      cases List.mem_singleton.1 ha
      rw [BEntry.labels] at hk ⊢
      exact selectL_labels o _ c k hk
    · rw [if_neg h1] at ha
      by_cases h2 : o.emptyDir = true
      · rw [if_pos h2] at ha
        cases List.mem_singleton.1 ha
        simp [BEntry.labels] at hk
      · rw [if_neg h2] at ha; cases ha
  | .node x => intro a ha; simp only [BEntry.select] at ha; split at ha <;> simp at ha; subst ha; exact fun k h => h
  | .mirage n k => intro a ha; simp only [BEntry.select] at ha; split at ha <;> simp at ha; subst ha; exact fun k h => h
  | .detruit n k d => intro a ha; simp only [BEntry.select] at ha; split at ha <;> simp at ha; subst ha; exact fun k h => h
  | .ignored n => intro a ha; simp only [BEntry.select] at ha; split at ha <;> simp at ha; subst ha; exact fun k h => h
  | .ignoredDir x => intro a ha; simp only [BEntry.select] at ha; split at ha <;> simp at ha; subst ha; exact fun k h => h
theorem selectL_labels (o : MgOpts) (p : List Bytes) (l : List BEntry) : ∀ k ∈ BEntry.labelsL (BEntry.selectL o p l), k ∈ BEntry.labelsL l := by
  match l with
  | [] => intro k hk; rw [BEntry.selectL] at hk; exact hk
  | e :: l =>
    intro k hk
    rw [BEntry.selectL] at hk
    rw [BEntry.labelsL]
    rcases select_short o p e with hs | ⟨b, hs⟩
    · rw [hs] at hk
      exact List.mem_append.2 (Or.inr (selectL_labels o p l k hk))
    · rw [hs] at hk
      change k ∈ BEntry.labelsL (b :: BEntry.selectL o p l) at hk
      rw [BEntry.labelsL] at hk
      rcases List.mem_append.1 hk with hk | hk
      · exact List.mem_append.2 (Or.inl (select_labels o p e b (by rw [hs]; simp) k hk))
      · exact List.mem_append.2 (Or.inr (selectL_labels o p l k hk))
end

section
variable {o : MgOpts}

theorem selected_nolabel {l : List BEntry} (h : FromArchive l) (hn : NoLinks l) : BEntry.labelsL (BEntry.selectL o [] l) = [] := by
  have h1 := nolabel_list l h.distinct hn
  apply List.eq_nil_iff_forall_not_mem.2
  intro k hk
  have := selectL_labels o [] l k hk
  rw [h1] at this
  cases this
theorem nolabel_tree {l : List BEntry} (h : BEntry.labelsL l = []) {p : List Bytes} {e : BEntry} (hp : treeAt l p = some e) : e.isHardLink = false := by
  cases hl : e.isHardLink with
  | false => rfl
  | true =>
    have := (label_isHardLink e).2 hl
    cases hk : e.label with
    | none => exact absurd hk this
    | some k =>
      have := labelsL_treeAt hp k (label_mem hk)
      rw [h] at this
      cases this
theorem noLinks_whole {t1 t2 : Nat → Obj} {l1 l2 : List BEntry} (h1 : BEntry.labelsL l1 = []) (h2 : BEntry.labelsL l2 = []) : LinksWhole o t1 t2 l1 l2 := by
  intro p e1 e2 g1 g2 hor
  rw [nolabel_tree h1 g1, nolabel_tree h2 g2] at hor
  rcases hor with h | h <;> cases h

theorem relabelL_nolabel {f : Nat → Nat} {l : List BEntry} (h : BEntry.labelsL l = []) : BEntry.relabelL f l = l := by
  rw [relabelL_congr (g := fun j => j) l (fun j hj => by rw [h] at hj; cases hj), relabelL_id]

theorem merge_nolinks {d1 d2 : DateT} {r1 r2 r : BCat} (h1 : FromArchive r1.root) (h2 : FromArchive r2.root) (hn1 : NoLinks r1.root) (hn2 : NoLinks r2.root)
    (hw : o.warn = true → ∀ p, o.acceptEa p = true)
    (hdec : o.decremental = true → ∀ x y d a, o.policy.get o.capa x y = .ok (d, a) → KeepsOld d) (h : merge o d1 d2 r1 r2 = .ok r) (t : Nat → Obj) :
    BEntry.DistinctL r.root ∧ Merged o t t d2 (BEntry.selectL o [] r1.root) (BEntry.selectL o [] r2.root) r.root := by
  have l1 := selected_nolabel (o := o) h1 hn1
  have l2 := selected_nolabel (o := o) h2 hn2
  obtain ⟨f1, f2, T, _, _, _, _, _, hdist, hm⟩ := merge_spec h1 h2 hw hdec (noLinks_whole l1 l2) h
  rw [relabelL_nolabel l1, relabelL_nolabel l2] at hm
  refine ⟨hdist, ?_⟩
  intro p c1 c2 c d g1 g2 g3 g4 n
  have hm' := hm p c1 c2 c d g1 g2 g3 g4 n
  have hq : ∀ e k, (findChild c1 n = some e ∨ findChild c2 n = some e) → e.label = some k → t k = T k := by
    rintro e k (he | he) hk
    · have := labelsL_dirAt g1 k (labelsL_child he (label_mem hk))
      rw [l1] at this; cases this
    · have := labelsL_dirAt g2 k (labelsL_child he (label_mem hk))
      rw [l2] at this; cases this
  have := mergedAt_relabel (f := fun j => j) (T' := t) hq hm'
  have hid : ∀ v : Option BEntry, v.map (BEntry.relabel (fun j => j)) = v := by
    intro v
    cases v with
    | none => rfl
    | some e => show some (e.relabel (fun j => j)) = _; rw [relabel_id]
  rw [hid, hid, hid] at this
  exact this

end

/-! ### policies -/

theorem sameInode_total (x y : CEntry) : ∃ b, sameInodeEval x y = .ok b := by
  unfold sameInodeEval
  by_cases h1 : sameTypeEval x y = false
  · rw [if_pos h1]; exact ⟨_, rfl⟩
  · rw [if_neg h1]
    by_cases h2 : x = .detruit
    · rw [if_pos h2]; exact ⟨_, rfl⟩
    · rw [if_neg h2]
      obtain ⟨i, hi⟩ : ∃ i, x.getInode = some i := by cases x <;> first | exact ⟨_, rfl⟩ | exact absurd rfl h2
      have hst : sameTypeEval x y = true := by simpa using h1
      rcases (sameType_spec x y).1 hst with ⟨hx, _⟩ | ⟨i', j, hi', hj, hk⟩
      · exact absurd hx h2
      · rw [hi] at hi'
        cases hi'
        have q1 : i.isFile = true → j.isFile = true := by rw [isFile_iff, isFile_iff, hk]; exact id
        have q2 : i.isDevice = true → j.isDevice = true := by
          unfold Ino.isDevice
          unfold Ino.docKind at hk
          cases hk1 : i.kind <;> cases hk2 : j.kind <;> simp [hk1, hk2] at hk ⊢
        have q3 : i.kind = .symlink → j.kind = .symlink := by
          unfold Ino.docKind at hk
          cases hk1 : i.kind <;> cases hk2 : j.kind <;> simp [hk1, hk2] at hk ⊢
        rw [hi, hj]
        dsimp only
        have step : ∀ {p : Prop} [Decidable p] {a b : Res Bool}, (p → ∃ v, a = .ok v) → (¬ p → ∃ v, b = .ok v) → ∃ v, (if p then a else b) = .ok v := by
          intro p _ a b ha hb
          by_cases hp : p
          · rw [if_pos hp]; exact ha hp
          · rw [if_neg hp]; exact hb hp
        refine step (fun _ => ⟨_, rfl⟩) (fun _ => step (fun _ => ⟨_, rfl⟩) (fun _ => step (fun _ => ⟨_, rfl⟩) (fun _ => step (fun _ => ⟨_, rfl⟩) (fun _ =>
          step (fun h => absurd (q1 h.1) h.2) (fun _ => step (fun _ => ⟨_, rfl⟩) (fun _ => step (fun h => ?_) (fun _ => step (fun h => ?_) (fun _ => ⟨_, rfl⟩))))))))
        · exact step (fun hn => absurd (q2 h.1) hn) (fun _ => step (fun _ => ⟨_, rfl⟩) (fun _ => step (fun _ => ⟨_, rfl⟩) (fun _ => step (fun _ => ⟨_, rfl⟩) (fun _ => ⟨_, rfl⟩))))
        · exact step (fun hn => absurd (q3 h.1) hn) (fun _ => step (fun _ => ⟨_, rfl⟩) (fun _ => step (fun _ => ⟨_, rfl⟩) (fun _ => ⟨_, rfl⟩)))

theorem Crit.total (capa : TimeUnit) (noE : Bool) {c : Crit} (hc : c.Good noE) : ∀ x y, ∃ b, c.eval capa x y = .ok b := by
  induction hc with
  | dataMoreRecent =>
    intro x y
    rw [Crit.eval]
    cases x.getInode with
    | none => exact ⟨_, rfl⟩
    | some i => obtain ⟨r, hr, _⟩ := dateGeShift_spec capa _ i.mtime _; exact ⟨r, hr⟩
  | dataMoreRecentThan =>
    intro x y
    rw [Crit.eval]
    cases x.getInode with
    | none => exact ⟨_, rfl⟩
    | some i => obtain ⟨r, hr, _⟩ := dateGeShift_spec capa _ i.mtime _; exact ⟨r, hr⟩
  | sameInodeData => intro x y; rw [Crit.eval]; exact sameInode_total x y
  | eaMoreRecent =>
    intro x y
    rw [Crit.eval]
    cases y.getInode with
    | none => exact ⟨_, rfl⟩
    | some j =>
      dsimp only
      split
      · exact ⟨_, rfl⟩
      · obtain ⟨r, hr, _⟩ := dateGeShift_spec capa _ (eaDate x) j.ctime; exact ⟨r, hr⟩
  | eaMoreRecentThan =>
    intro x y
    rw [Crit.eval]
    obtain ⟨r, hr, _⟩ := dateGeShift_spec capa _ (eaDate x) _; exact ⟨r, hr⟩
  | not _ ih =>
    intro x y
    obtain ⟨b, hb⟩ := ih x y
    rw [Crit.eval, hb]; exact ⟨_, rfl⟩
  | invert _ ih =>
    intro x y
    rw [Crit.eval]; exact ih y x
  | @and l hl _ ih =>
    intro x y
    rw [Crit.eval, if_neg (by simpa using hl)]
    have key : ∀ (l : List Crit), (∀ c ∈ l, ∀ x y, ∃ b, c.eval capa x y = .ok b) → ∃ b, Crit.evalAll capa l x y = .ok b := by
      intro l
      induction l with
      | nil => intro _; exact ⟨_, by rw [Crit.evalAll]⟩
      | cons c l ihl =>
        intro h
        obtain ⟨b, hb⟩ := h c (by simp) x y
        rw [Crit.evalAll, hb]
        cases b with
        | true => exact ihl (fun c hc => h c (by simp [hc]))
        | false => exact ⟨_, rfl⟩
    exact key l ih
  | @or l hl _ ih =>
    intro x y
    rw [Crit.eval, if_neg (by simpa using hl)]
    have key : ∀ (l : List Crit), (∀ c ∈ l, ∀ x y, ∃ b, c.eval capa x y = .ok b) → ∃ b, Crit.evalAny capa l x y = .ok b := by
      intro l
      induction l with
      | nil => intro _; exact ⟨_, by rw [Crit.evalAny]⟩
      | cons c l ihl =>
        intro h
        obtain ⟨b, hb⟩ := h c (by simp) x y
        rw [Crit.evalAny, hb]
        cases b with
        | true => exact ⟨_, rfl⟩
        | false => exact ihl (fun c hc => h c (by simp [hc]))
    exact key l ih
  | _ => intro x y; rw [Crit.eval]; exact ⟨_, rfl⟩

theorem Action.total (capa : TimeUnit) (noE : Bool) {a : Action} (ha : a.Good noE) : ∀ x y, ∃ d e, a.get capa x y = .ok (d, e) := by
  induction ha with
  | const => intro x y; exact ⟨_, _, by rw [Action.get]⟩
  | @test c t f hc _ _ iht ihf =>
    intro x y
    obtain ⟨b, hb⟩ := Crit.total capa noE hc x y
    rw [Action.get, hb]
    cases b with
    | true => exact iht x y
    | false => exact ihf x y
  | @chain l hl _ ih =>
    intro x y
    rw [Action.get, if_neg (by simpa using hl)]
    clear hl
    have key : ∀ (l : List Action), (∀ a ∈ l, ∀ x y, ∃ d e, a.get capa x y = .ok (d, e)) → ∀ d e, ∃ d' e', Action.chainGet capa l x y d e = .ok (d', e') := by
      intro l
      induction l with
      | nil => intro _ d e; exact ⟨_, _, by rw [Action.chainGet]⟩
      | cons a l ihl =>
        intro h d e
        rw [Action.chainGet]
        split
        · obtain ⟨d', e', hg⟩ := h a (by simp) x y
          rw [hg]
          exact ihl (fun a ha => h a (by simp [ha])) _ _
        · exact ⟨_, _, rfl⟩
    exact key l ih _ _

theorem decr_good : decrPolicy.Good false := by
  unfold decrPolicy
  refine .chain (by simp) ?_
  intro a ha
  simp only [List.mem_cons, List.not_mem_nil, or_false] at ha
  rcases ha with rfl | rfl
  · refine .test (.and (by simp) ?_) .const .const
    intro c hc
    simp only [List.mem_cons, List.not_mem_nil, or_false] at hc
    rcases hc with rfl | rfl | rfl | rfl
    · exact .sameInodeData
    · exact .dataMoreRecent
    · exact .invert .dataMoreRecent
    · refine .or (by simp) ?_
      intro c hc
      simp only [List.mem_cons, List.not_mem_nil, or_false] at hc
      rcases hc with rfl | rfl
      · exact .isNewHardlinked
      · exact .not .isHardlinked
  · refine .test (.or (by simp) ?_) .const .const
    intro c hc
    simp only [List.mem_cons, List.not_mem_nil, or_false] at hc
    rcases hc with rfl | rfl
    · refine .and (by simp) ?_
      intro c hc
      simp only [List.mem_cons, List.not_mem_nil, or_false] at hc
      rcases hc with rfl | rfl | rfl | rfl
      · exact .eaPresent rfl
      · exact .invert (.eaPresent rfl)
      · exact .eaMoreRecent
      · exact .invert .eaMoreRecent
    · refine .and (by simp) ?_
      intro c hc
      simp only [List.mem_cons, List.not_mem_nil, or_false] at hc
      rcases hc with rfl | rfl
      · exact .not (.eaPresent rfl)
      · exact .not (.invert (.eaPresent rfl))

end Dar
