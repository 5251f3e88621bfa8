import Verif.Lemmas.DbRestore
import Verif.Props.DbOrder
/- C54: restoring from a database. -/
namespace Dar

theorem dat_append (p q : List Bytes) : ∀ (t u : DTree), t.at_ p = some u → t.at_ (p ++ q) = u.at_ q := by
  induction p with
  | nil => intro t u h; simp only [DTree.at_, Option.some.injEq] at h; subst h; rfl
  | cons x p ih =>
    intro t u h
    rw [dat_cons] at h
    rw [List.cons_append, dat_cons]
    cases hf : t.sub.find? (fun c => c.name = x) with
    | none => rw [hf] at h; cases h
    | some c => rw [hf] at h; exact ih c u h

theorem reached_append (mask : PathT → Bool) (p q : List Bytes) : ∀ root, Reached mask root p → Reached mask (root.below p) q → Reached mask root (p ++ q) := by
  induction p with
  | nil => intro root _ h; rw [below_nil] at h; exact h
  | cons x p ih =>
    intro root h1 h2
    obtain ⟨h3, h4⟩ := (reached_cons _ _ _ _).mp h1
    rw [List.cons_append]
    refine (reached_cons _ _ _ _).mpr ⟨h3, ih _ h4 ?_⟩
    rw [below_below]; exact h2

theorem reached_of_append (mask : PathT → Bool) (p q : List Bytes) : ∀ root, Reached mask root (p ++ q) → Reached mask (root.below p) q := by
  induction p with
  | nil => intro root h; rw [below_nil]; exact h
  | cons x p ih =>
    intro root h
    rw [List.cons_append] at h
    have := ih _ ((reached_cons _ _ _ _).mp h).2
    rw [below_below] at this
    exact this

/-- **C54**: restoring through the API from a database reads, by increasing number, exactly the archives needed by a file the mask of the user reaches, with the
location and encryption recorded for that number; in each of them a file covered by the mask is restored if it needs that archive, or (a directory) if
something covered below it needs that archive; it is not restored otherwise.  What the mask excludes is not restored. -/
theorem C54_api (db : Database) (root : PathT) (mask : PathT → Bool) (date : DateT) (r : DbRestore) (hdb : db.files.Tidy) (hr : root.Absolute)
    (h : db.restoreApi root mask date = .ok r) :
    (r.archives.map Prod.fst).Pairwise (· < ·) ∧ (∀ x ∈ r.archives, db.coord[x.1]? = some x.2) ∧
    (∀ n, n ∈ r.archives.map Prod.fst ↔ ∃ q t, db.files.at_ q = some t ∧ Reached mask root q ∧ Needed date t n) ∧
    ∀ n, n ≠ 0 → ∀ q, q ≠ [] →
      (mask (root.below q) = false → r.covers n (root.below q) = .ok false) ∧
      ∀ t, db.files.at_ q = some t → Reached mask root q → ∃ b, r.covers n (root.below q) = .ok b ∧
        (b = true ↔ ∃ p t', t.at_ p = some t' ∧ Reached mask root (q ++ p) ∧ Needed date t' n) := by
  unfold Database.restoreApi at h
  obtain ⟨tree, h1, h⟩ := bind_ok h
  obtain ⟨arch, h2, h⟩ := bind_ok h
  simp only [Except.ok.injEq] at h
  subst h
  obtain ⟨-, s2, s3⟩ := restoreTree_spec date db.files hdb tree h1
  obtain ⟨-, -, l2, l3⟩ := getLoc_spec mask tree root hr s2
  generalize (tree.getLocations mask root).1 = tree' at h2 l2 l3 ⊢
  obtain ⟨o1, o2⟩ := openAll_spec db.coord _ arch h2
  have key : ∀ q t, db.files.at_ q = some t → Reached mask root q → ∃ u', tree'.at_ q = some u' ∧
      ∀ n, n ∈ u'.locs ↔ ∃ p t', t.at_ p = some t' ∧ Reached mask root (q ++ p) ∧ Needed date t' n := by
    intro q t hq hre
    obtain ⟨v, hv, -⟩ := (s3 q).2 t hq
    obtain ⟨u', hu', hn⟩ := (l3 q).2 v hv hre
    have rapp : ∀ p, tree.at_ (q ++ p) = v.at_ p := by
      have : ∀ (q p : List Bytes) (t v : RTree), t.at_ q = some v → t.at_ (q ++ p) = v.at_ p := by
        intro q p
        induction q with
        | nil => intro t v h; simp only [RTree.at_, Option.some.injEq] at h; subst h; rfl
        | cons x q ih =>
          intro t v h
          rw [rat_cons] at h
          rw [List.cons_append, rat_cons]
          cases hf : t.children.find? (fun c => c.name = x) with
          | none => rw [hf] at h; cases h
          | some c => rw [hf] at h; exact ih c v h
      exact fun p => this q p tree v hv
    refine ⟨u', hu', fun n => ?_⟩
    rw [hn n]
    constructor
    · rintro ⟨p, w, e1, e2, e3⟩
      rw [← rapp p] at e1
      have e4 := dat_append q p db.files t hq
      cases ht : t.at_ p with
      | none =>
        rw [ht] at e4
        rw [(s3 _).1 e4] at e1; cases e1
      | some t' =>
        rw [ht] at e4
        obtain ⟨w', f1, f2⟩ := (s3 _).2 t' e4
        rw [e1] at f1; injection f1 with f1; subst f1
        exact ⟨p, t', ht, reached_append _ _ _ _ hre e2, (f2 n).mp e3⟩
    · rintro ⟨p, t', e1, e2, e3⟩
      have e4 := dat_append q p db.files t hq
      rw [e1] at e4
      obtain ⟨w, f1, f2⟩ := (s3 _).2 t' e4
      rw [rapp p] at f1
      exact ⟨p, w, f1, reached_of_append _ _ _ _ e2, (f2 n).mpr e3⟩
  refine ⟨by rw [o1]; exact l2, o2, fun n => ?_, fun n hn q hq => ⟨fun hm => ?_, fun t ht hre => ?_⟩⟩
  · rw [o1]
    obtain ⟨u', e1, e2⟩ := key [] db.files rfl (reached_nil _ _)
    simp only [RTree.at_, Option.some.injEq] at e1
    subst e1
    exact e2 n
  · show maskDbCovers root mask tree' n (root.below q) = _
    rw [covers_below root hr mask tree' n hn q hq, if_pos hm]
  · obtain ⟨u', e1, e2⟩ := key q t ht hre
    have hm : mask (root.below q) = true := by
      have := hre q.length (List.length_pos_iff.mpr hq) (Nat.le_refl _)
      rwa [List.take_length] at this
    refine ⟨decide (n ∈ u'.locs), ?_, ?_⟩
    · show maskDbCovers root mask tree' n (root.below q) = _
      rw [covers_below root hr mask tree' n hn q hq, if_neg (by rw [hm]; simp), e1]
    · rw [decide_eq_true_iff]; exact e2 n

/-! ### What is restored -/

/-- The archives read beside the ones needed do not matter. -/
theorem replay_superset (T : Nat → Bool) (h : List (Nat × Etat)) : ∀ d a, replay h = .ok d a → (∀ n ∈ d, T n = true) →
    ∃ a', replay (h.filter (fun p => T p.1)) = .ok d a' ∧ (T a = true → a' = a) := by
  induction h using List.reverseRecOn with
  | nil => intro d a hr; cases hr
  | append_singleton h p ih =>
    obtain ⟨n, e⟩ := p
    intro d a hr hd
    rw [replay_snoc] at hr
    rw [List.filter_append]
    by_cases hT : T n = true
    · have hf : [(n, e)].filter (fun p => T p.1) = [(n, e)] := by simp [hT]
      rw [hf, replay_snoc]
      cases e with
      | saved =>
        simp only [FState.step, FState.ok.injEq] at hr
        obtain ⟨r1, r2⟩ := hr
        subst r1 r2
        exact ⟨_, rfl, fun _ => rfl⟩
      | patch =>
        cases hs : replay h with
        | ok d0 a0 =>
          rw [hs] at hr
          simp only [FState.step, FState.ok.injEq] at hr
          obtain ⟨r1, r2⟩ := hr
          subst r1 r2
          obtain ⟨a', i1, -⟩ := ih d0 a0 hs (fun k hk => hd k (by simp [hk]))
          exact ⟨n, by rw [i1]; rfl, fun _ => rfl⟩
        | _ => rw [hs] at hr; simp [FState.step] at hr
      | inode =>
        cases hs : replay h with
        | ok d0 a0 =>
          rw [hs] at hr
          simp only [FState.step, FState.ok.injEq] at hr
          obtain ⟨r1, r2⟩ := hr
          subst r1 r2
          obtain ⟨a', i1, -⟩ := ih d0 a0 hs hd
          exact ⟨n, by rw [i1]; rfl, fun _ => rfl⟩
        | _ => rw [hs] at hr; simp [FState.step] at hr
      | present =>
        cases hs : replay h with
        | ok d0 a0 =>
          rw [hs] at hr
          simp only [FState.step, FState.ok.injEq] at hr
          obtain ⟨r1, r2⟩ := hr
          subst r1 r2
          obtain ⟨a', i1, i2⟩ := ih d0 a0 hs hd
          exact ⟨a', by rw [i1]; rfl, i2⟩
        | _ => rw [hs] at hr; simp [FState.step] at hr
      | removed => simp [FState.step] at hr
      | absent => simp [FState.step] at hr
      | patchUnusable => simp [FState.step] at hr
    · have hf : [(n, e)].filter (fun p => T p.1) = [] := by simp [hT]
      rw [hf, List.append_nil]
      cases e with
      | saved =>
        simp only [FState.step, FState.ok.injEq] at hr
        obtain ⟨r1, r2⟩ := hr
        subst r1
        exact absurd (hd n (by simp)) hT
      | patch =>
        cases hs : replay h with
        | ok d0 a0 =>
          rw [hs] at hr
          simp only [FState.step, FState.ok.injEq] at hr
          obtain ⟨r1, r2⟩ := hr
          subst r1
          exact absurd (hd n (by simp)) hT
        | _ => rw [hs] at hr; simp [FState.step] at hr
      | inode =>
        cases hs : replay h with
        | ok d0 a0 =>
          rw [hs] at hr
          simp only [FState.step, FState.ok.injEq] at hr
          obtain ⟨r1, r2⟩ := hr
          subst r1 r2
          obtain ⟨a', i1, -⟩ := ih d0 a0 hs hd
          exact ⟨a', i1, fun h => absurd h hT⟩
        | _ => rw [hs] at hr; simp [FState.step] at hr
      | present =>
        cases hs : replay h with
        | ok d0 a0 =>
          rw [hs] at hr
          simp only [FState.step, FState.ok.injEq] at hr
          obtain ⟨r1, r2⟩ := hr
          subst r1 r2
          exact ih d0 a0 hs hd
        | _ => rw [hs] at hr; simp [FState.step] at hr
      | removed => simp [FState.step] at hr
      | absent => simp [FState.step] at hr
      | patchUnusable => simp [FState.step] at hr

/-- The archives of a state are archives of the history. -/
theorem replay_mem (h : List (Nat × Etat)) : ∀ d a, replay h = .ok d a → ∀ n, n ∈ d ∨ n = a → ∃ e, (n, e) ∈ h := by
  induction h using List.reverseRecOn with
  | nil => intro d a hr; cases hr
  | append_singleton h p ih =>
    obtain ⟨k, e⟩ := p
    intro d a hr n hn
    rw [replay_snoc] at hr
    have self : n = k → ∃ e', (n, e') ∈ h ++ [(k, e)] := fun he => ⟨e, by subst he; simp⟩
    have old : ∀ d0 a0, replay h = .ok d0 a0 → (n ∈ d0 ∨ n = a0) → ∃ e', (n, e') ∈ h ++ [(k, e)] := by
      intro d0 a0 h0 h1
      obtain ⟨e', he⟩ := ih d0 a0 h0 n h1
      exact ⟨e', by simp [he]⟩
    cases e with
    | saved =>
      simp only [FState.step, FState.ok.injEq] at hr
      obtain ⟨r1, r2⟩ := hr
      subst r1 r2
      rcases hn with hn | hn
      · exact self (List.mem_singleton.mp hn)
      · exact self hn
    | patch =>
      cases hs : replay h with
      | ok d0 a0 =>
        rw [hs] at hr
        simp only [FState.step, FState.ok.injEq] at hr
        obtain ⟨r1, r2⟩ := hr
        subst r1 r2
        rcases hn with hn | hn
        · rcases List.mem_append.mp hn with hn | hn
          · exact old d0 a0 hs (Or.inl hn)
          · exact self (List.mem_singleton.mp hn)
        · exact self hn
      | _ => rw [hs] at hr; simp [FState.step] at hr
    | inode =>
      cases hs : replay h with
      | ok d0 a0 =>
        rw [hs] at hr
        simp only [FState.step, FState.ok.injEq] at hr
        obtain ⟨r1, r2⟩ := hr
        subst r1 r2
        rcases hn with hn | hn
        · exact old d0 a0 hs (Or.inl hn)
        · exact self hn
      | _ => rw [hs] at hr; simp [FState.step] at hr
    | present =>
      cases hs : replay h with
      | ok d0 a0 =>
        rw [hs] at hr
        simp only [FState.step, FState.ok.injEq] at hr
        obtain ⟨r1, r2⟩ := hr
        subst r1 r2
        exact old d0 a0 hs hn
      | _ => rw [hs] at hr; simp [FState.step] at hr
    | removed => simp [FState.step] at hr
    | absent => simp [FState.step] at hr
    | patchUnusable => simp [FState.step] at hr

/-- The states of a file in the archives from which it is restored. -/
def restoredFrom {α : Type} (et : α → Etat) (m : SMap α) (r : DbRestore) (p : PathT) : List (Nat × Etat) :=
  (states et m).filter (fun q => decide (r.covers q.1 p = .ok true))

/-- No archive from which the path is restored holds it with a date later than the date asked. -/
def NotLater {α : Type} (date : α → DateT) (m : SMap α) (limit : DateT) (r : DbRestore) (p : PathT) : Prop :=
  ∀ q ∈ m, r.covers q.1 p = .ok true → limit.val = 0 ∨ (date q.2).instant ≤ limit.instant

theorem restored_history {α : Type} (date : α → DateT) (et : α → Etat) (m : SMap α) (limit : DateT) (r : DbRestore) (p : PathT)
    (h : NotLater date m limit r p) :
    restoredFrom et m r p = (history date et m limit false).filter (fun q => decide (r.covers q.1 p = .ok true)) := by
  unfold restoredFrom states history
  have hid : ∀ l : List (Nat × Etat), l.filter (fun p => !(false && (decide (p.2 = Etat.removed) || decide (p.2 = Etat.absent)))) = l :=
    fun l => List.filter_eq_self.mpr (fun a _ => rfl)
  rw [hid]
  induction m with
  | nil => rfl
  | cons q m ih =>
    have ih := ih (fun q hq => h q (List.mem_cons_of_mem _ hq))
    rw [List.map_cons, List.filter_cons, List.filter_cons]
    by_cases hc : r.covers q.1 p = .ok true
    · have hd := h q (by simp) hc
      have hx : (decide (limit.val = 0 ∨ (date q.2).instant ≤ limit.instant)) = true := decide_eq_true hd
      rw [hx, if_pos rfl, List.map_cons, List.filter_cons]
      simp only [hc, decide_true, if_true]
      rw [ih]
    · simp only [hc, decide_false]
      rw [if_neg (by simp), ih]
      by_cases hd : limit.val = 0 ∨ (date q.2).instant ≤ limit.instant
      · simp only [hd, decide_true, if_true, List.map_cons, List.filter_cons, hc, decide_false]
        rfl
      · simp only [hd, decide_false]
        rfl

/-- **C54**: restoring through the API from a database whose dates are in order gives each reached file the state the records tell for that date: if the file is
there, its data and attributes come from the right archives in the right order, and its EA too, or are removed if they have been; a file that is not there (and
is not a directory) is restored from no archive. -/
theorem C54_restored (db : Database) (root : PathT) (mask : PathT → Bool) (date : DateT) (r : DbRestore) (hdb : db.files.Tidy) (hr : root.Absolute)
    (h : db.restoreApi root mask date = .ok r) (q : List Bytes) (hq : q ≠ []) (t : DTree) (ht : db.files.at_ q = some t) (hre : Reached mask root q)
    (ho : DatesOrdered StatP.date t.mods) (hnr : NoRevival (history StatP.date StatP.present t.mods date false))
    (hoe : DatesOrdered Stat.date t.chgs) (hk : ∀ p ∈ t.mods, p.1 ≠ 0) (hke : ∀ p ∈ t.chgs, p.1 ≠ 0 ∧ EaEtat p.2.present)
    (hl : NotLater StatP.date t.mods date r (root.below q)) (hle : NotLater Stat.date t.chgs date r (root.below q)) :
    (∀ d a, replay (history StatP.date StatP.present t.mods date false) = .ok d a →
      replay (restoredFrom StatP.present t.mods r (root.below q)) = .ok d a ∧
      (∀ d' a', replay (history Stat.date Stat.present t.chgs date false) = .ok d' a' →
        replay (restoredFrom Stat.present t.chgs r (root.below q)) = .ok d' a') ∧
      (replay (history Stat.date Stat.present t.chgs date false) = .gone → replay (restoredFrom Stat.present t.chgs r (root.below q)) = .gone)) ∧
    ((∀ d a, replay (history StatP.date StatP.present t.mods date false) ≠ .ok d a) → t.sub = [] →
      ∀ n, n ≠ 0 → r.covers n (root.below q) = .ok false) := by
  obtain ⟨-, -, -, k4⟩ := C54_api db root mask date r hdb hr h
  obtain ⟨set, rd, g1, g2, g3, g4, g5⟩ := C29_data_partial t.mods ho date false hnr
  obtain ⟨ea, re, e1, -, e2⟩ := C29_ea t.chgs hoe hke date false
  obtain ⟨e3, e4, e5, e6⟩ := e2 (Or.inl rfl)
  constructor
  · intro d a hda
    obtain ⟨f1, f2, -⟩ := g5 d a hda
    subst f1
    have cov : ∀ n, n ≠ 0 → (n ∈ set ∨ ((re = .foundPresent ∨ re = .foundRemoved) ∧ n = ea)) → r.covers n (root.below q) = .ok true := by
      intro n hn hc
      obtain ⟨b, b1, b2⟩ := (k4 n hn q hq).2 t ht hre
      have : b = true := by
        refine b2.mpr ⟨[], t, rfl, by rw [List.append_nil]; exact hre, set, g1, ?_⟩
        rcases hc with hc | ⟨hc, rfl⟩
        · exact Or.inl hc
        · exact Or.inr ⟨re, e1, hc⟩
      rw [b1, this]
    -- keys of the histories are not null
    have nz : ∀ n, n ∈ set → n ≠ 0 := by
      intro n hn
      have : n ∈ d ∨ n = a := (f2 n).mp hn
      obtain ⟨e, he⟩ := replay_mem _ d a hda n this
      unfold history at he
      obtain ⟨p, hp, hpq⟩ := List.mem_map.mp (List.mem_filter.mp he).1
      have := hk p (List.mem_filter.mp hp).1
      simp only [Prod.mk.injEq] at hpq
      rw [← hpq.1]; exact this
    refine ⟨?_, ?_, ?_⟩
    · rw [restored_history StatP.date StatP.present t.mods date r (root.below q) hl]
      obtain ⟨a', i1, i2⟩ := replay_superset (fun n => decide (r.covers n (root.below q) = .ok true)) _ d a hda
        (fun n hn => by have hs : n ∈ set := (f2 n).mpr (Or.inl hn); exact decide_eq_true (cov n (nz n hs) (Or.inl hs)))
      have ha : a ∈ set := (f2 a).mpr (Or.inr rfl)
      rw [i2 (decide_eq_true (cov a (nz a ha) (Or.inl ha)))] at i1
      exact i1
    · intro d' a' hda'
      obtain ⟨m1, m2, m3⟩ := e6 d' a' hda'
      have hne : ea ≠ 0 := by
        intro h0
        rw [h0] at m2
        subst m2
        have := replay_mem _ d' 0 hda' 0 (Or.inr rfl)
        obtain ⟨e, he⟩ := this
        unfold history at he
        obtain ⟨p, hp, hpq⟩ := List.mem_map.mp (List.mem_filter.mp he).1
        have := (hke p (List.mem_filter.mp hp).1).1
        simp only [Prod.mk.injEq] at hpq
        exact this hpq.1
      subst m2 m3
      rw [restored_history Stat.date Stat.present t.chgs date r (root.below q) hle]
      have hcov := cov ea hne (Or.inr ⟨Or.inl m1, rfl⟩)
      obtain ⟨a', i1, i2⟩ := replay_superset (fun n => decide (r.covers n (root.below q) = .ok true)) _ [ea] ea hda'
        (fun n hn => by rw [List.mem_singleton] at hn; subst hn; exact decide_eq_true hcov)
      rw [i2 (decide_eq_true hcov)] at i1
      exact i1
    · intro hg
      obtain ⟨m1, m2⟩ := e4 hg
      rw [restored_history Stat.date Stat.present t.chgs date r (root.below q) hle]
      generalize hh : history Stat.date Stat.present t.chgs date false = hi at hg m2 ⊢
      rcases List.eq_nil_or_concat hi with h0 | ⟨l, p, h0⟩
      · subst h0; cases hg
      · rw [List.concat_eq_append] at h0
        subst h0
        obtain ⟨n, e⟩ := p
        simp only [List.getLast?_append, List.getLast?_singleton, Option.some_or, Option.map_some, Option.some.injEq] at m2
        subst m2
        have hne : n ≠ 0 := by
          have he : (n, e) ∈ history Stat.date Stat.present t.chgs date false := by rw [hh]; simp
          unfold history at he
          obtain ⟨p, hp, hpq⟩ := List.mem_map.mp (List.mem_filter.mp he).1
          have := (hke p (List.mem_filter.mp hp).1).1
          simp only [Prod.mk.injEq] at hpq
          rw [← hpq.1]; exact this
        have hcov := cov n hne (Or.inr ⟨Or.inr m1, rfl⟩)
        have hf : [(n, e)].filter (fun q_1 => decide (r.covers q_1.1 (root.below q) = .ok true)) = [(n, e)] := by simp [hcov]
        rw [List.filter_append, hf, replay_snoc]
        rw [replay_snoc] at hg
        cases e with
        | removed => rfl
        | absent => rfl
        | saved => simp [FState.step] at hg
        | patchUnusable => simp [FState.step] at hg
        | _ => cases hs : replay l <;> rw [hs] at hg <;> simp [FState.step] at hg
  · intro hno hsub n hn
    obtain ⟨b, b1, b2⟩ := (k4 n hn q hq).2 t ht hre
    rw [b1]
    cases b with
    | false => rfl
    | true =>
      obtain ⟨p, t', p1, -, set', p2, -⟩ := b2.mp rfl
      have : p = [] := by
        cases p with
        | nil => rfl
        | cons x p => rw [dat_cons, hsub] at p1; cases p1
      subst this
      simp only [DTree.at_, Option.some.injEq] at p1
      subst p1
      rw [g1] at p2
      simp only [Except.ok.injEq, Prod.mk.injEq] at p2
      obtain ⟨-, p2⟩ := p2
      cases hs : replay (history StatP.date StatP.present t.mods date false) with
      | unseen => rw [(g2 hs).1] at p2; cases p2
      | gone => rw [g3 hs] at p2; cases p2
      | lost => rw [g4 hs] at p2; cases p2
      | ok d a => exact absurd hs (hno d a)

end Dar
