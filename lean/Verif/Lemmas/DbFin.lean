import Verif.Lemmas.DbAdd
import Verif.Lemmas.Crc
/- Lemmas on the addition of an archive to a database: the second phase (finalize) and the two phases together, file by file. -/
namespace Dar

/-! ### One file -/

theorem put_append {α : Type} (m : SMap α) (n : Nat) (v : α) (h : ∀ q ∈ m, q.1 < n) : SMap.put m n v = m ++ [(n, v)] := by
  induction m with
  | nil => rfl
  | cons x m ih =>
    obtain ⟨k, w⟩ := x
    have hk : k < n := h (k, w) List.mem_cons_self
    rw [SMap.put, if_neg (by omega), if_neg (by omega), ih (fun q hq => h q (List.mem_cons_of_mem _ hq))]
    rfl

theorem get_append_last {α : Type} (m : SMap α) (n : Nat) (v : α) (h : ∀ q ∈ m, q.1 < n) : (m ++ [(n, v)]).get n = some v := by
  rw [← put_append m n v h, get_put, if_pos rfl]

theorem get_none_of_lt {α : Type} (m : SMap α) (n : Nat) (h : ∀ q ∈ m, q.1 < n) : m.get n = none := by
  cases hg : m.get n with
  | none => rfl
  | some v => have := h _ (get_mem m n v hg); simp at this

theorem eqv_spec {a b : Crc} {r : Bool} (h : a.eqv b = .ok r) : r = true ↔ a.st.cyc = b.st.cyc := by
  unfold Crc.eqv at h
  split_ifs at h with h1 h2
  · injection h with h; subst h
    exact iff_of_false (by simp) (fun h => h2 (by rw [h]))
  · injection h with h; subst h
    exact tCompare_iff _ _

theorem deltaStep_full {prev : Option Crc} {s s' : StatP} {p' : Option Crc} {b : Bool} (h : deltaStep prev s = .ok (s', p', b)) :
    p' = chainStep prev s ∧ s' = s.core.checked prev := by
  obtain ⟨date, et, base, res⟩ := s
  cases et with
  | saved => simp [deltaStep] at h; obtain ⟨rfl, rfl, _⟩ := h; simp [chainStep, StatP.core, Etat.norm, StatP.checked]
  | inode => simp [deltaStep] at h; obtain ⟨rfl, rfl, _⟩ := h; simp [chainStep, StatP.core, Etat.norm, StatP.checked]
  | present => simp [deltaStep] at h; obtain ⟨rfl, rfl, _⟩ := h; simp [chainStep, StatP.core, Etat.norm, StatP.checked]
  | removed => simp [deltaStep] at h; obtain ⟨rfl, rfl, _⟩ := h; simp [chainStep, StatP.core, Etat.norm, StatP.checked]
  | absent => simp [deltaStep] at h; obtain ⟨rfl, rfl, _⟩ := h; simp [chainStep, StatP.core, Etat.norm, StatP.checked]
  | patch | patchUnusable =>
    cases base with
    | none => simp [deltaStep] at h
    | some c =>
      cases prev with
      | none => simp [deltaStep] at h; obtain ⟨rfl, rfl, _⟩ := h; simp [chainStep, StatP.core, Etat.norm, StatP.checked, Applies]
      | some q =>
        simp only [deltaStep] at h
        cases he : q.eqv c with
        | error e => simp [he, bind, Except.bind] at h
        | ok bb =>
          have := eqv_spec he
          cases bb with
          | true =>
            simp [he, bind, Except.bind] at h; obtain ⟨rfl, rfl, _⟩ := h
            have : q.st.cyc = c.st.cyc := this.mp rfl
            simp [chainStep, StatP.core, Etat.norm, StatP.checked, Applies, this]
          | false =>
            simp [he, bind, Except.bind] at h; obtain ⟨rfl, rfl, _⟩ := h
            have : ¬ q.st.cyc = c.st.cyc := fun h => by cases this.mpr h
            simp [chainStep, StatP.core, Etat.norm, StatP.checked, Applies, this]

theorem checkDelta_append (a : SMap StatP) : ∀ (p : Option Crc) (b m' : SMap StatP), checkDelta p (a ++ b) = .ok m' →
    ∃ a' b', checkDelta p a = .ok a' ∧ checkDelta (a.foldl (fun c q => chainStep c q.2) p) b = .ok b' ∧ m' = a' ++ b' := by
  induction a with
  | nil => intro p b m' h; exact ⟨[], m', rfl, h, rfl⟩
  | cons x a ih =>
    obtain ⟨n, s⟩ := x
    intro p b m' h
    obtain ⟨s', p', bb, m1, h1, h2, rfl⟩ := checkDelta_cons p n s (a ++ b) m' h
    obtain ⟨a', b', h3, h4, rfl⟩ := ih p' b m1 h2
    have h5 := (deltaStep_full h1).1
    refine ⟨(n, s') :: a', b', ?_, ?_, rfl⟩
    · rw [checkDelta, h1]
      show (checkDelta p' a >>= _) = _
      rw [h3]; rfl
    · rw [List.foldl_cons]
      dsimp only
      rw [← h5]; exact h4

theorem setData_append {m m1 : SMap StatP} {n : Nat} {s : StatP} (hd : checkDelta none m = .ok m) (hk : ∀ q ∈ m, q.1 < n)
    (hs : s.present ≠ .patchUnusable) (h : setData m n s = .ok m1) : m1 = m ++ [(n, s.checked (chainCrc m))] := by
  unfold setData at h
  rw [put_append m n s hk] at h
  obtain ⟨a', b', h1, h2, rfl⟩ := checkDelta_append m none _ _ h
  rw [hd] at h1
  injection h1 with h1; subst h1
  obtain ⟨s', p', bb, m1, h3, h4, rfl⟩ := checkDelta_cons _ n s [] b' h2
  rw [checkDelta] at h4
  injection h4 with h4; subst h4
  rw [(deltaStep_full h3).2]
  have : s.core = s := by
    obtain ⟨date, et, base, res⟩ := s
    cases et <;> first | rfl | exact absurd rfl hs
  rw [this]; rfl

theorem checked_there {c : Option Crc} {s : StatP} (h : s.present ≠ .patch) : s.checked c = s := by
  unfold StatP.checked
  rw [if_neg (fun h' => h h'.1)]

theorem mayBeThere_iff (r : Lookup) : r.mayBeThere = true ↔ r = .foundPresent ∨ r = .notRestorable := by cases r <;> simp [Lookup.mayBeThere]

theorem foundThere_iff {m : SMap StatP} {set : List Nat} {r : Lookup} (h : getData m ⟨0, .s⟩ false = .ok (set, r)) : foundThere m ↔ r.mayBeThere = true := by
  rw [mayBeThere_iff]
  constructor
  · rintro ⟨s', r', h', hr⟩
    rw [h] at h'
    injection h' with h'; injection h' with h1 h2
    rw [h2]; exact hr
  · intro hr; exact ⟨set, r, h, hr⟩
theorem foundThereEa_iff {m : SMap Stat} {n : Nat} {r : Lookup} (h : getEA m ⟨0, .s⟩ false = .ok (n, r)) : foundThereEa m ↔ r.mayBeThere = true := by
  rw [mayBeThere_iff]
  constructor
  · rintro ⟨s', r', h', hr⟩
    rw [h] at h'
    injection h' with h'; injection h' with h1 h2
    rw [h2]; exact hr
  · intro hr; exact ⟨n, r, h, hr⟩

theorem later_gt (a b : DateT) {g : Bool} (h : b.gt a = .ok g) : (if g then b else a) = later a b := by
  obtain ⟨g', h1, h2⟩ := C22_gt b a
  rw [h] at h1; injection h1 with h1; subst h1
  unfold later
  by_cases hg : g = true
  · rw [if_pos hg, if_pos (h2.mp hg)]
  · rw [if_neg hg, if_neg (fun h => hg (h2.mpr h))]
theorem later_lt (a b : DateT) {g : Bool} (h : a.lt b = .ok g) : (if g then b else a) = later a b := by
  obtain ⟨g', h1, h2⟩ := C22_lt a b
  rw [h] at h1; injection h1 with h1; subst h1
  unfold later
  by_cases hg : g = true
  · rw [if_pos hg, if_pos (h2.mp hg)]
  · rw [if_neg hg, if_neg (fun h => hg (h2.mpr h))]

/-- first phase on the data of one file -/
theorem upd_data {n : Nat} {told : Told} {r r1 : SMap StatP × SMap Stat} (hd : checkDelta none r.1 = .ok r.1) (hk : ∀ q ∈ r.1, q.1 < n)
    (h : Updated n told r r1) (del : DateT) :
    (∃ s, recordData del r.1 told = some s ∧ s.present ≠ .absent ∧ r1.1 = r.1 ++ [(n, s.checked (chainCrc r.1))]) ∨
    (recordData del r.1 told = missingRecord del r.1 ∧ r1.1 = r.1) := by
  cases told with
  | nothing => right; exact ⟨rfl, by rw [show r1 = r from h]⟩
  | deleted d =>
    change addGoneMaps n d r.1 r.2 = .ok r1 at h
    unfold addGoneMaps at h
    obtain ⟨⟨set, lk⟩, hg, h⟩ := bind_ok h
    obtain ⟨m', h2, h⟩ := bind_ok h
    obtain ⟨c', h3, h⟩ := bind_ok h
    injection h with h; subst h
    dsimp only
    cases hb : lk.mayBeThere with
    | true =>
      left
      rw [hb, if_pos rfl] at h2
      refine ⟨⟨d, .removed, none, none⟩, ?_, by simp, ?_⟩
      · simp only [recordData]; rw [if_pos ((foundThere_iff hg).mpr hb)]
      · exact setData_append hd hk (by simp) h2
    | false =>
      right
      rw [hb, if_neg (by simp)] at h2
      injection h2 with h2; subst h2
      refine ⟨?_, rfl⟩
      simp only [recordData]; rw [if_neg (fun h => by rw [foundThere_iff hg, hb] at h; cases h)]
  | inode i st f =>
    left
    change addInodeMaps n i st f r.1 r.2 = .ok r1 at h
    unfold addInodeMaps at h
    obtain ⟨date, hdate, h⟩ := bind_ok h
    obtain ⟨s, h1, h⟩ := bind_ok h
    obtain ⟨m', h2, h⟩ := bind_ok h
    obtain ⟨c', h3, h⟩ := bind_ok h
    injection h with h; subst h
    have hs := dataRecord_spec h1
    have hdd : date = later i.ctime i.mtime := by
      unfold InodeB.dbDate at hdate
      obtain ⟨g, hg, hx⟩ := bind_ok hdate
      injection hx with hx
      rw [← hx]; exact later_gt _ _ hg
    refine ⟨s, ?_, ?_, ?_⟩
    · rw [hs, hdd]; rfl
    · rw [hs]; exact (etatOf_ne st).1
    · exact setData_append hd hk (by rw [hs]; exact (etatOf_ne st).2.2) h2

theorem removeEa_cases {n : Nat} {d : DateT} {c c' : SMap Stat} (hk : ∀ q ∈ c, q.1 < n) (h : removeEaRecord n d c = .ok c') :
    (foundThereEa c ∧ c' = c ++ [(n, ⟨d, .removed⟩)]) ∨ (¬ foundThereEa c ∧ c' = c) := by
  unfold removeEaRecord at h
  obtain ⟨⟨k, lk⟩, hg, h⟩ := bind_ok h
  injection h with h; subst h
  cases hb : lk.mayBeThere with
  | true => left; exact ⟨(foundThereEa_iff hg).mpr hb, by rw [if_pos rfl]; exact put_append _ _ _ hk⟩
  | false => right; exact ⟨fun h => (by rw [foundThereEa_iff hg, hb] at h; cases h), by rw [if_neg (by simp)]⟩

/-- first phase on the EA of one file -/
theorem upd_ea {n : Nat} {told : Told} {r r1 : SMap StatP × SMap Stat} (hk : ∀ q ∈ r.2, q.1 < n)
    (h : Updated n told r r1) (del : DateT) :
    (∃ s, recordEa del r.1 r.2 told = some s ∧ s.present ≠ .absent ∧ r1.2 = r.2 ++ [(n, s)]) ∨
    (recordEa del r.1 r.2 told = missingEa del r.1 r.2 ∧ r1.2 = r.2) := by
  cases told with
  | nothing => right; exact ⟨rfl, by rw [show r1 = r from h]⟩
  | deleted d =>
    change addGoneMaps n d r.1 r.2 = .ok r1 at h
    unfold addGoneMaps at h
    obtain ⟨⟨set, lk⟩, hg, h⟩ := bind_ok h
    obtain ⟨m', h2, h⟩ := bind_ok h
    obtain ⟨c', h3, h⟩ := bind_ok h
    injection h with h; subst h
    rcases removeEa_cases hk h3 with ⟨h4, h5⟩ | ⟨h4, h5⟩
    · left; exact ⟨⟨d, .removed⟩, by simp only [recordEa]; rw [if_pos h4], by simp, h5⟩
    · right; exact ⟨by simp only [recordEa]; rw [if_neg h4], h5⟩
  | inode i st f =>
    change addInodeMaps n i st f r.1 r.2 = .ok r1 at h
    unfold addInodeMaps at h
    obtain ⟨date, hdate, h⟩ := bind_ok h
    obtain ⟨s, h1, h⟩ := bind_ok h
    obtain ⟨m', h2, h⟩ := bind_ok h
    obtain ⟨c', h3, h⟩ := bind_ok h
    injection h with h; subst h
    unfold addEa at h3
    simp only [recordEa]
    cases hea : i.ea with
    | none => rw [hea] at h3; injection h3 with h3; subst h3; right; exact ⟨rfl, rfl⟩
    | part => rw [hea] at h3; injection h3 with h3; subst h3; left; exact ⟨_, rfl, by simp, put_append _ _ _ hk⟩
    | fake => rw [hea] at h3; injection h3 with h3; subst h3; left; exact ⟨_, rfl, by simp, put_append _ _ _ hk⟩
    | full => rw [hea] at h3; injection h3 with h3; subst h3; left; exact ⟨_, rfl, by simp, put_append _ _ _ hk⟩
    | removed =>
      rw [hea] at h3
      rcases removeEa_cases hk h3 with ⟨h4, h5⟩ | ⟨h4, h5⟩
      · left; exact ⟨⟨i.ctime, .removed⟩, by dsimp only; rw [if_pos h4], by simp, h5⟩
      · right; exact ⟨by dsimp only; rw [if_neg h4], h5⟩

/-! ### The loops of finalize -/

theorem finLoop_append (arch ign : Nat) (a b : SMap StatP) : ∀ st, finLoop arch ign (a ++ b) st = finLoop arch ign b (finLoop arch ign a st) := by
  have stop : ∀ (b : SMap StatP) st, st.found = true → finLoop arch ign b st = st := by
    intro b st h
    cases b with
    | nil => rfl
    | cons x b => obtain ⟨n, s⟩ := x; rw [finLoop, if_pos h]
  induction a with
  | nil => intro st; rfl
  | cons x a ih =>
    obtain ⟨n, s⟩ := x
    intro st
    rw [List.cons_append, finLoop, finLoop]
    split_ifs with h1 h2 h3
    · rw [stop b st h1]
    · exact ih _
    · exact ih _
    · exact ih _

theorem finLoopEa_append (arch ign : Nat) (a b : SMap Stat) : ∀ st, finLoopEa arch ign (a ++ b) st = (finLoopEa arch ign a st >>= finLoopEa arch ign b) := by
  have stop : ∀ (b : SMap Stat) st, st.found = true → finLoopEa arch ign b st = .ok st := by
    intro b st h
    cases b with
    | nil => rfl
    | cons x b => obtain ⟨n, s⟩ := x; rw [finLoopEa, if_pos h]
  induction a with
  | nil => intro st; rfl
  | cons x a ih =>
    obtain ⟨n, s⟩ := x
    intro st
    rw [List.cons_append, finLoopEa, finLoopEa]
    split_ifs with h1 h2 h3 h4
    · show _ = finLoopEa arch ign b st
      rw [stop b st h1]
    · exact ih _
    · rfl
    · exact ih _
    · exact ih _

/-- the last element of a map -/
def lastThere (m : SMap StatP) : Bool := match m.getLast? with | none => false | some (_, s) => s.present.there
def lastThereEa (m : SMap Stat) : Bool := match m.getLast? with | none => false | some (_, s) => s.present.there
def lastNum {α : Type} (m : SMap α) : Nat := match m.getLast? with | none => 0 | some (n, _) => n

theorem lastNum_lt {α : Type} (m : SMap α) (n : Nat) (v : α) (hs : (m ++ [(n, v)]).Pairwise (fun p q => p.1 < q.1)) (hn : 0 < n) : lastNum m < n := by
  unfold lastNum
  cases h : m.getLast? with
  | none => exact hn
  | some x =>
    have hx : x ∈ m := List.mem_of_getLast? h
    exact (List.pairwise_append.mp hs).2.2 x hx (n, v) (by simp)

theorem finLoop_old (arch : Nat) (m : SMap StatP) (hs : m.Sorted) (hk : ∀ q ∈ m, 0 < q.1 ∧ q.1 < arch) :
    finLoop arch 0 m {} = ⟨false, lastThere m, lastNum m, lastSeen m⟩ := by
  induction m using List.reverseRecOn with
  | nil => rfl
  | append_singleton m x ih =>
    obtain ⟨n, s⟩ := x
    have h1 := ih (List.pairwise_append.mp hs).1 (fun q hq => hk q (List.mem_append_left _ hq))
    have h2 := hk (n, s) (by simp)
    have h3 := lastNum_lt m n s hs h2.1
    dsimp only at h2
    rw [finLoop_append, h1, finLoop, if_neg (by simp), if_neg (by rintro ⟨h, -⟩; omega), if_pos ⟨h3, .inr rfl⟩]
    simp [finLoop, lastThere, lastNum, lastSeen]

theorem finLoopEa_old (arch : Nat) (m : SMap Stat) (hs : m.Sorted) (hk : ∀ q ∈ m, 0 < q.1 ∧ q.1 < arch)
    (he : ∀ q ∈ m, q.2.present = .saved ∨ q.2.present = .present ∨ q.2.present = .removed ∨ q.2.present = .absent) :
    finLoopEa arch 0 m {} = .ok ⟨false, lastThereEa m, lastNum m, ⟨0, .s⟩⟩ := by
  induction m using List.reverseRecOn with
  | nil => rfl
  | append_singleton m x ih =>
    obtain ⟨n, s⟩ := x
    have h1 := ih (List.pairwise_append.mp hs).1 (fun q hq => hk q (List.mem_append_left _ hq)) (fun q hq => he q (List.mem_append_left _ hq))
    have h2 := hk (n, s) (by simp)
    have h3 := lastNum_lt m n s hs h2.1
    have h4 := he (n, s) (by simp)
    dsimp only at h2 h4
    rw [finLoopEa_append, h1]
    simp only [bind, Except.bind]
    rw [finLoopEa, if_neg (by simp), if_neg (by rintro ⟨h, -⟩; omega), if_pos ⟨h3, .inr rfl⟩, if_neg (by rcases h4 with h | h | h | h <;> simp [h])]
    simp [finLoopEa, lastNum, lastThereEa]

theorem finLoop_found (arch : Nat) (m : SMap StatP) (s : StatP) (hs : m.Sorted) (hk : ∀ q ∈ m, 0 < q.1 ∧ q.1 < arch) (hsa : s.present ≠ .absent) :
    (finLoop arch 0 (m ++ [(arch, s)]) {}).found = true ∧ (finLoop arch 0 (m ++ [(arch, s)]) {}).lastMtime = lastSeen m := by
  rw [finLoop_append, finLoop_old arch m hs hk, finLoop, if_neg (by simp), if_pos ⟨rfl, hsa⟩]
  exact ⟨rfl, rfl⟩

theorem there_iff (e : Etat) : e.there = true ↔ ¬ (e = .removed ∨ e = .absent) := by cases e <;> simp [Etat.there]

/-- second phase on one file -/
def FinMaps (arch : Nat) (del : DateT) (r r' : SMap StatP × SMap Stat) : Prop :=
  ∃ lm, finalizeMods arch del 0 r.1 = .ok (r'.1, lm) ∧ finalizeChgs arch del 0 lm r.2 = .ok r'.2

theorem finMods_found {n : Nat} {del lm : DateT} {m m' : SMap StatP} {s : StatP} (hs : m.Sorted) (hk : ∀ q ∈ m, 0 < q.1 ∧ q.1 < n) (hsa : s.present ≠ .absent)
    (h : finalizeMods n del 0 (m ++ [(n, s)]) = .ok (m', lm)) : m' = m ++ [(n, s)] ∧ lm = lastSeen m := by
  obtain ⟨h1, h2⟩ := finLoop_found n m s hs hk hsa
  unfold finalizeMods at h
  simp only [h1, h2, if_true] at h
  injection h with h; injection h with h3 h4
  exact ⟨h3.symm, h4.symm⟩

theorem finMods_missing {n : Nat} {del lm : DateT} {m m' : SMap StatP} (hd : checkDelta none m = .ok m) (hs : m.Sorted) (hk : ∀ q ∈ m, 0 < q.1 ∧ q.1 < n)
    (h : finalizeMods n del 0 m = .ok (m', lm)) : m' = appended m n (missingRecord del m) ∧ lm = lastSeen m := by
  unfold finalizeMods at h
  rw [finLoop_old n m hs hk] at h
  simp only [Bool.false_eq_true, if_false] at h
  cases hlast : m.getLast? with
  | none =>
    have : m = [] := by simpa using hlast
    subst this
    simp [lastThere, SMap.get] at h
    obtain ⟨rfl, rfl⟩ := h
    exact ⟨rfl, rfl⟩
  | some x =>
    obtain ⟨k, s⟩ := x
    have h1 : lastThere m = s.present.there := by simp [lastThere, hlast]
    have h2 : lastSeen m = s.date := by simp [lastSeen, hlast]
    rw [h1, h2] at h
    cases ht : s.present.there with
    | true =>
      rw [ht, if_pos rfl] at h
      obtain ⟨g, hg, h⟩ := bind_ok h
      obtain ⟨m1, h3, h⟩ := bind_ok h
      injection h with h; injection h with h4 h5
      rw [later_gt _ _ hg] at h3
      have := setData_append hd (fun q hq => (hk q hq).2) (by simp) h3
      rw [checked_there (by simp)] at this
      refine ⟨?_, by rw [← h5, h2]⟩
      rw [← h4, this]
      simp only [missingRecord, hlast]
      rw [if_neg ((there_iff _).mp ht)]
      rfl
    | false =>
      rw [ht, if_neg (by simp), get_none_of_lt m n (fun q hq => (hk q hq).2)] at h
      injection h with h; injection h with h4 h5
      refine ⟨?_, by rw [← h5, h2]⟩
      rw [← h4]
      simp only [missingRecord, hlast]
      rw [if_pos (by by_contra hc; rw [(there_iff _).mpr hc] at ht; cases ht)]
      simp [appended]

theorem finChgs_found {n : Nat} {del lm : DateT} {m m' : SMap Stat} {s : Stat} (hs : m.Sorted) (hk : ∀ q ∈ m, 0 < q.1 ∧ q.1 < n)
    (he : ∀ q ∈ m, q.2.present = .saved ∨ q.2.present = .present ∨ q.2.present = .removed ∨ q.2.present = .absent) (hsa : s.present ≠ .absent)
    (h : finalizeChgs n del 0 lm (m ++ [(n, s)]) = .ok m') : m' = m ++ [(n, s)] := by
  unfold finalizeChgs at h
  rw [finLoopEa_append, finLoopEa_old n m hs hk he] at h
  obtain ⟨st, h1, h⟩ := bind_ok h
  simp only [bind, Except.bind] at h1
  rw [finLoopEa, if_neg (by simp), if_pos ⟨rfl, hsa⟩, finLoopEa] at h1
  injection h1 with h1; subst h1
  simp only [if_true] at h
  injection h with h
  exact h.symm

theorem finChgs_missing {n : Nat} {del : DateT} {oldD : SMap StatP} {m m' : SMap Stat} (hs : m.Sorted) (hk : ∀ q ∈ m, 0 < q.1 ∧ q.1 < n)
    (he : ∀ q ∈ m, q.2.present = .saved ∨ q.2.present = .present ∨ q.2.present = .removed ∨ q.2.present = .absent)
    (h : finalizeChgs n del 0 (lastSeen oldD) m = .ok m') : m' = appended m n (missingEa del oldD m) := by
  unfold finalizeChgs at h
  rw [finLoopEa_old n m hs hk he] at h
  obtain ⟨st, h1, h⟩ := bind_ok h
  injection h1 with h1; subst h1
  simp only [Bool.false_eq_true, if_false] at h
  cases hlast : m.getLast? with
  | none =>
    have hL : lastThereEa m = false := by simp [lastThereEa, hlast]
    simp only [hL, Bool.false_eq_true, and_false, if_false] at h
    injection h with h
    subst h
    simp [missingEa, hlast, appended]
  | some x =>
    obtain ⟨k, s⟩ := x
    have hk0 : lastNum m ≠ 0 := by
      have := (hk _ (List.mem_of_getLast? hlast)).1
      simp only [lastNum, hlast]; omega
    have hL : lastThereEa m = s.present.there := by simp [lastThereEa, hlast]
    simp only [hL] at h
    cases ht : s.present.there with
    | true =>
      rw [if_pos ⟨hk0, ht⟩] at h
      obtain ⟨g, hg, h⟩ := bind_ok h
      injection h with h
      rw [later_lt _ _ hg] at h
      rw [← h]
      simp only [missingEa, hlast]
      rw [if_neg ((there_iff _).mp ht)]
      exact put_append _ _ _ (fun q hq => (hk q hq).2)
    | false =>
      rw [if_neg (by rw [ht]; simp)] at h
      injection h with h
      simp only [missingEa, hlast]
      rw [if_pos (by by_contra hc; rw [(there_iff _).mpr hc] at ht; cases ht)]
      simp [appended, h]

theorem missing_checked {del : DateT} {m : SMap StatP} {c : Option Crc} : (missingRecord del m).map (StatP.checked c) = missingRecord del m := by
  unfold missingRecord
  split
  · rfl
  · split_ifs
    · rfl
    · simp [StatP.checked]

/-- both phases on one file -/
theorem both_phases {n : Nat} {told : Told} {r r1 r2 : SMap StatP × SMap Stat} {d : Bool} (hr : RecordsOk (n - 1) d r.1 r.2) (hn : 0 < n) (del : DateT)
    (h1 : Updated n told r r1) (h2 : FinMaps n del r1 r2) :
    r2.1 = appended r.1 n ((recordData del r.1 told).map (StatP.checked (chainCrc r.1))) ∧ r2.2 = appended r.2 n (recordEa del r.1 r.2 told) := by
  have hk : ∀ q ∈ r.1, 0 < q.1 ∧ q.1 < n := fun q hq => ⟨(hr.keys q hq).1, by have := (hr.keys q hq).2; omega⟩
  have hk' : ∀ q ∈ r.2, 0 < q.1 ∧ q.1 < n := fun q hq => ⟨(hr.keysEa q hq).1, by have := (hr.keysEa q hq).2; omega⟩
  obtain ⟨lm, hm, hc⟩ := h2
  have hd : r2.1 = appended r.1 n ((recordData del r.1 told).map (StatP.checked (chainCrc r.1))) ∧ lm = lastSeen r.1 := by
    rcases upd_data hr.delta (fun q hq => (hk q hq).2) h1 del with ⟨s, e1, e2, e3⟩ | ⟨e1, e2⟩
    · rw [e3] at hm
      obtain ⟨h3, h4⟩ := finMods_found hr.sorted hk (by
        unfold StatP.checked; split_ifs
        · simp
        · exact e2) hm
      exact ⟨by rw [h3, e1]; rfl, h4⟩
    · rw [e2] at hm
      obtain ⟨h3, h4⟩ := finMods_missing hr.delta hr.sorted hk hm
      exact ⟨by rw [h3, e1, missing_checked], h4⟩
  refine ⟨hd.1, ?_⟩
  rw [hd.2] at hc
  rcases upd_ea (fun q hq => (hk' q hq).2) h1 del with ⟨s, e1, e2, e3⟩ | ⟨e1, e2⟩
  · rw [e3] at hc
    rw [finChgs_found hr.sortedEa hk' hr.etats e2 hc, e1]; rfl
  · rw [e2] at hc
    rw [finChgs_missing hr.sortedEa hk' hr.etats hc, e1]

end Dar
