import Verif.Lemmas.Merge
/- The catalogue under construction: lists of children, links, and the state of the loop. -/
namespace Dar

/-! ### lists of children -/

theorem before_of {b a : List BEntry} {e : BEntry} {n : Bytes} (hb : ∀ x ∈ b, x.name ≠ n) (he : e.name = n) : beforeChild (b ++ e :: a) n = b := by
  unfold beforeChild
  induction b with
  | nil => simp [List.takeWhile_cons, he]
  | cons c b ih =>
    have hc : c.name ≠ n := hb c (List.mem_cons_self ..)
    simp only [List.cons_append, List.takeWhile_cons, ne_eq, hc, not_false_eq_true, decide_true, if_true]
    rw [ih (fun x hx => hb x (List.mem_cons_of_mem _ hx))]
theorem after_of {b a : List BEntry} {e : BEntry} {n : Bytes} (hb : ∀ x ∈ b, x.name ≠ n) (he : e.name = n) : afterChild (b ++ e :: a) n = a := by
  unfold afterChild
  induction b with
  | nil => simp [List.dropWhile_cons, he]
  | cons c b ih =>
    have hc : c.name ≠ n := hb c (List.mem_cons_self ..)
    simp only [List.cons_append, List.dropWhile_cons, ne_eq, hc, not_false_eq_true, decide_true, if_true]
    exact ih (fun x hx => hb x (List.mem_cons_of_mem _ hx))
theorem find_none_iff (l : List BEntry) (n : Bytes) : findChild l n = none ↔ ∀ a ∈ l, a.name ≠ n := by
  unfold findChild
  rw [List.find?_eq_none]
  simp

/-- the list without the child called `n` -/
def without (l : List BEntry) (n : Bytes) : List BEntry := beforeChild l n ++ afterChild l n
theorem without_sub {l : List BEntry} {n : Bytes} {e : BEntry} (h : findChild l n = some e) {a : BEntry} (ha : a ∈ without l n) : a ∈ l := by
  rw [child_split l n e h]
  rcases List.mem_append.1 ha with ha | ha
  · exact List.mem_append.2 (Or.inl ha)
  · exact List.mem_append.2 (Or.inr (List.mem_cons_of_mem _ ha))
theorem distinct_without {l : List BEntry} {n : Bytes} {e : BEntry} (hd : BEntry.DistinctL l) (h : findChild l n = some e) : BEntry.DistinctL (without l n) := by
  rw [distinctL_iff] at hd ⊢
  refine ⟨fun a ha => hd.1 a (without_sub h ha), ?_⟩
  have h2 := hd.2
  rw [child_split l n e h, List.map_append, List.map_cons] at h2
  unfold without
  rw [List.map_append]
  exact (List.nodup_cons.1 ((List.perm_middle.nodup_iff).1 h2)).2
theorem find_without {l : List BEntry} {n : Bytes} {e : BEntry} (hd : BEntry.DistinctL l) (h : findChild l n = some e) (m : Bytes) :
    findChild (without l n) m = if m = n then none else findChild l m := by
  by_cases hm : m = n
  · subst hm
    rw [if_pos rfl, find_none_iff]
    have h2 := ((distinctL_iff l).1 hd).2
    rw [child_split l m e h, List.map_append, List.map_cons, List.perm_middle.nodup_iff] at h2
    rw [findChild_name h] at h2
    intro a ha hn
    have := (List.nodup_cons.1 h2).1
    apply this
    rw [← List.map_append]
    exact List.mem_map.2 ⟨a, ha, hn⟩
  · rw [if_neg hm]
    have hs := child_split l n e h
    conv_rhs => rw [hs]
    unfold without findChild
    rw [List.find?_append, List.find?_append, List.find?_cons]
    have : decide (e.name = m) = false := by
      rw [findChild_name h]
      exact decide_eq_false (Ne.symm hm)
    rw [this]

/-! ### links -/

theorem linksL_append (k : Nat) (a b : List BEntry) : BEntry.linksL k (a ++ b) = BEntry.linksL k a + BEntry.linksL k b := by
  induction a with
  | nil => simp [BEntry.linksL]
  | cons e a ih => simp only [List.cons_append, BEntry.linksL, ih]; omega
theorem linksL_cons (k : Nat) (e : BEntry) (l : List BEntry) : BEntry.linksL k (e :: l) = BEntry.links k e + BEntry.linksL k l := by rw [BEntry.linksL]
theorem links_find {l : List BEntry} {n : Bytes} {e : BEntry} (h : findChild l n = some e) (k : Nat) :
    BEntry.linksL k l = BEntry.linksL k (beforeChild l n) + BEntry.links k e + BEntry.linksL k (afterChild l n) := by
  conv_lhs => rw [child_split l n e h]
  rw [linksL_append, linksL_cons]; omega
theorem links_without {l : List BEntry} {n : Bytes} {e : BEntry} (h : findChild l n = some e) (k : Nat) :
    BEntry.linksL k l = BEntry.linksL k (without l n) + BEntry.links k e := by
  rw [links_find h, without, linksL_append]; omega

mutual
theorem mem_labels (k : Nat) (e : BEntry) : k ∈ BEntry.labels e ↔ 0 < BEntry.links k e := by
  match e with
  | .mirage n j =>
    simp only [BEntry.labels, BEntry.links, List.mem_singleton]
    by_cases h : j = k
    · simp [h]
    · simp [h, Ne.symm h]
  | .dir x c => rw [BEntry.labels, BEntry.links]; exact mem_labelsL k c
  | .node x => simp [BEntry.labels, BEntry.links]
  | .detruit n j d => simp [BEntry.labels, BEntry.links]
  | .ignored n => simp [BEntry.labels, BEntry.links]
  | .ignoredDir x => simp [BEntry.labels, BEntry.links]
theorem mem_labelsL (k : Nat) (l : List BEntry) : k ∈ BEntry.labelsL l ↔ 0 < BEntry.linksL k l := by
  match l with
  | [] => simp [BEntry.labelsL, BEntry.linksL]
  | e :: l =>
    rw [BEntry.labelsL, BEntry.linksL, List.mem_append, mem_labels k e, mem_labelsL k l]
    omega
end

theorem cursor_links (fr : List (List BEntry × Obj × List BEntry)) (cur : List BEntry) (k : Nat) :
    Cursor.links k ⟨fr, cur⟩ = (fr.map (fun f => BEntry.linksL k f.1 + BEntry.linksL k f.2.2)).sum + BEntry.linksL k cur := rfl
theorem enter_links {fr : List (List BEntry × Obj × List BEntry)} {cur : List BEntry} {x0 x : Obj} {n : Bytes} {ch : List BEntry}
    (h : findChild cur n = some (.dir x0 ch)) (k : Nat) :
    Cursor.links k ⟨(beforeChild cur n, x, afterChild cur n) :: fr, ch⟩ = Cursor.links k ⟨fr, cur⟩ := by
  rw [cursor_links, cursor_links, links_find h]
  simp only [List.map_cons, List.sum_cons, BEntry.links]
  omega
theorem up_links (fr : List (List BEntry × Obj × List BEntry)) (b a : List BEntry) (x : Obj) (cur : List BEntry) (k : Nat) :
    Cursor.links k ⟨fr, b ++ .dir x cur :: a⟩ = Cursor.links k ⟨(b, x, a) :: fr, cur⟩ := by
  rw [cursor_links, cursor_links, linksL_append, linksL_cons]
  simp only [List.map_cons, List.sum_cons, BEntry.links]
  omega

/-! ### the state -/

/-- the labels known are those of the links of the catalogue, and the one of the entry being added; `T` gives the inodes -/
structure MInv (T : Nat → Obj) (x : Option Nat) (s : MgSt) : Prop where
  skip : s.skip = 0
  nodup : s.known.Nodup
  known : ∀ j, j ∈ s.known ↔ 0 < s.at_.links j ∨ x = some j
  right : ∀ j ∈ s.known, s.stars j = T j

/-- the label of a hard link -/
def BEntry.label : BEntry → Option Nat
  | .mirage _ k => some k
  | _ => none

theorem nodup_filter_ne {l : List Nat} (h : l.Nodup) (k : Nat) : (l.filter (· ≠ k)).Nodup := h.filter _

theorem cleanKnown_inv {T : Nat → Obj} {s : MgSt} {k : Nat} {kn : List Nat} (hi : MInv T (some k) s) (h : cleanKnown s.known k (s.at_.links k + 1) = .ok kn) :
    MInv T none { s with known := kn } := by
  unfold cleanKnown at h
  rw [if_neg (by omega)] at h
  by_cases h0 : s.at_.links k = 0
  · rw [if_pos (by omega)] at h
    by_cases hk : k ∈ s.known
    · rw [if_pos hk] at h
      cases h
      refine ⟨hi.skip, nodup_filter_ne hi.nodup k, fun j => ?_, fun j hj => hi.right j ((List.mem_filter.1 hj).1)⟩
      simp only [List.mem_filter, hi.known j, decide_eq_true_eq]
      constructor
      · rintro ⟨h1 | h1, h2⟩
        · exact Or.inl h1
        · cases h1; exact absurd rfl h2
      · rintro (h1 | h1)
        · refine ⟨Or.inl h1, fun hj => ?_⟩
          subst hj
          omega
        · cases h1
    · rw [if_neg hk] at h; cases h
  · rw [if_neg (by omega)] at h
    cases h
    refine ⟨hi.skip, hi.nodup, fun j => ?_, hi.right⟩
    rw [hi.known j]
    constructor
    · rintro (h1 | h1)
      · exact Or.inl h1
      · cases h1; exact Or.inl (Nat.pos_of_ne_zero h0)
    · rintro (h1 | h1)
      · exact Or.inl h1
      · cases h1

theorem cleanNew_inv {T : Nat → Obj} {s s' : MgSt} {d : BEntry} (hi : MInv T d.label s) (h : s.cleanNew d = .ok s') :
    ∃ kn, s' = { s with known := kn } ∧ MInv T none s' := by
  cases d with
  | mirage n k =>
    unfold MgSt.cleanNew at h
    cases hc : cleanKnown s.known k (s.at_.links k + 1) with
    | error e => simp only [hc] at h; cases h
    | ok kn =>
      simp only [hc] at h
      cases h
      exact ⟨kn, rfl, cleanKnown_inv hi hc⟩
  | _ => cases h; exact ⟨s.known, rfl, hi⟩

theorem cleanTree_inv {c : Cursor} {ch : List BEntry} : ∀ (l known kn : List Nat), cleanTree c ch known l = .ok kn → known.Nodup → kn.Nodup ∧
    ∀ j, j ∈ kn ↔ j ∈ known ∧ ¬ (j ∈ l ∧ c.links j = BEntry.linksL j ch)
  | [], known, kn, h, hn => by cases h; simp [hn]
  | k :: l, known, kn, h, hn => by
    unfold cleanTree at h
    by_cases h1 : k ∉ known
    · rw [if_pos h1] at h; cases h
    · rw [if_neg h1] at h
      by_cases h2 : c.links k < BEntry.linksL k ch
      · rw [if_pos h2] at h; cases h
      · rw [if_neg h2] at h
        by_cases h3 : c.links k = BEntry.linksL k ch
        · rw [if_pos h3] at h
          obtain ⟨a, b⟩ := cleanTree_inv l _ kn h (nodup_filter_ne hn k)
          refine ⟨a, fun j => ?_⟩
          rw [b j]
          simp only [List.mem_filter, decide_eq_true_eq, List.mem_cons]
          constructor
          · rintro ⟨⟨h4, h5⟩, h6⟩
            exact ⟨h4, fun ⟨h7, h8⟩ => h7.elim h5 (fun h7 => h6 ⟨h7, h8⟩)⟩
          · rintro ⟨h4, h5⟩
            refine ⟨⟨h4, fun h6 => h5 ⟨Or.inl h6, h6 ▸ h3⟩⟩, fun ⟨h7, h8⟩ => h5 ⟨Or.inr h7, h8⟩⟩
        · rw [if_neg h3] at h
          obtain ⟨a, b⟩ := cleanTree_inv l _ kn h hn
          refine ⟨a, fun j => ?_⟩
          rw [b j]
          simp only [List.mem_cons]
          constructor
          · rintro ⟨h4, h6⟩
            refine ⟨h4, fun ⟨h7, h8⟩ => h7.elim (fun h7 => h3 (h7 ▸ h8)) (fun h7 => h6 ⟨h7, h8⟩)⟩
          · rintro ⟨h4, h5⟩
            exact ⟨h4, fun ⟨h7, h8⟩ => h5 ⟨Or.inr h7, h8⟩⟩

/-- removing a child whose labels are below `off`, the pending label being above -/
theorem removed_inv {T : Nat → Obj} {s : MgSt} {x : Option Nat} {al : BEntry} {n : Bytes} {kn : List Nat} (hi : MInv T x s) (hf : findChild s.at_.cur n = some al)
    (hx : ∀ j, x = some j → BEntry.links j al = 0) (hkn : kn.Nodup) (hk : ∀ j, j ∈ kn ↔ j ∈ s.known ∧ ¬ (0 < BEntry.links j al ∧ s.at_.links j = BEntry.links j al)) :
    MInv T x { s with known := kn, at_ := s.at_.removeChild n } := by
  have hl : ∀ j, s.at_.links j = Cursor.links j (s.at_.removeChild n) + BEntry.links j al := by
    intro j
    unfold Cursor.links Cursor.removeChild
    have := links_without hf j
    unfold without at this
    dsimp only
    omega
  refine ⟨hi.skip, hkn, fun j => ?_, fun j hj => hi.right j ((hk j).1 hj).1⟩
  show j ∈ kn ↔ 0 < Cursor.links j (s.at_.removeChild n) ∨ x = some j
  rw [hk j, hi.known j]
  have := hl j
  constructor
  · rintro ⟨h1 | h1, h2⟩
    · left; omega
    · exact Or.inr h1
  · rintro (h1 | h1)
    · exact ⟨Or.inl (by omega), by omega⟩
    · exact ⟨Or.inr h1, fun ⟨h2, _⟩ => by rw [hx j h1] at h2; omega⟩

/-- what takes the place of a removed entry -/
def leftBehind (o : MgOpts) : BEntry → List BEntry
  | .dir y _ => if o.emptyDir then [.ignoredDir y] else []
  | _ => []
theorem removeOld_inv {T : Nat → Obj} {o : MgOpts} {s s' : MgSt} {x : Option Nat} {al : BEntry} {n : Bytes} (hi : MInv T x s) (hd : BEntry.DistinctL s.at_.cur)
    (hf : findChild s.at_.cur n = some al) (hx : ∀ j, x = some j → BEntry.links j al = 0) (h : s.removeOld o al = .ok s') :
    ∃ kn, MInv T x s' ∧ s' = { s with known := kn, at_ := ⟨s.at_.frames, without s.at_.cur n ++ leftBehind o al⟩ } := by
  have hn := findChild_name hf
  cases al with
  | mirage m k =>
    change m = n at hn
    subst hn
    unfold MgSt.removeOld at h
    cases hc : cleanKnown s.known k (s.at_.links k) with
    | error e => simp only [hc] at h; cases h
    | ok kn =>
      simp only [hc] at h
      cases h
      refine ⟨kn, ?_, by simp [Cursor.removeChild, without, leftBehind]⟩
      have hl1 : BEntry.links k (.mirage m k) = 1 := by simp [BEntry.links]
      have hge : 1 ≤ s.at_.links k := by
        unfold Cursor.links
        have := links_without hf k
        omega
      unfold cleanKnown at hc
      rw [if_neg (by omega)] at hc
      refine removed_inv hi hf hx ?_ ?_
      · by_cases h1 : s.at_.links k = 1
        · rw [if_pos h1] at hc
          split at hc
          · cases hc; exact nodup_filter_ne hi.nodup k
          · cases hc
        · rw [if_neg h1] at hc
          cases hc; exact hi.nodup
      · intro j
        have hj : BEntry.links j (.mirage m k) = if k = j then 1 else 0 := by rw [BEntry.links]
        by_cases h1 : s.at_.links k = 1
        · rw [if_pos h1] at hc
          split at hc
          · cases hc
            simp only [List.mem_filter, decide_eq_true_eq]
            rw [hj]
            by_cases hjk : k = j
            · subst hjk; simp [h1]
            · simp [hjk, Ne.symm hjk]
          · cases hc
        · rw [if_neg h1] at hc
          cases hc
          rw [hj]
          by_cases hjk : k = j
          · subst hjk; simp [h1]
          · simp [hjk]
  | dir y ch =>
    change y.name = n at hn
    subst hn
    unfold MgSt.removeOld at h
    cases hc : cleanTree s.at_ ch s.known (BEntry.labelsL ch).eraseDups with
    | error e => simp only [hc] at h; cases h
    | ok kn =>
      simp only [hc] at h
      cases h
      obtain ⟨h1, h2⟩ := cleanTree_inv _ _ _ hc hi.nodup
      have hr : MInv T x { s with known := kn, at_ := s.at_.removeChild y.name } := by
        refine removed_inv hi hf hx h1 ?_
        intro j
        rw [h2 j, List.mem_eraseDups, mem_labelsL]
        rw [BEntry.links]
      by_cases he : o.emptyDir = true
      case neg =>
        rw [if_neg he, leftBehind, if_neg he]
        exact ⟨kn, hr, by simp [Cursor.removeChild, without]⟩
      case pos =>
        rw [if_pos he, leftBehind, if_pos he]
        have hnone : findChild (s.at_.removeChild y.name).cur y.name = none := by
          have := find_without hd hf y.name
          rw [if_pos rfl] at this
          exact this
        have hput : (s.at_.removeChild y.name).put (.ignoredDir y) = ⟨s.at_.frames, without s.at_.cur y.name ++ [.ignoredDir y]⟩ := by
          unfold Cursor.put
          simp only [BEntry.name, hnone, Option.isSome_none, Bool.false_eq_true, if_false]
          rfl
        rw [hput]
        refine ⟨kn, ⟨hr.skip, hr.nodup, fun j => ?_, hr.right⟩, rfl⟩
        have := hr.known j
        rw [this]
        show 0 < Cursor.links j ⟨s.at_.frames, without s.at_.cur y.name⟩ ∨ _ ↔ 0 < Cursor.links j ⟨s.at_.frames, without s.at_.cur y.name ++ [.ignoredDir y]⟩ ∨ _
        rw [cursor_links, cursor_links, linksL_append]
        simp [BEntry.linksL, BEntry.links]
  | _ =>
    change _ = n at hn
    simp only [BEntry.name] at hn
    subst hn
    cases h
    refine ⟨s.known, ?_, by simp [Cursor.removeChild, without, BEntry.name, leftBehind]⟩
    refine removed_inv hi hf hx hi.nodup ?_
    intro j
    simp [BEntry.links]

/-! ### the loop -/

theorem mergeLoop_append (o : MgOpts) (b : Bool) (rs : Nat → Obj) (off : Nat) : ∀ (l : List BEv) (s : MgSt) (r : List BEv),
    mergeLoop o b rs off s (l ++ r) = (mergeLoop o b rs off s l >>= fun s => mergeLoop o b rs off s r)
  | [], s, r => rfl
  | ev :: l, s, r => by
    show (do let s ← mergeStep o b rs off s ev; mergeLoop o b rs off s (l ++ r)) = (do let s ← (do let s ← mergeStep o b rs off s ev; mergeLoop o b rs off s l); mergeLoop o b rs off s r)
    cases mergeStep o b rs off s ev with
    | error e => rfl
    | ok s => exact mergeLoop_append o b rs off l s r

mutual
theorem merge_skip_entry (o : MgOpts) (b : Bool) (rs : Nat → Obj) (off : Nat) (e : BEntry) (s : MgSt) (h : s.skip > 0) : mergeLoop o b rs off s e.events = .ok s := by
  have step : ∀ e : BEntry, e.isDir = false → mergeLoop o b rs off s [.entry e] = .ok s := by
    intro e he
    show (do let s ← mergeStep o b rs off s (.entry e); mergeLoop o b rs off s []) = _
    unfold mergeStep
    rw [if_pos h]
    simp only [he, Bool.false_eq_true, if_false]
    rfl
  match e with
  | .dir x c =>
    rw [BEntry.events]
    show (do let s ← mergeStep o b rs off s (.entry (.dir x c)); mergeLoop o b rs off s (BEntry.eventsList c ++ [BEv.eod])) = _
    unfold mergeStep
    rw [if_pos h]
    simp only [BEntry.isDir, if_true]
    show mergeLoop o b rs off { s with skip := s.skip + 1 } (BEntry.eventsList c ++ [BEv.eod]) = _
    rw [mergeLoop_append, merge_skip_list o b rs off c _ (Nat.succ_pos _)]
    show (do let s ← mergeStep o b rs off { s with skip := s.skip + 1 } BEv.eod; mergeLoop o b rs off s []) = _
    unfold mergeStep
    rw [if_pos (Nat.succ_pos _)]
    rfl
  | .node x => exact step _ rfl
  | .mirage n k => exact step _ rfl
  | .detruit n k d => exact step _ rfl
  | .ignored n => exact step _ rfl
  | .ignoredDir x => exact step _ rfl
theorem merge_skip_list (o : MgOpts) (b : Bool) (rs : Nat → Obj) (off : Nat) (l : List BEntry) (s : MgSt) (h : s.skip > 0) :
    mergeLoop o b rs off s (BEntry.eventsList l) = .ok s := by
  match l with
  | [] => rfl
  | e :: l =>
    rw [BEntry.eventsList, mergeLoop_append, merge_skip_entry o b rs off e s h]
    exact merge_skip_list o b rs off l s h
end
/-- the contents of a directory are skipped -/
theorem merge_skipped (o : MgOpts) (b : Bool) (rs : Nat → Obj) (off : Nat) (c : List BEntry) (s : MgSt) (h : s.skip = 1) :
    mergeLoop o b rs off s (BEntry.eventsList c ++ [BEv.eod]) = .ok { s with skip := 0 } := by
  rw [mergeLoop_append, merge_skip_list o b rs off c s (by omega)]
  show (do let s ← mergeStep o b rs off s BEv.eod; mergeLoop o b rs off s []) = _
  unfold mergeStep
  rw [if_pos (by omega), h]
  rfl

end Dar
