import Verif.Lemmas.SeqSim
/- The simulation of a whole call of `read`. -/
namespace Dar

set_option linter.unusedSectionVars false
variable [EscByte]

theorem seen_hidden (stars : Nat → Star) (dalgo : Compr) (e : Entry) (l : List Entry) (h : e.hidden = true) :
    seenTree stars dalgo (e :: l) = seenTree stars dalgo l := by
  cases e with
  | node n => exact Bool.noConfusion h
  | dir => exact Bool.noConfusion h
  | mirage => exact Bool.noConfusion h
  | detruit => conv => lhs; unfold seenTree
  | ignored => conv => lhs; unfold seenTree
theorem seen_leaf (stars : Nat → Star) (dalgo : Compr) (e : Entry) (l : List Entry) (h : e.isFolder = false) (hok : e.InlineOk stars) :
    seenTree stars dalgo (e :: l) = e.inline stars dalgo :: seenTree stars dalgo l := by
  cases e with
  | node n => conv => lhs; unfold seenTree
  | dir => exact Bool.noConfusion h
  | mirage => conv => lhs; unfold seenTree
  | detruit => exact hok.elim
  | ignored => exact hok.elim
theorem seen_dir (stars : Nat → Star) (dalgo : Compr) (n : Bytes) (st : SavedStatus) (i : InodeB) (ch l : List Entry) :
    seenTree stars dalgo (.dir n st i ch :: l) = .dir n st (i.kept true) (seenTree stars dalgo ch) :: seenTree stars dalgo l := by
  conv => lhs; unfold seenTree
theorem seen_nil (stars : Nat → Star) (dalgo : Compr) : seenTree stars dalgo [] = [] := by
  unfold seenTree; rfl
theorem inline_leaf (stars : Nat → Star) (dalgo : Compr) (e : Entry) (h : e.isFolder = false) : (e.inline stars dalgo).isFolder = false := by
  cases e with
  | dir => exact Bool.noConfusion h
  | mirage n k => simp only [Entry.inline]; split <;> rfl
  | node n => rfl
  | detruit => rfl
  | ignored => rfl

/-- what the caller believes: nothing is being skipped, or the directories `xs` are -/
def Mode (wait : Nat) (cs rs : List (List Entry)) : Prop :=
  (wait = 0 ∧ cs = rs) ∨ (wait = cs.length ∧ cs ≠ [] ∧ ∃ xs, xs ≠ [] ∧ rs = xs ++ cs)

theorem memRead_leaf (e : Entry) (l : List Entry) (up : List (List Entry)) (h : e.isFolder = false) :
    memRead ((e :: l) :: up) = (some (.entry e), l :: up) := by
  cases e with
  | dir => exact Bool.noConfusion h
  | node n => rfl
  | mirage => rfl
  | detruit => rfl
  | ignored => rfl

theorem loop_again (env : SeqEnv) (n : Nat) (st st' : EC) (h : EC.step env st = .ok (.again st')) : EC.loop env (n + 1) st = EC.loop env n st' := by
  conv => lhs; unfold EC.loop
  rw [h]

theorem loop_ret (env : SeqEnv) (n : Nat) (st st' : EC) (it it' : Item) (h : EC.step env st = .ok (.ret (some it) st'))
    (hs : st.status = .init ∨ st.status = .marks) (hb : it'.bare = it) :
    EC.loop env (n + 1) st = .ok (some it'.bare, { st' with hasRead := true }) := by
  unfold EC.loop
  rw [h]
  dsimp only
  rw [hb]
  rcases hs with h | h <;> simp [h]
theorem bare_leaf (e : Entry) (h : e.isFolder = false) : (Item.entry e).bare = .entry e := by
  cases e with
  | dir => exact Bool.noConfusion h
  | node n => rfl
  | mirage => rfl
  | detruit => rfl
  | ignored => rfl

/-- nothing remains in the directories of the stack; the archive is complete only at the root -/
def Ends (cut : Bool) (rs : List (List Entry)) : Prop := rs ≠ [] ∧ (∀ l ∈ rs, l = []) ∧ (cut = false → rs = [[]])

/-- a call of `read` while events remain; at the end of the events the loop goes on -/
theorem loop_sim {stars : Nat → Star} {env : SeqEnv} (hv : env.Fit) {fin : List (SeqT × Bytes)} (hf : Stops fin) {T : List Entry}
    (hT : DistinctNames T) {cut : Bool} {rs : List (List Entry)} {evs : List SeqEv} (hl : LeavesIn stars cut rs evs) :
    ∀ (st : EC) (wrote : List Nat) (cs : List (List Entry)) (n : Nat), Sync stars env fin T st rs evs wrote → Mode st.wait cs rs →
      (∃ it m', memRead (cs.map (seenTree stars env.dalgo)) = (some it, m') ∧
        ∃ st' rs' evs' wrote', EC.loop env (n + evs.length) st = .ok (some it.bare, st') ∧ LeavesIn stars cut rs' evs' ∧
          Sync stars env fin T st' rs' evs' wrote' ∧ st'.wait = 0 ∧ m' = rs'.map (seenTree stars env.dalgo) ∧ st'.hasRead = true ∧ st'.status = .marks ∧
          st'.det = st.det) ∨
      (∃ st' rs' cs' wrote', EC.loop env (n + evs.length) st = EC.loop env n st' ∧ Sync stars env fin T st' rs' [] wrote' ∧ Ends cut rs' ∧
          Mode st'.wait cs' rs' ∧ memRead (cs.map (seenTree stars env.dalgo)) = memRead (cs'.map (seenTree stars env.dalgo)) ∧
          st'.hasRead = st.hasRead ∧ st'.det = st.det ∧ (st.wait = 0 → st'.wait = 0)) := by
  induction hl with
  | done =>
    intro st wrote cs n hs hm
    right
    exact ⟨st, [[]], cs, wrote, rfl, hs, ⟨by simp, by simp, fun _ => rfl⟩, hm, rfl, rfl, rfl, id⟩
  | stop h ne empty =>
    intro st wrote cs n hs hm
    right
    exact ⟨st, _, cs, wrote, rfl, hs, ⟨ne, empty, fun h' => by rw [h] at h'; cases h'⟩, hm, rfl, rfl, rfl, id⟩
  | failed ok notLink notDir after next ih =>
    intro st wrote cs n hs hm
    obtain ⟨st', h1, h2, h3, h4, h5, h6⟩ := sync_failed hv ok notLink after hs
    rw [List.length_cons, ← Nat.add_assoc, loop_again _ _ _ _ h1]
    rw [← h3] at hm
    rw [← h3, ← h4, ← h6]
    exact ih st' wrote cs n h2 hm
  | hidden h next ih =>
    intro st wrote cs n hs hm
    rename_i e l up evs
    have hs' : Sync stars env fin T st (l :: up) evs wrote :=
      ⟨hs.status, hs.segs, hs.corres, hs.dead, by simpa using hs.depth, hs.up, by simpa [seen_hidden stars env.dalgo e l h] using hs.fill⟩
    rcases hm with ⟨hw, rfl⟩ | ⟨hw, hc, xs, hx, hr⟩
    · have := ih st wrote (l :: up) n hs' (.inl ⟨hw, rfl⟩)
      simp only [List.map_cons, seen_hidden stars env.dalgo e l h] at this ⊢
      exact this
    · cases xs with
      | nil => exact absurd rfl hx
      | cons x xs =>
        injection hr with h1 h2
        subst h1
        exact ih st wrote cs n hs' (.inr ⟨hw, hc, l :: xs, by simp, by rw [h2]; rfl⟩)
  | leaf ok notDir after next ih =>
    intro st wrote cs n hs hm
    rename_i e a l up evs
    obtain ⟨ms, b, h1, h2⟩ := sync_saved hv hf ok after hs
    have hfill := hs.fill
    simp only [List.map_cons, seen_leaf stars env.dalgo e l notDir ok] at hfill
    have hd : DistinctNames (fill st.built ((e.inline stars env.dalgo :: seenTree stars env.dalgo l) :: up.map (seenTree stars env.dalgo))) := by
      rw [hfill]; exact hT
    obtain ⟨h3, h4⟩ := add_leaf st.built _ _ _ (inline_leaf stars env.dalgo e notDir) hd
    have hwd : st.wait ≤ st.depth := by
      have := hs.depth
      rcases hm with ⟨hw, _⟩ | ⟨hw, hc, xs, hx, hr⟩
      · omega
      · have h5 := List.length_pos_iff.2 hx
        have h6 := congrArg List.length hr
        rw [List.length_append] at h6
        rw [hw]; omega
    rw [take_entry env _ _ ⟨st.built.cur ++ [e.inline stars env.dalgo], st.built.up⟩ (by exact h3) (by exact hwd)] at h2
    have hs' : Sync stars env fin T { st with status := .marks, floor := (b ++ a.data, a.marks ++ (ms ++ fin)), pos := .here (a.data, a.marks ++ (ms ++ fin)), corres := linkTable stars env.dalgo (wroteAfter stars wrote e), depth := (if (e.inline stars env.dalgo).isFolder then st.depth + 1 else st.depth), built := ⟨st.built.cur ++ [e.inline stars env.dalgo], st.built.up⟩ } (l :: up) evs (wroteAfter stars wrote e) := by
      refine ⟨.inr rfl, ⟨ms, h1, ⟨a.marks, after_free a after, rfl⟩, ⟨a.marks, after_free a after, rfl⟩⟩, rfl, hs.dead, ?_, ?_, ?_⟩
      · rw [inline_leaf stars env.dalgo e notDir]; simpa using hs.depth
      · rw [inline_leaf stars env.dalgo e notDir]; simpa using hs.up
      · simp only [List.map_cons]
        rw [h4, hfill]
    by_cases hw0 : st.wait = 0
    · left
      have hcs : cs = (e :: l) :: up := by
        rcases hm with ⟨_, h⟩ | ⟨hw, hc, _⟩
        · exact h
        · exact absurd (List.length_eq_zero_iff.1 (by omega)) hc
      subst hcs
      dsimp only at h2
      rw [if_pos hw0] at h2
      refine ⟨.entry (e.inline stars env.dalgo), (l :: up).map (seenTree stars env.dalgo), ?_, _, l :: up, evs, wroteAfter stars wrote e,
        loop_ret env (n + evs.length) st _ _ _ h2 hs.status (bare_leaf _ (inline_leaf stars env.dalgo e notDir)), next, ?_, hw0, rfl, rfl, rfl, rfl⟩
      · rw [List.map_cons, seen_leaf stars env.dalgo e l notDir ok, memRead_leaf _ _ _ (inline_leaf stars env.dalgo e notDir)]; rfl
      · exact ⟨hs'.status, hs'.segs, hs'.corres, hs'.dead, hs'.depth, hs'.up, hs'.fill⟩
    · have hx := hm
      rcases hx with ⟨hw, _⟩ | ⟨hw, hc, xs, hx, hr⟩
      · exact absurd hw hw0
      · cases xs with
        | nil => exact absurd rfl hx
        | cons x xs =>
          injection hr with h5 h6
          have := ih _ (wroteAfter stars wrote e) cs n hs' (.inr ⟨hw, hc, l :: xs, by simp, by rw [h6]; rfl⟩)
          rw [List.length_cons, ← Nat.add_assoc]
          dsimp only at h2
          rw [if_neg hw0] at h2
          rw [loop_again _ _ _ _ h2]
          exact this
  | dir ok after next ih =>
    intro st wrote cs n hs hm
    rename_i nm sa i ch a l up evs
    obtain ⟨ms, b, h1, h2⟩ := sync_saved hv hf ok after hs
    have hfill := hs.fill
    simp only [List.map_cons, seen_dir] at hfill
    have hd : DistinctNames (fill st.built ((.dir nm sa (i.kept true) (seenTree stars env.dalgo ch) :: seenTree stars env.dalgo l) :: up.map (seenTree stars env.dalgo))) := by
      rw [hfill]; exact hT
    obtain ⟨h3, h4⟩ := add_dir st.built _ _ _ _ _ _ hd
    have hwd : st.wait ≤ st.depth := by
      have := hs.depth
      rcases hm with ⟨hw, _⟩ | ⟨hw, hc, xs, hx, hr⟩
      · omega
      · have h5 := List.length_pos_iff.2 hx
        have h6 := congrArg List.length hr
        rw [List.length_append] at h6
        rw [hw]; omega
    have hin : Entry.inline stars env.dalgo (.dir nm sa i []) = .dir nm sa (i.kept true) [] := rfl
    have hwr : wroteAfter stars wrote (.dir nm sa i []) = wrote := rfl
    rw [hin, hwr] at h2
    rw [hwr] at h1
    rw [take_entry env _ _ ⟨[], ⟨nm, sa, i.kept true, st.built.cur⟩ :: st.built.up⟩ (by exact h3) (by exact hwd)] at h2
    have hs' : Sync stars env fin T { st with status := .marks, floor := (b ++ a.data, a.marks ++ (ms ++ fin)), pos := .here (a.data, a.marks ++ (ms ++ fin)), corres := linkTable stars env.dalgo wrote, depth := (if (Entry.dir nm sa (i.kept true) []).isFolder then st.depth + 1 else st.depth), built := ⟨[], ⟨nm, sa, i.kept true, st.built.cur⟩ :: st.built.up⟩ } (ch :: l :: up) evs wrote := by
      refine ⟨.inr rfl, ⟨ms, h1, ⟨a.marks, after_free a after, rfl⟩, ⟨a.marks, after_free a after, rfl⟩⟩, rfl, hs.dead, ?_, ?_, ?_⟩
      · have := hs.depth
        simp [Entry.isFolder] at this ⊢; omega
      · have := hs.up
        simp [Entry.isFolder] at this ⊢; omega
      · simp only [List.map_cons]
        rw [h4, hfill]
    by_cases hw0 : st.wait = 0
    · left
      have hcs : cs = (.dir nm sa i ch :: l) :: up := by
        rcases hm with ⟨_, h⟩ | ⟨hw, hc, _⟩
        · exact h
        · exact absurd (List.length_eq_zero_iff.1 (by omega)) hc
      subst hcs
      dsimp only at h2
      rw [if_pos hw0] at h2
      refine ⟨.entry (.dir nm sa (i.kept true) (seenTree stars env.dalgo ch)), (ch :: l :: up).map (seenTree stars env.dalgo), ?_, _, ch :: l :: up, evs, wrote,
        loop_ret env (n + evs.length) st _ _ _ h2 hs.status rfl, next, ?_, hw0, rfl, rfl, rfl, rfl⟩
      · rw [List.map_cons, seen_dir]; rfl
      · exact ⟨hs'.status, hs'.segs, hs'.corres, hs'.dead, hs'.depth, hs'.up, hs'.fill⟩
    · have hx := hm
      rcases hx with ⟨hw, _⟩ | ⟨hw, hc, xs, hx, hr⟩
      · exact absurd hw hw0
      · cases xs with
        | nil => exact absurd rfl hx
        | cons x xs =>
          injection hr with h5 h6
          have := ih _ wrote cs n hs' (.inr ⟨hw, hc, ch :: l :: xs, by simp, by rw [h6]; rfl⟩)
          rw [List.length_cons, ← Nat.add_assoc]
          dsimp only at h2
          rw [if_neg hw0] at h2
          rw [loop_again _ _ _ _ h2]
          exact this
  | eod after next ih =>
    intro st wrote cs n hs hm
    rename_i a l up evs
    obtain ⟨ms, b, h1, h2⟩ := sync_eod hv hf after hs
    have hfill := hs.fill
    simp only [List.map_cons, seen_nil] at hfill
    have hdep : st.depth ≠ 0 := by have := hs.depth; simp at this; omega
    have hup : st.built.up ≠ [] := by
      intro h
      have := hs.up
      rw [h] at this
      simp at this; omega
    obtain ⟨h3, h4, h5⟩ := add_eod st.built hup (seenTree stars env.dalgo l) (up.map (seenTree stars env.dalgo))
    rw [take_eod env _ st.built.close (by exact h3) (by exact hdep)] at h2
    have hs' : ∀ w, Sync stars env fin T { st with status := .marks, floor := (b ++ a.data, a.marks ++ (ms ++ fin)), pos := .here (a.data, a.marks ++ (ms ++ fin)), corres := linkTable stars env.dalgo wrote, depth := st.depth - 1, built := st.built.close, wait := w } (l :: up) evs wrote := by
      intro w
      refine ⟨.inr rfl, ⟨ms, h1, ⟨a.marks, after_free a after, rfl⟩, ⟨a.marks, after_free a after, rfl⟩⟩, rfl, hs.dead, ?_, ?_, ?_⟩
      · have := hs.depth
        simp at this ⊢; omega
      · have := hs.up
        simp at this ⊢; omega
      · simp only [List.map_cons]
        rw [h4, hfill]
    by_cases hw0 : st.wait = 0
    · left
      have hcs : cs = [] :: l :: up := by
        rcases hm with ⟨_, h⟩ | ⟨hw, hc, _⟩
        · exact h
        · exact absurd (List.length_eq_zero_iff.1 (by omega)) hc
      subst hcs
      dsimp only at h2
      rw [if_pos hw0] at h2
      refine ⟨.eod, (l :: up).map (seenTree stars env.dalgo), ?_, _, l :: up, evs, wrote,
        loop_ret env (n + evs.length) st _ _ _ h2 hs.status rfl, next, ?_, hw0, rfl, rfl, rfl, rfl⟩
      · rw [List.map_cons, seen_nil]; rfl
      · exact ⟨(hs' st.wait).status, (hs' st.wait).segs, (hs' st.wait).corres, (hs' st.wait).dead, (hs' st.wait).depth, (hs' st.wait).up, (hs' st.wait).fill⟩
    · rcases hm with ⟨hw, _⟩ | ⟨hw, hc, xs, hx, hr⟩
      · exact absurd hw hw0
      · cases xs with
        | nil => exact absurd rfl hx
        | cons x xs =>
          injection hr with h6 h7
          have hdl := hs.depth
          have hlen := congrArg List.length h7
          rw [show xs.append cs = xs ++ cs from rfl, List.length_append] at hlen
          simp only [List.length_cons] at hdl hlen
          rw [List.length_cons, ← Nat.add_assoc]
          by_cases hlt : st.depth - 1 < st.wait
          · -- back out of the skipped directory
            have hxs : xs = [] := List.length_eq_zero_iff.1 (by omega)
            subst hxs
            have := ih _ wrote cs n (hs' 0) (.inl ⟨rfl, by rw [h7]; rfl⟩)
            dsimp only at h2
            rw [if_neg hw0, if_pos hlt] at h2
            rw [loop_again _ _ _ _ h2]
            rcases this with h | ⟨st', rs', cs', w', g1, g2, g3, g4, g5, g6, g7, g8⟩
            · exact .inl h
            · exact .inr ⟨st', rs', cs', w', g1, g2, g3, g4, g5, g6, g7, fun _ => g8 rfl⟩
          · have hxs : xs ≠ [] := by intro h; rw [h] at hlen; simp at hlen; omega
            have := ih _ wrote cs n (hs' st.wait) (.inr ⟨hw, hc, xs, hxs, h7⟩)
            dsimp only at h2
            rw [if_neg hw0, if_neg hlt] at h2
            rw [loop_again _ _ _ _ h2]
            exact this

end Dar
