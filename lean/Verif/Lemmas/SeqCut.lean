import Verif.Lemmas.SeqEnd
/- The sequential reading of an interrupted archive. -/
namespace Dar

set_option linter.unusedSectionVars false
variable [EscByte]

/-- what remains of a stack of directories when the backup is interrupted -/
inductive CutStack : List (List Entry) → List (List Entry) → Prop
  | last {l' l up' up} (h : CutAt l' l) (empty : ∀ x ∈ up', x = []) (len : up'.length = up.length) : CutStack (l' :: up') (l :: up)
  | deeper {l up' up} (h : CutStack up' up) : CutStack (l :: up') (l :: up)

theorem cutStack_none (rs : List (List Entry)) (h : rs ≠ []) : ∃ rs', CutStack rs' rs ∧ rs' ≠ [] ∧ ∀ x ∈ rs', x = [] := by
  cases rs with
  | nil => exact absurd rfl h
  | cons l up =>
    refine ⟨[] :: List.replicate up.length [], .last (.here l) (fun x hx => (List.mem_replicate.1 hx).2) (by simp), by simp, ?_⟩
    intro x hx
    rcases List.mem_cons.1 hx with rfl | hx
    · rfl
    · exact (List.mem_replicate.1 hx).2

theorem cutAt_refl : ∀ l : List Entry, CutAt l l
  | [] => .here _
  | _ :: l => .later (cutAt_refl l)
theorem cutStack_cons {e : Entry} {l : List Entry} {up rs' : List (List Entry)} (h : CutStack rs' (l :: up)) :
    ∃ l' up', rs' = l' :: up' ∧ CutStack ((e :: l') :: up') ((e :: l) :: up) := by
  cases h with
  | last h empty len => exact ⟨_, _, rfl, .last (.later h) empty len⟩
  | deeper h => exact ⟨_, _, rfl, .deeper h⟩

theorem leaves_ne {stars : Nat → Star} {cut : Bool} {rs : List (List Entry)} {evs : List SeqEv} (h : LeavesIn stars cut rs evs) : rs ≠ [] := by
  induction h with
  | done => simp
  | stop _ ne _ => exact ne
  | failed _ _ _ _ _ ih => exact ih
  | hidden _ _ _ => simp
  | leaf _ _ _ _ _ => simp
  | dir _ _ _ _ => simp
  | eod _ _ _ => simp

/-- what a backup had left when it was interrupted is what the backup of a part of the tree leaves -/
theorem leaves_prefix {stars : Nat → Star} {cut : Bool} {rs : List (List Entry)} {evs : List SeqEv} (h : LeavesIn stars cut rs evs) :
    ∀ (p p' q : List SeqEv), evs = p ++ q → List.Forall₂ SameObject p p' → (∀ ev ∈ p', ev.after.Ok) → ∃ rs', CutStack rs' rs ∧ LeavesIn stars true rs' p' := by
  have stop : ∀ (rs : List (List Entry)), rs ≠ [] → ∃ rs', CutStack rs' rs ∧ LeavesIn stars true rs' [] := fun rs hr => by
    obtain ⟨rs', h1, h2, h3⟩ := cutStack_none rs hr
    exact ⟨rs', h1, .stop rfl h2 h3⟩
  induction h with
  | done =>
    intro p p' q hp hs _
    cases p with
    | nil => cases hs; exact stop _ (by simp)
    | cons x p => cases hp
  | stop _ ne _ =>
    intro p p' q hp hs _
    cases p with
    | nil => cases hs; exact stop _ ne
    | cons x p => cases hp
  | failed ok notLink notDir after next ih =>
    intro p p' q hp hs ha
    cases p with
    | nil => cases hs; exact stop _ (leaves_ne next)
    | cons x p =>
      injection hp with h1 h2
      subst h1
      cases hs with
      | cons hx hs =>
        cases hx
        obtain ⟨rs', g1, g2⟩ := ih p _ q h2 hs fun ev he => ha ev (List.mem_cons_of_mem _ he)
        exact ⟨rs', g1, .failed ok notLink notDir (ha _ List.mem_cons_self) g2⟩
  | hidden h next ih =>
    intro p p' q hp hs ha
    obtain ⟨rs', g1, g2⟩ := ih p p' q hp hs ha
    obtain ⟨l', up', rfl, g3⟩ := cutStack_cons g1
    exact ⟨_, g3, .hidden h g2⟩
  | leaf ok notDir after next ih =>
    intro p p' q hp hs ha
    cases p with
    | nil => cases hs; exact stop _ (by simp)
    | cons x p =>
      injection hp with h1 h2
      subst h1
      cases hs with
      | cons hx hs =>
        cases hx
        obtain ⟨rs', g1, g2⟩ := ih p _ q h2 hs fun ev he => ha ev (List.mem_cons_of_mem _ he)
        obtain ⟨l', up', rfl, g3⟩ := cutStack_cons g1
        exact ⟨_, g3, .leaf ok notDir (ha _ List.mem_cons_self) g2⟩
  | dir ok after next ih =>
    intro p p' q hp hs ha
    cases p with
    | nil => cases hs; exact stop _ (by simp)
    | cons x p =>
      injection hp with h1 h2
      subst h1
      cases hs with
      | cons hx hs =>
        cases hx
        obtain ⟨rs', g1, g2⟩ := ih p _ q h2 hs fun ev he => ha ev (List.mem_cons_of_mem _ he)
        cases g1 with
        | last hc empty len =>
          rename_i ch' up''
          cases up'' with
          | nil => simp at len
          | cons y up'' =>
            have hy := empty y List.mem_cons_self
            subst hy
            exact ⟨_, .last (.inside hc) (fun x hx => empty x (List.mem_cons_of_mem _ hx)) (by simpa using len), .dir ok (ha _ List.mem_cons_self) g2⟩
        | deeper hc =>
          obtain ⟨l', up', rfl, g3⟩ := cutStack_cons hc
          exact ⟨_, g3, .dir ok (ha _ List.mem_cons_self) g2⟩
  | eod after next ih =>
    intro p p' q hp hs ha
    cases p with
    | nil => cases hs; exact stop _ (by simp)
    | cons x p =>
      injection hp with h1 h2
      subst h1
      cases hs with
      | cons hx hs =>
        cases hx
        obtain ⟨rs', g1, g2⟩ := ih p _ q h2 hs fun ev he => ha ev (List.mem_cons_of_mem _ he)
        have : ∃ l' up', rs' = l' :: up' := by cases g1 <;> exact ⟨_, _, rfl⟩
        obtain ⟨l', up', rfl⟩ := this
        exact ⟨_, .deeper g1, .eod (ha _ List.mem_cons_self) g2⟩

/-! ### reading -/

theorem step_nothing {stars : Nat → Star} {env : SeqEnv} {T : List Entry} {st : EC} {rs : List (List Entry)} {wrote : List Nat}
    (h : Sync stars env [] T st rs [] wrote) : EC.step env st = EC.noMore env { st with status := .marks } ([], []) := by
  obtain ⟨ms, h1, ⟨pre, hp, h2⟩, h3⟩ := h.segs
  unfold evMarks at h1
  injection h1 with h1
  subst h1
  rw [step_marks _ _ h.status]
  unfold EC.marksStep
  show (match skipSpec .file true [.catalogue] st.place.1 st.place.2 with
    | (true, s') => EC.entryAt env { st with status := .marks } s'
    | (false, s') => EC.noMore env { st with status := .marks } s') = _
  rw [h2, List.append_nil, List.append_nil, skip_nothing _ _ hp]

/-- a stack where nothing remains -/
theorem memRead_empty (rs : MemRd) (h : ∀ l ∈ rs, l = []) (hne : rs ≠ []) :
    memRead rs = if rs.length = 1 then (none, [[]]) else (some .eod, rs.tail) := by
  cases rs with
  | nil => exact absurd rfl hne
  | cons l up =>
    have := h l (by simp)
    subst this
    cases up with
    | nil => rfl
    | cons p up => simp [memRead]

theorem fillUp_empty (cur : List Entry) (up : List OpenDir) (ls : List (List Entry)) (h : ∀ l ∈ ls, l = []) : fillUp cur up ls = Built.rootOf cur up := by
  induction up generalizing cur ls with
  | nil => cases ls <;> rfl
  | cons d up ih =>
    cases ls with
    | nil => unfold fillUp Built.rootOf; exact ih _ _ (by simp)
    | cons l ls =>
      unfold fillUp Built.rootOf
      rw [h l (by simp), List.append_nil]
      exact ih _ _ fun l hl => h l (List.mem_cons_of_mem _ hl)
theorem fill_empty (b : Built) (ls : List (List Entry)) (h : ∀ l ∈ ls, l = []) : fill b ls = b.root := by
  unfold fill Built.root
  cases ls with
  | nil => rw [List.headD_nil, List.append_nil]; exact fillUp_empty _ _ _ (by simp)
  | cons l ls =>
    rw [List.headD_cons, h l (by simp), List.append_nil]
    exact fillUp_empty _ _ _ fun l hl => h l (List.mem_cons_of_mem _ hl)

/-- `st` answers what the stack `m` answers, in an archive without catalogue -/
inductive TellsCut (stars : Nat → Star) (env : SeqEnv) (tree : List Entry) : EC → MemRd → Prop
  | marks {st : EC} {rs evs wrote} (lv : LeavesIn stars true rs evs) (sync : Sync stars env [] (seenTree stars env.dalgo tree) st rs evs wrote)
      (wait : st.wait = 0) : TellsCut stars env tree st (rs.map (seenTree stars env.dalgo))
  | eods {st : EC} {m : MemRd} (status : st.status = .eod) (empty : ∀ l ∈ m, l = []) (depth : st.depth + 1 = m.length)
      (place : ∃ wrote, Sync stars env [] (seenTree stars env.dalgo tree) { st with status := .marks, depth := 0, built := ⟨st.built.root, []⟩ } [[]] [] wrote) : TellsCut stars env tree st m

theorem noMore_end (env : SeqEnv) (st : EC) (h : st.depth = 0) : EC.noMore env st ([], []) =
    if env.lax then .ok (.ret none { st with status := .completed, pos := .here ([], []), corres := [] }) else .error .range := by
  unfold EC.noMore
  rw [if_neg (by simpa using h)]
  simp [skipSpec]

theorem cut_read {stars : Nat → Star} {env : SeqEnv} (hv : env.Fit) {tree : List Entry} (hd : DistinctNames tree) {st : EC} {m : MemRd}
    (ht : TellsCut stars env tree st m) (mv : Move) :
    (∃ it, (memRead m).1 = some it ∧ ∃ st', EC.read env (mv.apply st) = .ok (some it.bare, st') ∧ TellsCut stars env tree st' (memRead m).2) ∨
    ((memRead m).1 = none ∧ if env.lax then ∃ st', EC.read env (mv.apply st) = .ok (none, st') ∧ st'.status = .completed ∧ st'.built.root = seenTree stars env.dalgo tree
      else EC.read env (mv.apply st) = .error .range) := by
  obtain ⟨p, hp⟩ := move_same mv st
  have hstops : Stops [] := by intro x hx; cases hx
  unfold EC.read
  cases ht with
  | eods status empty depth place =>
    obtain ⟨wrote, hsync⟩ := place
    have hmne : m ≠ [] := by intro h; rw [h] at depth; simp at depth
    rw [memRead_empty m empty hmne]
    by_cases h0 : st.depth = 0
    · right
      rw [if_pos (by omega)]
      refine ⟨rfl, ?_⟩
      have hsync' := move_sync hstops hsync mv
      obtain ⟨p', hp'⟩ : ∃ p', mv.apply { st with status := .marks, depth := 0, built := ⟨st.built.root, []⟩ } = { st with status := .marks, depth := 0, built := ⟨st.built.root, []⟩, pos := p' } := move_same mv _
      have hpp : p' = p := by
        have h1 : (mv.apply st).pos = p := by rw [hp]
        have h2 : (mv.apply { st with status := .marks, depth := 0, built := ⟨st.built.root, []⟩ }).pos = p' := by rw [hp']
        rw [← h1, ← h2]
        unfold Move.apply
        cases mv with
        | stay => rfl
        | back => rfl
        | ahead n k => cases hpos : st.pos <;> simp [hpos]
      subst hpp
      have hstep : EC.step env (mv.apply st) = .ok (.again { st with status := .marks, pos := p' }) := by
        rw [hp]
        unfold EC.step
        dsimp only
        rw [status]
        dsimp only
        rw [if_neg (by simpa using h0)]
      have hstep2 : EC.step env { st with status := .marks, pos := p' } = EC.noMore env { st with status := .marks, pos := p' } ([], []) := by
        obtain ⟨ms, h1, ⟨pre, hpre, h2⟩, h3⟩ := hsync'.segs
        rw [hp'] at h2
        unfold evMarks at h1
        injection h1 with h1
        subst h1
        rw [step_marks _ _ (.inr rfl)]
        unfold EC.marksStep
        show (match skipSpec .file true [.catalogue] (EC.place { st with status := .marks, pos := p' }).1 (EC.place { st with status := .marks, pos := p' }).2 with
          | (true, s') => EC.entryAt env { st with status := .marks, pos := p' } s'
          | (false, s') => EC.noMore env { st with status := .marks, pos := p' } s') = _
        rw [show (EC.place { st with status := .marks, pos := p' }).2 = pre by simpa [EC.place] using h2, skip_nothing _ _ hpre]
      have hfill := hsync.fill
      have hroot : st.built.root = seenTree stars env.dalgo tree := by
        rw [show ([[]] : List (List Entry)).map (seenTree stars env.dalgo) = [[]] by simp [seen_nil]] at hfill
        simpa [fill, fillUp] using hfill
      rw [loop_again env _ _ _ hstep]
      unfold EC.loop
      rw [hstep2, noMore_end env _ (by exact h0)]
      cases env.lax with
      | true =>
        rw [if_pos rfl, if_pos rfl]
        exact ⟨_, rfl, rfl, hroot⟩
      | false =>
        rw [if_neg (by simp), if_neg (by simp)]
    · left
      rw [if_neg (by omega)]
      have hstep : EC.step env (mv.apply st) = .ok (.ret (some .eod) { st with pos := p, depth := st.depth - 1 }) := by
        rw [hp]
        unfold EC.step
        dsimp only
        rw [status]
        dsimp only
        rw [if_pos h0]
      refine ⟨.eod, rfl, { st with pos := p, depth := st.depth - 1, hasRead := (mv.apply st).hasRead || decide ((mv.apply st).status ≠ .completed) }, ?_, ?_⟩
      · unfold EC.loop
        rw [hstep, hp]
        rfl
      · refine .eods status (fun l hl => empty l (List.mem_of_mem_tail hl)) (by rw [List.length_tail]; show st.depth - 1 + 1 = _; omega) ⟨wrote, ?_⟩
        have hsync' := move_sync hstops hsync mv
        have hseg := hsync'.segs
        have hpos : (mv.apply { st with status := .marks, depth := 0, built := ⟨st.built.root, []⟩ }).place = EC.place { st with pos := p, depth := st.depth - 1 } := by
          have h1 : (mv.apply st).place = EC.place { st with pos := p, depth := st.depth - 1 } := by rw [hp]; rfl
          rw [← h1]
          unfold Move.apply
          cases mv with
          | stay => rfl
          | back => rfl
          | ahead n k => cases hpos : st.pos <;> simp [EC.place, hpos]
        rw [hpos] at hseg
        exact ⟨.inr rfl, by
          obtain ⟨ms, a1, a2, _⟩ := hseg
          obtain ⟨ms', b1, _, b3⟩ := hsync.segs
          have : ms = ms' := by rw [a1] at b1; injection b1
          subst this
          exact ⟨ms, a1, a2, b3⟩, hsync.corres, hsync.dead, hsync.depth, hsync.up, hsync.fill⟩
  | marks lv sync wait =>
    rename_i rs evs wrote
    have sync' := move_sync hstops sync mv
    have hfuel := sync_fuel sync'
    have hwait : (mv.apply st).wait = 0 := by rw [hp]; exact wait
    obtain ⟨n, hn⟩ : ∃ n, (mv.apply st).marksLeft + 4 = (n + 3) + evs.length := ⟨(mv.apply st).marksLeft + 1 - evs.length, by omega⟩
    rw [hn]
    rcases loop_sim hv hstops (distinct_seen stars env.dalgo tree hd) lv (mv.apply st) wrote rs (n + 3) sync' (.inl ⟨hwait, rfl⟩) with
      ⟨it, m', h1, st', rs', evs', wrote', h2, h3, h4, h5, h6, h7, h8, _⟩ | ⟨st', rs', cs', wrote', h1, h2, h3, h4, h5, h6, _, h7⟩
    · left
      rw [h1]
      refine ⟨it, rfl, st', h2, ?_⟩
      dsimp only
      rw [h6]
      exact .marks h3 h4 h5
    · have hw' := h7 hwait
      have hcs : cs' = rs' := by
        rcases h4 with ⟨_, h⟩ | ⟨h, hc, _⟩
        · exact h
        · exact absurd (List.length_eq_zero_iff.1 (by omega)) hc
      subst hcs
      have hempty : ∀ l ∈ cs'.map (seenTree stars env.dalgo), l = [] := by
        intro l hl
        obtain ⟨x, hx, rfl⟩ := List.mem_map.1 hl
        rw [h3.2.1 x hx, seen_nil]
      have hfill := h2.fill
      rw [fill_empty _ _ hempty] at hfill
      rw [h1, h5, memRead_empty _ hempty (by simpa using h3.1), List.length_map]
      have hdep := h2.depth
      have hstep := step_nothing h2
      by_cases h0 : st'.depth = 0
      · right
        rw [if_pos (by omega)]
        refine ⟨rfl, ?_⟩
        unfold EC.loop
        rw [hstep, noMore_end env _ (by exact h0)]
        cases env.lax with
        | true =>
          rw [if_pos rfl, if_pos rfl]
          exact ⟨_, rfl, rfl, hfill⟩
        | false =>
          rw [if_neg (by simp), if_neg (by simp)]
      · left
        rw [if_neg (by omega)]
        have hno : EC.noMore env { st' with status := .marks } ([], []) = .ok (.ret (some .eod) { st' with status := .eod, pos := .here ([], []), depth := st'.depth - 1 }) := by
          unfold EC.noMore
          dsimp only
          rw [if_pos h0]
        refine ⟨.eod, rfl, _, loop_ret env (n + 2) st' _ _ _ (hstep.trans hno) h2.status rfl, ?_⟩
        dsimp only
        refine .eods rfl (fun l hl => hempty l (List.mem_of_mem_tail hl)) (by rw [List.length_tail, List.length_map]; show st'.depth - 1 + 1 = _; omega) ⟨wrote', ?_⟩
        refine ⟨.inr rfl, ⟨[], rfl, ⟨[], (fun _ h => absurd h (by simp)), rfl⟩, ?_⟩, h2.corres, h2.dead, rfl, rfl, ?_⟩
        · obtain ⟨ms, a1, _, a3⟩ := h2.segs
          unfold evMarks at a1
          injection a1 with a1
          subst a1
          exact a3
        · show fill ⟨st'.built.root, []⟩ _ = _
          rw [fill_empty _ _ (by simp [seen_nil])]
          exact hfill

end Dar
