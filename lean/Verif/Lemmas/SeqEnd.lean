import Verif.Lemmas.SeqDel
/- A whole sequential reading. -/
namespace Dar

set_option linter.unusedSectionVars false
variable [EscByte]

/-- the stack with something more at the end of the root directory -/
def atRoot (D : List Entry) : MemRd → MemRd
  | [] => []
  | [l] => [l ++ D]
  | l :: p :: up => l :: atRoot D (p :: up)

theorem atRoot_length (D : List Entry) (m : MemRd) : (atRoot D m).length = m.length := by
  induction m with
  | nil => rfl
  | cons l m ih =>
    cases m with
    | nil => rfl
    | cons p up => unfold atRoot; rw [List.length_cons, ih]; rfl

theorem memRead_atRoot_some (D : List Entry) (m m' : MemRd) (it : Item) (h : memRead m = (some it, m')) :
    memRead (atRoot D m) = (some it, atRoot D m') := by
  cases m with
  | nil => simp [memRead] at h
  | cons l up =>
    cases l with
    | nil =>
      cases up with
      | nil => simp [memRead] at h
      | cons p up =>
        simp only [memRead, Prod.mk.injEq, Option.some.injEq] at h
        obtain ⟨rfl, rfl⟩ := h
        cases up <;> rfl
    | cons e l =>
      cases e with
      | dir n st i ch =>
        simp only [memRead, Prod.mk.injEq, Option.some.injEq] at h
        obtain ⟨rfl, rfl⟩ := h
        cases up <;> rfl
      | node n =>
        simp only [memRead, Prod.mk.injEq, Option.some.injEq] at h
        obtain ⟨rfl, rfl⟩ := h
        cases up <;> rfl
      | mirage =>
        simp only [memRead, Prod.mk.injEq, Option.some.injEq] at h
        obtain ⟨rfl, rfl⟩ := h
        cases up <;> rfl
      | detruit =>
        simp only [memRead, Prod.mk.injEq, Option.some.injEq] at h
        obtain ⟨rfl, rfl⟩ := h
        cases up <;> rfl
      | ignored =>
        simp only [memRead, Prod.mk.injEq, Option.some.injEq] at h
        obtain ⟨rfl, rfl⟩ := h
        cases up <;> rfl

theorem memRead_none (m m' : MemRd) (h : memRead m = (none, m')) : m = [] ∨ m = [[]] := by
  cases m with
  | nil => exact .inl rfl
  | cons l up =>
    cases l with
    | nil =>
      cases up with
      | nil => exact .inr rfl
      | cons p up => simp [memRead] at h
    | cons e l => cases e <;> simp [memRead] at h

theorem memSkip_atRoot (D : List Entry) (m m' : MemRd) (h : memSkip (atRoot D m) = .ok m') : ∃ x p up, m = x :: p :: up ∧ m' = atRoot D (p :: up) := by
  cases m with
  | nil => simp [atRoot, memSkip] at h
  | cons l m =>
    cases m with
    | nil => simp [atRoot, memSkip] at h
    | cons p up =>
      have hlen := atRoot_length D (p :: up)
      refine ⟨l, p, up, rfl, ?_⟩
      simp only [atRoot] at h
      cases hh : atRoot D (p :: up) with
      | nil => rw [hh] at hlen; simp at hlen
      | cons q r =>
        rw [hh] at h
        simp only [memSkip] at h
        injection h with h
        exact h.symm

/-! ### the moves of the caller -/

theorem move_same (mv : Move) (st : EC) : ∃ p, mv.apply st = { st with pos := p } := by
  unfold Move.apply
  split
  · exact ⟨st.pos, rfl⟩
  · exact ⟨_, rfl⟩
  · exact ⟨st.pos, rfl⟩
  · exact ⟨_, rfl⟩

theorem move_sync {stars : Nat → Star} {env : SeqEnv} {fin : List (SeqT × Bytes)} (hf : Stops fin) {T : List Entry} {st : EC} {rs : List (List Entry)}
    {evs : List SeqEv} {wrote : List Nat} (h : Sync stars env fin T st rs evs wrote) (mv : Move) : Sync stars env fin T (mv.apply st) rs evs wrote := by
  have hseg : ∃ ms, evMarks stars wrote evs = .ok ms ∧ Lead (mv.apply st).place (ms ++ fin) ∧ Lead st.floor (ms ++ fin) := by
    obtain ⟨ms, h1, h2, h3⟩ := h.segs
    refine ⟨ms, h1, ?_, h3⟩
    cases mv with
    | stay => exact h2
    | back => exact h3
    | ahead n k =>
      unfold Move.apply
      cases hp : st.pos with
      | behind => exact h2
      | here s =>
        dsimp only
        have : st.place = s := by unfold EC.place; rw [hp]
        rw [this] at h2
        exact passMarks_lead n s _ (evMarks_stops stars fin hf evs wrote ms h1) h2
  obtain ⟨p, hp⟩ := move_same mv st
  rw [hp] at hseg ⊢
  exact ⟨h.status, hseg, h.corres, h.dead, h.depth, h.up, h.fill⟩

theorem evMarks_length (stars : Nat → Star) (evs : List SeqEv) (wrote : List Nat) (ms : List (SeqT × Bytes)) (h : evMarks stars wrote evs = .ok ms) :
    evs.length ≤ ms.length := by
  induction evs generalizing wrote ms with
  | nil => simp
  | cons ev evs ih =>
    unfold evMarks at h
    cases hm : ev.marks stars wrote with
    | error e => rw [hm] at h; exact absurd h (by rintro ⟨⟩)
    | ok x =>
      obtain ⟨m, w⟩ := x
      rw [hm] at h
      have h : (evMarks stars w evs).bind (fun ms => .ok (m ++ ms)) = .ok ms := h
      cases hm2 : evMarks stars w evs with
      | error e => rw [hm2] at h; exact absurd h (by rintro ⟨⟩)
      | ok y =>
        rw [hm2] at h
        have h : (Except.ok (m ++ y) : Res _) = .ok ms := h
        injection h with h
        subst h
        have h1 := ih w y hm2
        have h2 : 1 ≤ m.length := by
          cases ev with
          | saved e a =>
            simp only [SeqEv.marks] at hm
            cases hb : e.dumpInline stars wrote with
            | error e => rw [hb] at hm; exact absurd hm (by rintro ⟨⟩)
            | ok b => rw [hb] at hm; injection hm with hm; injection hm with h1 h2; rw [← h1]; simp
          | failed e a =>
            simp only [SeqEv.marks] at hm
            cases hb : e.dumpInline stars wrote with
            | error e => rw [hb] at hm; exact absurd hm (by rintro ⟨⟩)
            | ok b => rw [hb] at hm; injection hm with hm; injection hm with h1 h2; rw [← h1]; simp
          | eod a =>
            simp only [SeqEv.marks] at hm
            cases hb : eodInline with
            | error e => rw [hb] at hm; exact absurd hm (by rintro ⟨⟩)
            | ok b => rw [hb] at hm; injection hm with hm; injection hm with h1 h2; rw [← h1]; simp
        rw [List.length_append, List.length_cons]
        omega

theorem sync_fuel {stars : Nat → Star} {env : SeqEnv} {fin : List (SeqT × Bytes)} {T : List Entry} {st : EC} {rs : List (List Entry)}
    {evs : List SeqEv} {wrote : List Nat} (h : Sync stars env fin T st rs evs wrote) : evs.length ≤ st.marksLeft := by
  obtain ⟨ms, h1, ⟨pre, hp, h2⟩, h3⟩ := h.segs
  have h4 := evMarks_length stars evs wrote ms h1
  have h5 : st.marksLeft = st.place.2.length := by
    unfold EC.marksLeft EC.place
    cases st.pos <;> rfl
  rw [h5, h2]
  simp only [List.length_append]
  omega

/-! ### the end of the archive -/

theorem step_catalogue {stars : Nat → Star} {env : SeqEnv} {d : Bytes} {rest : List (SeqT × Bytes)} {T : List Entry} {st : EC} {wrote : List Nat}
    (h : Sync stars env ((.catalogue, d) :: rest) T st [[]] [] wrote) :
    EC.step env st = .ok (.again { st with status := .signature, pos := .here (d, rest), corres := [] }) := by
  obtain ⟨ms, h1, ⟨pre, hp, h2⟩, h3⟩ := h.segs
  unfold evMarks at h1
  injection h1 with h1
  subst h1
  rw [step_marks _ _ h.status]
  unfold EC.marksStep
  show (match skipSpec .file true [.catalogue] st.place.1 st.place.2 with
    | (true, s') => EC.entryAt env { st with status := .marks } s'
    | (false, s') => EC.noMore env { st with status := .marks } s') = _
  rw [h2]
  obtain ⟨d1, hd1⟩ := skip_catalogue st.place.1 d pre rest hp
  rw [List.nil_append, hd1]
  dsimp only
  unfold EC.noMore
  have hd : st.depth = 0 := by have := h.depth; simpa using this
  dsimp only
  rw [if_neg (by simp [hd])]
  simp [skipSpec]

/-- the directories of the stack as the caller sees them -/
def SeqEnv.view (env : SeqEnv) (m : MemRd) : MemRd := if env.isSigned then m.map dropEaFsa else m

theorem memRead_drop (m : MemRd) : ∃ m'' : MemRd, (memRead (m.map dropEaFsa)).2 = m''.map dropEaFsa := by
  cases m with
  | nil => exact ⟨[], rfl⟩
  | cons l up =>
    cases l with
    | nil =>
      cases up with
      | nil => exact ⟨[[]], by simp [dropEaFsa, memRead]⟩
      | cons p up => exact ⟨p :: up, by simp [dropEaFsa, memRead]⟩
    | cons e l =>
      cases e with
      | dir n st i ch => exact ⟨ch :: l :: up, by simp [dropEaFsa, memRead]⟩
      | node => exact ⟨l :: up, by simp [dropEaFsa, memRead]⟩
      | mirage => exact ⟨l :: up, by simp [dropEaFsa, memRead]⟩
      | detruit => exact ⟨l :: up, by simp [dropEaFsa, memRead]⟩
      | ignored => exact ⟨l :: up, by simp [dropEaFsa, memRead]⟩

theorem view_read (env : SeqEnv) (m : MemRd) : env.view (memRead (env.view m)).2 = (memRead (env.view m)).2 := by
  unfold SeqEnv.view
  split
  · obtain ⟨m'', h⟩ := memRead_drop m
    rw [h, List.map_map]
    congr 1
    funext l
    exact dropEaFsa_twice l
  · rfl

theorem view_skip (env : SeqEnv) (m m' : MemRd) (h : memSkip (env.view m) = .ok m') : ∃ m0, memSkip m = .ok m0 ∧ env.view m0 = m' := by
  unfold SeqEnv.view at h ⊢
  by_cases hs : env.isSigned = true
  · rw [if_pos hs] at h
    cases m with
    | nil => simp [memSkip] at h
    | cons l m =>
      cases m with
      | nil => simp [memSkip] at h
      | cons p up =>
        simp only [List.map_cons, memSkip] at h
        injection h with h
        exact ⟨p :: up, rfl, by rw [if_pos hs]; exact h⟩
  · rw [if_neg hs] at h
    exact ⟨m', h, by rw [if_neg hs]⟩

/-- `st` answers what the stack `m` answers -/
inductive Tells (stars : Nat → Star) (env : SeqEnv) (tree : List Entry) (fin : List (SeqT × Bytes)) : EC → MemRd → Prop
  | marks {st : EC} {rs evs wrote cs} (lv : LeavesIn stars false rs evs) (sync : Sync stars env fin (seenTree stars env.dalgo tree) st rs evs wrote)
      (mode : Mode st.wait cs rs) (first : st.hasRead = true ∨ (cs = [tree] ∧ st.wait = 0)) (new : st.wait = 0 ∨ st.status = .marks) :
      Tells stars env tree fin st (atRoot (deletionTree tree) (cs.map (seenTree stars env.dalgo)))
  | dels {st : EC} {t m0} (status : st.status = .detruits) (det : st.det = some (t, m0))
      (merge : copyDetruits st.built.root t = .ok (wholeTree stars env.dalgo tree)) : Tells stars env tree fin st (env.view m0)
  | mem {st : EC} {m} (status : st.status = .completed) (mem : st.mem = some m) (built : st.built = ⟨wholeTree stars env.dalgo tree, []⟩)
      (nothing : seenTree stars env.dalgo tree = []) : Tells stars env tree fin st m

/-- the catalogue in memory at the end of the reading -/
def EndsWith (stars : Nat → Star) (env : SeqEnv) (tree : List Entry) (st : EC) : Prop :=
  st.status = .completed ∧ st.built.root = wholeTree stars env.dalgo tree

theorem tells_dels {stars : Nat → Star} {env : SeqEnv} {tree : List Entry} {fin : List (SeqT × Bytes)} {st : EC} {t : List Entry} {m0 : MemRd} (n : Nat)
    (status : st.status = .detruits) (det : st.det = some (t, m0)) (merge : copyDetruits st.built.root t = .ok (wholeTree stars env.dalgo tree)) :
    ∃ a st', EC.loop env (n + 1) st = .ok (a, st') ∧ a = (memRead (env.view m0)).1 ∧
      (a ≠ none → Tells stars env tree fin st' (memRead (env.view m0)).2 ∧ st'.status = .detruits) ∧ (a = none → EndsWith stars env tree st') := by
  have hstep : EC.step env st = EC.detStep env st := by unfold EC.step; rw [status]
  unfold EC.loop
  rw [hstep]
  unfold EC.detStep
  rw [det]
  dsimp only
  rw [show (if env.isSigned = true then List.map dropEaFsa m0 else m0) = env.view m0 from rfl]
  have hview := view_read env m0
  generalize hr : memRead (env.view m0) = x at hview
  obtain ⟨a, m'⟩ := x
  dsimp only at hview ⊢
  cases a with
  | none =>
    dsimp only
    rw [merge]
    refine ⟨none, _, rfl, rfl, fun h => absurd rfl h, fun _ => ⟨rfl, rfl⟩⟩
  | some it =>
    refine ⟨some it, _, rfl, rfl, fun _ => ⟨?_, ?_⟩, fun h => by cases h⟩
    · have := Tells.dels (stars := stars) (env := env) (tree := tree) (fin := fin) (t := t) (m0 := m')
        (st := { st with det := some (t, m'), hasRead := st.hasRead || decide (st.status ≠ .completed) }) status rfl merge
      rw [hview] at this
      exact this
    · exact status

theorem tells_mem {stars : Nat → Star} {env : SeqEnv} {tree : List Entry} {fin : List (SeqT × Bytes)} {st : EC} {m : MemRd} (n : Nat)
    (status : st.status = .completed) (mem : st.mem = some m) (built : st.built = ⟨wholeTree stars env.dalgo tree, []⟩)
    (nothing : seenTree stars env.dalgo tree = []) :
    ∃ a st', EC.loop env (n + 1) st = .ok (a, st') ∧ a = (memRead m).1 ∧
      (a ≠ none → Tells stars env tree fin st' (memRead m).2 ∧ st'.status = .completed) ∧ (a = none → EndsWith stars env tree st') := by
  have hstep : EC.step env st = EC.memStep st := by unfold EC.step; rw [status]
  unfold EC.loop
  rw [hstep]
  unfold EC.memStep
  rw [mem]
  dsimp only
  generalize hr : memRead m = x
  obtain ⟨a, m'⟩ := x
  dsimp only
  cases a with
  | none => exact ⟨none, _, rfl, rfl, fun h => absurd rfl h, fun _ => ⟨status, by rw [built]; rfl⟩⟩
  | some it => exact ⟨some it, _, rfl, rfl, fun _ => ⟨.mem status rfl built nothing, status⟩, fun h => by cases h⟩

/-- the catalogue has been reached -/
theorem tells_end {stars fstars : Nat → Star} {env : SeqEnv} {tree : List Entry} {d : Bytes} {rest : List (SeqT × Bytes)} (hc : env.Complete stars fstars tree d rest)
    (hd : DistinctNames tree) {st : EC} {wrote : List Nat} (n : Nat)
    (hs : Sync stars env ((.catalogue, d) :: rest) (seenTree stars env.dalgo tree) st [[]] [] wrote)
    (first : st.hasRead = true ∨ seenTree stars env.dalgo tree = []) :
    ∃ a st', EC.loop env (n + 3) st = .ok (a, st') ∧ a = (memRead [deletionTree tree]).1 ∧
      (a ≠ none → Tells stars env tree ((.catalogue, d) :: rest) st' (memRead [deletionTree tree]).2 ∧ (st'.status = .detruits ∨ st'.status = .completed)) ∧
      (a = none → EndsWith stars env tree st') := by
  rw [loop_again env (n + 2) _ _ (step_catalogue hs)]
  have hroot : st.built.root = seenTree stars env.dalgo tree := by
    have h1 := hs.fill
    have h2 := hs.up
    have h3 : st.depth = 0 := by have := hs.depth; simpa using this
    rw [h3] at h2
    have h2 := List.length_eq_zero_iff.1 h2
    have : st.built = ⟨st.built.cur, []⟩ := by
      cases hb : st.built with
      | mk cur up => rw [hb] at h2; dsimp at h2; rw [h2]
    rw [this] at h1 ⊢
    simp only [fill, List.map_cons, seen_nil, List.headD_cons, List.append_nil, fillUp] at h1
    simpa [Built.root, Built.rootOf] using h1
  generalize hst1 : ({ st with status := .signature, pos := .here (d, rest), corres := [] } : EC) = st1
  have hb1 : st1.built = st.built := by rw [← hst1]
  have hh1 : st1.hasRead = st.hasRead := by rw [← hst1]
  have hstep : EC.step env st1 = EC.signatureStep env st1 := by unfold EC.step; rw [show st1.status = .signature by rw [← hst1]]
  have hsig : EC.signatureStep env st1 =
      (if st1.hasRead then .ok (.again { st1 with status := .detruits, det := some ((if env.isSigned && st1.hasRead then dropNonDetruits (Entry.keptList fstars env.dalgo tree) else reduceDirs (onlyDetruit (Entry.keptList fstars env.dalgo tree))), [if env.isSigned && st1.hasRead then dropNonDetruits (Entry.keptList fstars env.dalgo tree) else reduceDirs (onlyDetruit (Entry.keptList fstars env.dalgo tree))]) })
      else .ok (.again { st1 with status := .completed, built := ⟨Entry.keptList fstars env.dalgo tree, []⟩, mem := some [Entry.keptList fstars env.dalgo tree], det := none })) := by
    unfold EC.signatureStep
    have hp : st1.pos = .here (d, rest) := by rw [← hst1]
    have c1 : env.complain (!env.sameSig) = .ok () := by unfold SeqEnv.complain; rw [hc.sig]; rfl
    have c2 : env.complain (env.isSigned && st1.hasRead && !env.subset st1.built.root (Entry.keptList fstars env.dalgo tree)) = .ok () := by
      unfold SeqEnv.complain
      rw [if_neg]
      rw [hb1, hroot]
      intro h
      simp only [Bool.and_eq_true, Bool.not_eq_true'] at h
      rw [hc.sub h.1.1] at h
      exact absurd h.2 (by simp)
    dsimp only
    rw [hp]
    dsimp only
    rw [hc.cat]
    dsimp only
    rw [c1, c2]
    show (if _ then _ else _) = _
    rfl
  cases hr : st.hasRead with
  | true =>
    have hh : st1.hasRead = true := hh1.trans hr
    rw [if_pos hh] at hsig
    have hX : (if (env.isSigned && st1.hasRead) = true then dropNonDetruits (Entry.keptList fstars env.dalgo tree) else reduceDirs (onlyDetruit (Entry.keptList fstars env.dalgo tree))) =
        if env.isSigned = true then dropNonDetruits (Entry.keptList fstars env.dalgo tree) else reduceDirs (onlyDetruit (Entry.keptList fstars env.dalgo tree)) := by
      rw [hh, Bool.and_true]
    rw [hX] at hsig
    generalize hY : (if env.isSigned = true then dropNonDetruits (Entry.keptList fstars env.dalgo tree) else reduceDirs (onlyDetruit (Entry.keptList fstars env.dalgo tree))) = Y at hsig
    rw [loop_again env (n + 1) _ _ (hstep.trans hsig)]
    have hview : env.view [Y] = [deletionTree tree] := by
      rw [← hY]
      unfold SeqEnv.view
      by_cases hg : env.isSigned = true
      · rw [if_pos hg, if_pos hg, List.map_cons, List.map_nil, pruned_signed]
      · rw [if_neg hg, if_neg hg, pruned_unsigned]
    have hmerge : copyDetruits st1.built.root Y = .ok (wholeTree stars env.dalgo tree) := by
      rw [hb1, hroot, ← hY]
      by_cases hg : env.isSigned = true
      · rw [if_pos hg, ← copyDetruits_drop, pruned_signed]
        exact copy_whole_tree stars env.dalgo tree hd
      · rw [if_neg hg, pruned_unsigned]
        exact copy_whole_tree stars env.dalgo tree hd
    rw [← hview]
    obtain ⟨a, st', g1, g2, g3, g4⟩ := tells_dels (stars := stars) (env := env) (tree := tree) (fin := (.catalogue, d) :: rest)
      (st := { st1 with status := .detruits, det := some (Y, [Y]) }) n rfl rfl hmerge
    exact ⟨a, st', g1, g2, fun h => ⟨(g3 h).1, .inl (g3 h).2⟩, g4⟩
  | false =>
    have hno : seenTree stars env.dalgo tree = [] := by
      rcases first with h | h
      · rw [hr] at h; cases h
      · exact h
    rw [if_neg (by rw [hh1, hr]; simp)] at hsig
    rw [loop_again env (n + 1) _ _ (hstep.trans hsig)]
    obtain ⟨w1, w2⟩ := unseen_deletions stars fstars env.dalgo tree hno
    rw [w1]
    obtain ⟨a, st', g1, g2, g3, g4⟩ := tells_mem (stars := stars) (env := env) (tree := tree) (fin := (.catalogue, d) :: rest) (m := [deletionTree tree])
      (st := { st1 with status := .completed, built := ⟨deletionTree tree, []⟩, mem := some [deletionTree tree], det := none }) n rfl rfl (by rw [w2]) hno
    exact ⟨a, st', g1, g2, fun h => ⟨(g3 h).1, .inr (g3 h).2⟩, g4⟩

theorem bare_bare (it : Item) : it.bare.bare = it.bare := by
  cases it with
  | eod => rfl
  | entry e => cases e <;> rfl

/-- a call of `read` on a complete archive -/
theorem tells_read {stars fstars : Nat → Star} {env : SeqEnv} (hv : env.Fit) {tree : List Entry} {d : Bytes} {rest : List (SeqT × Bytes)}
    (hc : env.Complete stars fstars tree d rest) (hd : DistinctNames tree) {st : EC} {m : MemRd} (ht : Tells stars env tree ((.catalogue, d) :: rest) st m)
    (mv : Move) : ∃ a st', EC.read env (mv.apply st) = .ok (a, st') ∧ a.map Item.bare = (memRead m).1.map Item.bare ∧
      (a ≠ none → Tells stars env tree ((.catalogue, d) :: rest) st' (memRead m).2 ∧
        ((st'.status = .marks ∧ st'.wait = 0) ∨ st'.status = .detruits ∨ st'.status = .completed)) ∧ (a = none → EndsWith stars env tree st') := by
  obtain ⟨p, hp⟩ := move_same mv st
  have hstops : Stops ((SeqT.catalogue, d) :: rest) := by intro x hx; simp at hx; subst hx; exact .inr rfl
  unfold EC.read
  cases ht with
  | dels status det merge =>
    rename_i t m0
    rw [hp]
    obtain ⟨a, st', g1, g2, g3, g4⟩ := tells_dels (stars := stars) (env := env) (tree := tree) (fin := (.catalogue, d) :: rest) (st := { st with pos := p })
      (EC.marksLeft { st with pos := p } + 3) status det merge
    exact ⟨a, st', g1, by rw [g2], fun h => ⟨(g3 h).1, .inr (.inl (g3 h).2)⟩, g4⟩
  | mem status mem built nothing =>
    rw [hp]
    obtain ⟨a, st', g1, g2, g3, g4⟩ := tells_mem (stars := stars) (env := env) (tree := tree) (fin := (.catalogue, d) :: rest) (st := { st with pos := p })
      (EC.marksLeft { st with pos := p } + 3) status mem built nothing
    exact ⟨a, st', g1, by rw [g2], fun h => ⟨(g3 h).1, .inr (.inr (g3 h).2)⟩, g4⟩
  | marks lv sync mode first new =>
    rename_i rs evs wrote cs
    have sync' := move_sync hstops sync mv
    have hfuel := sync_fuel sync'
    have hwait : (mv.apply st).wait = st.wait := by rw [hp]
    have hhas : (mv.apply st).hasRead = st.hasRead := by rw [hp]
    obtain ⟨n, hn⟩ : ∃ n, (mv.apply st).marksLeft + 4 = (n + 3) + evs.length := ⟨(mv.apply st).marksLeft + 1 - evs.length, by omega⟩
    rw [hn]
    rcases loop_sim hv hstops (distinct_seen stars env.dalgo tree hd) lv (mv.apply st) wrote cs (n + 3) sync' (by rw [hwait]; exact mode) with
      ⟨it, m', h1, st', rs', evs', wrote', h2, h3, h4, h5, h6, h7, h8, _⟩ | ⟨st', rs', cs', wrote', h1, h2, h3, h4, h5, h6, _, _⟩
    · rw [memRead_atRoot_some _ _ _ _ h1, h2]
      refine ⟨_, _, rfl, by simp [bare_bare], fun _ => ⟨?_, .inl ⟨h8, h5⟩⟩, fun h => by cases h⟩
      rw [h6]
      exact .marks h3 h4 (.inl ⟨h5, rfl⟩) (.inl h7) (.inl h5)
    · have hrs := h3.2.2 rfl
      subst hrs
      have hcs' : cs' = [[]] := by
        rcases h4 with ⟨_, h⟩ | ⟨_, hc', xs, hx, hr⟩
        · exact h
        · exfalso
          have := congrArg List.length hr
          rw [List.length_append] at this
          have h1 := List.length_pos_iff.2 hc'
          have h2 := List.length_pos_iff.2 hx
          simp at this
          omega
      subst hcs'
      have hcs : cs.map (seenTree stars env.dalgo) = [[]] := by
        rw [show ([[]] : List (List Entry)).map (seenTree stars env.dalgo) = [[]] by simp [seen_nil]] at h5
        rcases memRead_none _ _ h5 with h | h
        · exfalso
          have : cs = [] := by simpa using h
          subst this
          rcases mode with ⟨_, h⟩ | ⟨_, h, _⟩
          · have := sync.depth
            rw [← h] at this
            simp at this
          · exact h rfl
        · exact h
      have hfirst : st'.hasRead = true ∨ seenTree stars env.dalgo tree = [] := by
        rw [h6, hhas]
        rcases first with h | ⟨h, _⟩
        · exact .inl h
        · right
          rw [h] at hcs
          simpa using hcs
      obtain ⟨a, st'', g1, g2, g3, g4⟩ := tells_end hc hd n h2 hfirst
      rw [h1, g1, hcs]
      refine ⟨a, st'', rfl, by rw [g2]; rfl, fun h => ⟨(g3 h).1, .inr (g3 h).2⟩, g4⟩

theorem tells_skip {stars : Nat → Star} {env : SeqEnv} {tree : List Entry} {fin : List (SeqT × Bytes)} {st : EC} {m m' : MemRd}
    (ht : Tells stars env tree fin st m) (hs : (st.status = .marks ∧ st.wait = 0) ∨ st.status = .detruits ∨ st.status = .completed)
    (hm : memSkip m = .ok m') : ∃ st', st.skip = .ok st' ∧ Tells stars env tree fin st' m' := by
  cases ht with
  | dels status det merge =>
    rename_i t m0
    obtain ⟨m1, h1, h2⟩ := view_skip env m0 m' hm
    refine ⟨{ st with det := some (t, m1) }, ?_, ?_⟩
    · unfold EC.skip
      rw [status, det]
      dsimp only
      rw [h1]
      rfl
    · rw [← h2]
      exact .dels status rfl merge
  | mem status mem built nothing =>
    refine ⟨{ st with mem := some m' }, ?_, ?_⟩
    · unfold EC.skip
      rw [status, mem]
      dsimp only
      rw [hm]
      rfl
    · exact .mem status rfl built nothing
  | marks lv sync mode first new =>
    rename_i rs evs wrote cs
    have hst := sync.status
    obtain ⟨hmk, hw⟩ : st.status = .marks ∧ st.wait = 0 := by
      rcases hs with h | h | h
      · exact h
      · rcases hst with g | g <;> rw [g] at h <;> cases h
      · rcases hst with g | g <;> rw [g] at h <;> cases h
    obtain ⟨x, q, up, g1, g2⟩ := memSkip_atRoot _ _ _ hm
    have hcs : cs = rs := by
      rcases mode with ⟨_, h⟩ | ⟨h, hc, _⟩
      · exact h
      · exact absurd (List.length_eq_zero_iff.1 (by omega)) hc
    subst hcs
    match cs, g1 with
    | a :: b :: cs2, g1 =>
      simp only [List.map_cons, List.cons.injEq] at g1
      obtain ⟨g3, g4, g5⟩ := g1
      refine ⟨{ st with wait := st.depth }, ?_, ?_⟩
      · unfold EC.skip; rw [hmk]
      · rw [g2, ← g4, ← g5]
        have hdep := sync.depth
        refine .marks (rs := a :: b :: cs2) (cs := b :: cs2) lv ⟨sync.status, sync.segs, sync.corres, sync.dead, sync.depth, sync.up, sync.fill⟩ (.inr ⟨?_, by simp, [a], by simp, rfl⟩) ?_ (.inr hmk)
        · simp at hdep ⊢; omega
        · rcases first with h | ⟨h, _⟩
          · exact .inl h
          · simp at h

end Dar
