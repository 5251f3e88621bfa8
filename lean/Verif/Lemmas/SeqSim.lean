import Verif.Lemmas.SeqRead
/- The simulation: each call of `read` on the archive answers what a catalogue in memory answers. -/
namespace Dar

set_option linter.unusedSectionVars false
variable [EscByte]

/-- where the reading takes place -/
def EC.place (st : EC) : MarkStream := match st.pos with | .here s => s | .behind => st.floor

/-- `st` is at the point where `evs` remain in the archive, followed by `fin`; `rs` is what remains of the directories being read, `wrote` the hard linked
inodes read so far, `T` the whole tree -/
structure Sync (stars : Nat → Star) (env : SeqEnv) (fin : List (SeqT × Bytes)) (T : List Entry)
    (st : EC) (rs : List (List Entry)) (evs : List SeqEv) (wrote : List Nat) : Prop where
  status : st.status = .init ∨ st.status = .marks
  segs : ∃ ms, evMarks stars wrote evs = .ok ms ∧ Lead st.place (ms ++ fin) ∧ Lead st.floor (ms ++ fin)
  corres : st.corres = linkTable stars env.dalgo wrote
  dead : st.dead = []
  depth : st.depth + 1 = rs.length
  up : st.built.up.length = st.depth
  fill : fill st.built (rs.map (seenTree stars env.dalgo)) = T

theorem step_marks (env : SeqEnv) (st : EC) (h : st.status = .init ∨ st.status = .marks) :
    EC.step env st = EC.marksStep env { st with status := .marks } := by
  unfold EC.step
  rcases h with h | h
  · rw [h]
  · rw [h]
    show EC.marksStep env st = _
    rw [← h]

theorem marks_entry (env : SeqEnv) (st : EC) (b d : Bytes) (ms : List (SeqT × Bytes)) (it : Item) (c' : Corres)
    (hl : Lead st.place ((.file, b ++ d) :: ms)) (hd : st.dead = [])
    (hr : seqEntry env [] st.corres (b ++ d) = .ok (some (it, c'), d)) (hn : nextIsFailed env (d, ms) = .ok false) :
    EC.marksStep env st = EC.take env { st with floor := (b ++ d, ms), pos := .here (d, ms), corres := c' } it := by
  obtain ⟨pre, hp, he⟩ := hl
  unfold EC.marksStep
  show (match skipSpec .file true [.catalogue] st.place.1 st.place.2 with
    | (true, s') => EC.entryAt env st s'
    | (false, s') => EC.noMore env st s') = _
  rw [he, skip_file _ _ _ _ hp]
  dsimp only
  unfold EC.entryAt
  dsimp only
  rw [hd, hr]
  dsimp only
  rw [hn]
  rfl

theorem marks_failed (env : SeqEnv) (st : EC) (b d : Bytes) (ms : List (SeqT × Bytes)) (e : Entry) (c' : Corres)
    (hl : Lead st.place ((.file, b) :: (.failedBackup, d) :: ms)) (hd : st.dead = []) (he : ∀ n k, e ≠ .mirage n k)
    (hr : seqEntry env [] st.corres b = .ok (some (.entry e, c'), [])) :
    EC.marksStep env st = .ok (.again { st with floor := (b, (.failedBackup, d) :: ms), pos := .here (d, ms), corres := c' }) := by
  obtain ⟨pre, hp, heq⟩ := hl
  unfold EC.marksStep
  show (match skipSpec .file true [.catalogue] st.place.1 st.place.2 with
    | (true, s') => EC.entryAt env st s'
    | (false, s') => EC.noMore env st s') = _
  rw [heq, skip_file _ _ _ _ hp]
  dsimp only
  unfold EC.entryAt
  dsimp only
  rw [hd, hr]
  dsimp only
  have hn : nextIsFailed env ([], (.failedBackup, d) :: ms) = .ok true := by simp [nextIsFailed]
  rw [hn]
  show Except.bind (.ok true) _ = _
  dsimp only [Except.bind]
  rw [if_pos rfl]
  match e with
  | .mirage n k => exact absurd rfl (he n k)
  | .node _ => rfl
  | .dir _ _ _ _ => rfl
  | .detruit _ _ _ => rfl
  | .ignored _ => rfl

theorem evMarks_stops (stars : Nat → Star) (fin : List (SeqT × Bytes)) (hf : Stops fin) (evs : List SeqEv) (wrote : List Nat) (ms : List (SeqT × Bytes))
    (h : evMarks stars wrote evs = .ok ms) : Stops (ms ++ fin) := by
  cases evs with
  | nil =>
    unfold evMarks at h
    injection h with h
    subst h
    exact hf
  | cons ev evs =>
    have hh : ∃ d l, ms = (.file, d) :: l := by
      unfold evMarks at h
      cases hm : ev.marks stars wrote with
      | error e => rw [hm] at h; exact absurd h (by rintro ⟨⟩)
      | ok x =>
        obtain ⟨m, w⟩ := x
        rw [hm] at h
        have h : (evMarks stars w evs).bind (fun ms => .ok (m ++ ms)) = .ok ms := h
        cases hm2 : evMarks stars w evs with
        | error e => rw [hm2] at h; exact absurd h (by rintro ⟨⟩)
        | ok y =>
          rw [hm2] at h
          have h : (Except.ok (m ++ y) : Res _) = .ok ms := h
          injection h with h
          subst h
          have : ∃ d l, m = (.file, d) :: l := by
            cases ev with
            | saved e a =>
              simp only [SeqEv.marks] at hm
              cases hb : e.dumpInline stars wrote with
              | error e => rw [hb] at hm; exact absurd hm (by rintro ⟨⟩)
              | ok b => rw [hb] at hm; injection hm with hm; injection hm with h1 h2; exact ⟨_, _, h1.symm⟩
            | failed e a =>
              simp only [SeqEv.marks] at hm
              cases hb : e.dumpInline stars wrote with
              | error e => rw [hb] at hm; exact absurd hm (by rintro ⟨⟩)
              | ok b => rw [hb] at hm; injection hm with hm; injection hm with h1 h2; exact ⟨_, _, h1.symm⟩
            | eod a =>
              simp only [SeqEv.marks] at hm
              cases hb : eodInline with
              | error e => rw [hb] at hm; exact absurd hm (by rintro ⟨⟩)
              | ok b => rw [hb] at hm; injection hm with hm; injection hm with h1 h2; exact ⟨_, _, h1.symm⟩
          obtain ⟨d, l, rfl⟩ := this
          exact ⟨d, l ++ y, rfl⟩
    obtain ⟨d, l, rfl⟩ := hh
    intro m hm
    simp at hm
    subst hm
    exact .inl rfl

theorem after_free (a : SavedRest) (h : a.Ok) : FreeMarks a.marks := fun m hm => ⟨(h.1 m hm).1, (h.1 m hm).2.1⟩

/-- the first of the events is an entry saved -/
theorem sync_saved {stars : Nat → Star} {env : SeqEnv} (hv : env.Fit) {fin : List (SeqT × Bytes)} (hf : Stops fin) {T : List Entry} {st : EC}
    {rs : List (List Entry)} {e : Entry} {a : SavedRest} {evs : List SeqEv} {wrote : List Nat} (hok : e.InlineOk stars) (ha : a.Ok)
    (h : Sync stars env fin T st rs (.saved e a :: evs) wrote) :
    ∃ ms b, evMarks stars (wroteAfter stars wrote e) evs = .ok ms ∧
      EC.step env st = EC.take env { st with status := .marks, floor := (b ++ a.data, a.marks ++ (ms ++ fin)), pos := .here (a.data, a.marks ++ (ms ++ fin)), corres := linkTable stars env.dalgo (wroteAfter stars wrote e) }
        (.entry (e.inline stars env.dalgo)) := by
  obtain ⟨ms, h1, h2, h3⟩ := h.segs
  obtain ⟨b, hb, hr⟩ := entry_inline stars env.dalgo env.ver hv.ver wrote e hok
  unfold evMarks at h1
  have hm : SeqEv.marks stars wrote (.saved e a) = .ok ((.file, b ++ a.data) :: a.marks, wroteAfter stars wrote e) := by
    simp only [SeqEv.marks]; rw [hb]; rfl
  rw [hm] at h1
  have h1 : (evMarks stars (wroteAfter stars wrote e) evs).bind (fun ms => .ok (((.file, b ++ a.data) :: a.marks) ++ ms)) = .ok ms := h1
  cases h4 : evMarks stars (wroteAfter stars wrote e) evs with
  | error e => rw [h4] at h1; exact absurd h1 (by rintro ⟨⟩)
  | ok ms' =>
    rw [h4] at h1
    have h1 : (Except.ok (((.file, b ++ a.data) :: a.marks) ++ ms') : Res _) = .ok ms := h1
    injection h1 with h1
    subst h1
    refine ⟨ms', b, rfl, ?_⟩
    rw [step_marks _ _ h.status]
    refine marks_entry env { st with status := .marks } b a.data (a.marks ++ (ms' ++ fin)) _ _ ?_ h.dead ?_ ?_
    · simpa [EC.place] using h2
    · refine seqEntry_of env _ _ _ _ _ ?_
      dsimp only
      rw [h.corres, hv.fits]
      exact hr env.fuel hv.fuel a.data
    · exact nextFailed_no env _ _ _ a ha (evMarks_stops stars fin hf evs _ ms' h4) rfl rfl

/-- the first of the events is the end of a directory -/
theorem sync_eod {stars : Nat → Star} {env : SeqEnv} (hv : env.Fit) {fin : List (SeqT × Bytes)} (hf : Stops fin) {T : List Entry} {st : EC}
    {rs : List (List Entry)} {a : SavedRest} {evs : List SeqEv} {wrote : List Nat} (ha : a.Ok)
    (h : Sync stars env fin T st rs (.eod a :: evs) wrote) :
    ∃ ms b, evMarks stars wrote evs = .ok ms ∧
      EC.step env st = EC.take env { st with status := .marks, floor := (b ++ a.data, a.marks ++ (ms ++ fin)), pos := .here (a.data, a.marks ++ (ms ++ fin)), corres := linkTable stars env.dalgo wrote } .eod := by
  obtain ⟨ms, h1, h2, h3⟩ := h.segs
  obtain ⟨b, hb, hr⟩ := eodInline_reads env.dalgo env.ver (linkTable stars env.dalgo wrote)
  unfold evMarks at h1
  have hm : SeqEv.marks stars wrote (.eod a) = .ok ((.file, b ++ a.data) :: a.marks, wrote) := by
    simp only [SeqEv.marks]; rw [hb]; rfl
  rw [hm] at h1
  have h1 : (evMarks stars wrote evs).bind (fun ms => .ok (((.file, b ++ a.data) :: a.marks) ++ ms)) = .ok ms := h1
  cases h4 : evMarks stars wrote evs with
  | error e => rw [h4] at h1; exact absurd h1 (by rintro ⟨⟩)
  | ok ms' =>
    rw [h4] at h1
    have h1 : (Except.ok (((.file, b ++ a.data) :: a.marks) ++ ms') : Res _) = .ok ms := h1
    injection h1 with h1
    subst h1
    refine ⟨ms', b, rfl, ?_⟩
    rw [step_marks _ _ h.status]
    refine marks_entry env { st with status := .marks } b a.data (a.marks ++ (ms' ++ fin)) _ _ ?_ h.dead ?_ ?_
    · simpa [EC.place] using h2
    · refine seqEntry_of env _ _ _ _ _ ?_
      dsimp only
      rw [h.corres, hv.fits]
      exact hr env.fuel hv.fuel a.data
    · exact nextFailed_no env _ _ _ a ha (evMarks_stops stars fin hf evs _ ms' h4) rfl rfl

/-- the first of the events is an entry that could not be saved -/
theorem sync_failed {stars : Nat → Star} {env : SeqEnv} (hv : env.Fit) {fin : List (SeqT × Bytes)} {T : List Entry} {st : EC}
    {rs : List (List Entry)} {e : Entry} {a : SavedRest} {evs : List SeqEv} {wrote : List Nat} (hok : e.InlineOk stars) (hl : ∀ n k, e ≠ .mirage n k)
    (ha : a.Ok) (h : Sync stars env fin T st rs (.failed e a :: evs) wrote) :
    ∃ st', EC.step env st = .ok (.again st') ∧ Sync stars env fin T st' rs evs wrote ∧ st'.wait = st.wait ∧ st'.hasRead = st.hasRead ∧ st'.status = .marks ∧
      st'.det = st.det := by
  obtain ⟨ms, h1, h2, h3⟩ := h.segs
  obtain ⟨b, hb, hr⟩ := entry_inline stars env.dalgo env.ver hv.ver wrote e hok
  unfold evMarks at h1
  have hm : SeqEv.marks stars wrote (.failed e a) = .ok ((.file, b) :: (.failedBackup, a.data) :: a.marks, wrote) := by
    simp only [SeqEv.marks]; rw [hb]; rfl
  rw [hm] at h1
  have h1 : (evMarks stars wrote evs).bind (fun ms => .ok (((.file, b) :: (.failedBackup, a.data) :: a.marks) ++ ms)) = .ok ms := h1
  cases h4 : evMarks stars wrote evs with
  | error e => rw [h4] at h1; exact absurd h1 (by rintro ⟨⟩)
  | ok ms' =>
    rw [h4] at h1
    have h1 : (Except.ok (((.file, b) :: (.failedBackup, a.data) :: a.marks) ++ ms') : Res _) = .ok ms := h1
    injection h1 with h1
    subst h1
    have hwr : wroteAfter stars wrote e = wrote := by
      unfold wroteAfter
      cases e <;> first | rfl | exact absurd rfl (hl _ _)
    have hnl : ∀ n k, e.inline stars env.dalgo ≠ .mirage n k := by
      intro n k
      cases e <;> first | exact absurd rfl (hl _ _) | (unfold Entry.inline; intro hh; cases hh)
    refine ⟨{ st with status := .marks, floor := (b, (.failedBackup, a.data) :: (a.marks ++ (ms' ++ fin))), pos := .here (a.data, a.marks ++ (ms' ++ fin)), corres := linkTable stars env.dalgo wrote }, ?_, ?_⟩
    · rw [step_marks _ _ h.status]
      refine marks_failed env { st with status := .marks } b a.data (a.marks ++ (ms' ++ fin)) (e.inline stars env.dalgo) (linkTable stars env.dalgo wrote) ?_ h.dead hnl ?_
      · simpa [EC.place] using h2
      · refine seqEntry_of env _ _ _ _ _ ?_
        dsimp only
        rw [h.corres, hv.fits]
        have := hr env.fuel hv.fuel []
        rw [List.append_nil, hwr] at this
        exact this
    · refine ⟨?_, rfl, rfl, rfl, rfl⟩
      refine ⟨.inr rfl, ⟨ms', h4, ⟨a.marks, after_free a ha, rfl⟩, ⟨(.failedBackup, a.data) :: a.marks, ?_, rfl⟩⟩, rfl, h.dead, h.depth, h.up, h.fill⟩
      intro m hm
      rcases List.mem_cons.1 hm with rfl | hm
      · exact ⟨by simp, by simp⟩
      · exact after_free a ha m hm

theorem take_entry (env : SeqEnv) (st : EC) (e : Entry) (b : Built) (hb : st.built.add (.entry e) = .ok b) (hw : st.wait ≤ st.depth) :
    EC.take env st (.entry e) = .ok (if st.wait = 0 then .ret (some (.entry e)) { st with depth := if e.isFolder then st.depth + 1 else st.depth, built := b }
      else .again { st with depth := if e.isFolder then st.depth + 1 else st.depth, built := b }) := by
  unfold EC.take
  rw [if_neg (by simp)]
  rw [hb]
  show (if _ then _ else _) = _
  dsimp only
  by_cases h0 : st.wait = 0
  · rw [if_neg (by simpa using h0), if_pos h0]
    rfl
  · rw [if_pos h0, if_neg h0, if_neg]
    · rfl
    · show ¬ (if e.isFolder = true then st.depth + 1 else st.depth) < st.wait
      split <;> omega

theorem take_eod (env : SeqEnv) (st : EC) (b : Built) (hb : st.built.add .eod = .ok b) (hd : st.depth ≠ 0) :
    EC.take env st .eod = .ok (if st.wait = 0 then .ret (some .eod) { st with depth := st.depth - 1, built := b }
      else if st.depth - 1 < st.wait then .again { st with depth := st.depth - 1, built := b, wait := 0 }
      else .again { st with depth := st.depth - 1, built := b }) := by
  unfold EC.take
  rw [if_neg (by simpa using hd)]
  rw [hb]
  show (if _ then _ else _) = _
  dsimp only
  by_cases h0 : st.wait = 0
  · rw [if_neg (by simpa using h0), if_pos h0]
    simp
  · rw [if_pos h0, if_neg h0]
    by_cases h1 : st.depth - 1 < st.wait
    · rw [if_pos (by simpa using h1), if_pos h1]; simp
    · rw [if_neg (by simpa using h1), if_neg h1]; simp

end Dar
