import Verif.Spec.SliceCreate
import Verif.Props.SliceNames
/- Invariants of the creation of the files of an archive. -/
namespace Dar

/-! ### directories -/

theorem sdir_get_cons (e : Bytes × SlEnt) (d : SDir) (m : Bytes) : SDir.get (e :: d) m = if e.1 = m then some e.2 else SDir.get d m := by
  unfold SDir.get
  rw [List.find?_cons]
  by_cases h : e.1 = m
  · simp [h]
  · simp [h]
theorem sdir_get_del (d : SDir) (n m : Bytes) : (d.del n).get m = if m = n then none else d.get m := by
  induction d with
  | nil => by_cases h : m = n <;> simp [SDir.del, SDir.get, h]
  | cons e d ih =>
    unfold SDir.del at ih ⊢
    rw [List.filter_cons]
    by_cases h : e.1 = n
    · rw [if_neg (by simp [h]), ih, sdir_get_cons]
      by_cases hm : m = n
      · rw [if_pos hm, if_pos hm]
      · rw [if_neg hm, if_neg hm, if_neg (by rw [h]; exact fun h' => hm h'.symm)]
    · rw [if_pos (by simpa using h), sdir_get_cons, sdir_get_cons, ih]
      by_cases he : e.1 = m
      · rw [if_pos he, if_pos he, if_neg (by rw [← he]; exact h)]
      · rw [if_neg he, if_neg he]
theorem sdir_get_put (d : SDir) (n m : Bytes) (f : SlEnt) : (d.put n f).get m = if m = n then some f else d.get m := by
  unfold SDir.put
  rw [sdir_get_cons, sdir_get_del]
  by_cases h : m = n
  · rw [if_pos h.symm, if_pos h]
  · rw [if_neg (fun h' => h h'.symm), if_neg h, if_neg h]
theorem sdir_get_mem {d : SDir} {n : Bytes} {f : SlEnt} (h : d.get n = some f) : n ∈ d.map (·.1) := by
  unfold SDir.get at h
  cases hx : d.find? (fun e => e.1 = n) with
  | none => rw [hx] at h; cases h
  | some e =>
    have := List.find?_some hx
    simp at this
    exact List.mem_map.mpr ⟨e, List.mem_of_find?_eq_some hx, this⟩

/-! ### what may change -/

/-- the file `n` may be changed -/
def May (o : SlOpts) (d0 : SDir) (n : Bytes) (ys : List SlAsk) : Prop := ArchiveFile o n ∧ (d0.get n ≠ none → o.allow = true ∧ (o.warn = true → Agreed o n ys))
/-- only such files have changed -/
def GoodDir (o : SlOpts) (d0 d : SDir) (ys : List SlAsk) : Prop := ∀ n, d.get n ≠ d0.get n → May o d0 n ys
/-- now and at any time before -/
def SlInv (o : SlOpts) (d0 : SDir) (s : SlSt) : Prop := GoodDir o d0 s.dir s.yes ∧ ∀ p ∈ s.hist, GoodDir o d0 p.1 p.2

theorem May.mono {o : SlOpts} {d0 : SDir} {n : Bytes} {ys ys' : List SlAsk} (h : May o d0 n ys) (hy : ∀ q ∈ ys, q ∈ ys') : May o d0 n ys' := by
  refine ⟨h.1, fun h0 => ⟨(h.2 h0).1, fun hw => ?_⟩⟩
  rcases (h.2 h0).2 hw with h1 | ⟨name, h1, h2⟩
  · exact Or.inl (hy _ h1)
  · exact Or.inr ⟨name, hy _ h1, h2⟩
theorem upd_inv {o : SlOpts} {d0 d : SDir} {s : SlSt} (h : SlInv o d0 s) (hd : ∀ m, d.get m ≠ s.dir.get m → May o d0 m s.yes) : SlInv o d0 (s.upd d) := by
  have hg : GoodDir o d0 d s.yes := by
    intro n hn
    by_cases hx : d.get n = s.dir.get n
    · exact h.1 n (by rw [← hx]; exact hn)
    · exact hd n hx
  refine ⟨hg, ?_⟩
  intro p hp
  rcases List.mem_cons.mp hp with rfl | hp
  · exact hg
  · exact h.2 p hp
theorem put_inv {o : SlOpts} {d0 : SDir} {s : SlSt} (h : SlInv o d0 s) {n : Bytes} (hm : May o d0 n s.yes) (f : SlEnt) : SlInv o d0 (s.upd (s.dir.put n f)) := by
  refine upd_inv h fun m hx => ?_
  rw [sdir_get_put] at hx
  by_cases hmn : m = n
  · rw [hmn]; exact hm
  · rw [if_neg hmn] at hx; exact absurd rfl hx
theorem del_inv {o : SlOpts} {d0 : SDir} {s : SlSt} (h : SlInv o d0 s) {n : Bytes} (hm : May o d0 n s.yes) : SlInv o d0 (s.upd (s.dir.del n)) := by
  refine upd_inv h fun m hx => ?_
  rw [sdir_get_del] at hx
  by_cases hmn : m = n
  · rw [hmn]; exact hm
  · rw [if_neg hmn] at hx; exact absurd rfl hx
theorem keep_inv {o : SlOpts} {d0 : SDir} {s : SlSt} (h : SlInv o d0 s) : SlInv o d0 (s.upd s.dir) := upd_inv h fun _ hx => absurd rfl hx
/-- a name that is not there, or not as it was, may be given to a new file -/
theorem may_of_new {o : SlOpts} {d0 : SDir} {s : SlSt} (h : SlInv o d0 s) {n : Bytes} (hn : ArchiveFile o n) (hg : s.dir.get n = none) : May o d0 n s.yes := by
  by_cases h0 : d0.get n = none
  · exact ⟨hn, fun hx => absurd h0 hx⟩
  · exact h.1 n (by rw [hg]; exact fun hx => h0 hx.symm)

/-! ### operations -/

/-- an operation keeps the invariant, the answers yes do not vanish, and its result (if it has one) satisfies Q -/
def Tri {α : Type} (o : SlOpts) (d0 : SDir) (s : SlSt) (m : SlM α) (Q : α → SlSt → Prop) : Prop :=
  SlInv o d0 (m s).1 ∧ (∀ q ∈ s.yes, q ∈ (m s).1.yes) ∧ ∀ a, (m s).2 = .ok a → Q a (m s).1
theorem tri_pure {α : Type} {o : SlOpts} {d0 : SDir} {s : SlSt} {Q : α → SlSt → Prop} (h : SlInv o d0 s) {a : α} (hq : Q a s) : Tri o d0 s (SlM.pure a) Q :=
  ⟨h, fun _ hq => hq, fun b hb => by cases hb; exact hq⟩
theorem tri_fail {α : Type} {o : SlOpts} {d0 : SDir} {s : SlSt} {Q : α → SlSt → Prop} (h : SlInv o d0 s) (e : Err) : Tri o d0 s (slFail (α := α) e) Q :=
  ⟨h, fun _ hq => hq, fun b hb => by cases hb⟩
theorem tri_bind {α β : Type} {o : SlOpts} {d0 : SDir} {s : SlSt} {m : SlM α} {f : α → SlM β} {Q : α → SlSt → Prop} {R : β → SlSt → Prop} (h : Tri o d0 s m Q)
    (hf : ∀ a s', SlInv o d0 s' → (∀ q ∈ s.yes, q ∈ s'.yes) → Q a s' → Tri o d0 s' (f a) R) : Tri o d0 s (SlM.bind m f) R := by
  obtain ⟨h1, h2, h3⟩ := h
  unfold Tri SlM.bind
  cases hm : m s with
  | mk s' r =>
    rw [hm] at h1 h2 h3
    cases r with
    | error e => exact ⟨h1, h2, fun a ha => by cases ha⟩
    | ok a =>
      obtain ⟨g1, g2, g3⟩ := hf a s' h1 h2 (h3 a rfl)
      exact ⟨g1, fun q hq => g2 q (h2 q hq), g3⟩
theorem tri_weak {α : Type} {o : SlOpts} {d0 : SDir} {s : SlSt} {m : SlM α} {Q R : α → SlSt → Prop} (h : Tri o d0 s m Q) (hq : ∀ a s', SlInv o d0 s' → (∀ q ∈ s.yes, q ∈ s'.yes) → Q a s' → R a s') : Tri o d0 s m R :=
  ⟨h.1, h.2.1, fun a ha => hq a _ h.1 h.2.1 (h.2.2 a ha)⟩

/-- the system: with the right to do it -/
theorem osOpen_inv {o : SlOpts} {d0 : SDir} {s : SlSt} (h : SlInv o d0 s) {n : Bytes} {fl : OpenFlag} (he : fl = .excl → ArchiveFile o n) (hm : fl = .keep ∨ fl = .trunc → May o d0 n s.yes) :
    SlInv o d0 (s.upd (osOpen s.dir n fl).1) ∧ ((osOpen s.dir n fl).2 = none → fl ≠ .rd → May o d0 n s.yes) := by
  cases fl with
  | rd =>
    refine ⟨?_, fun _ hx => absurd rfl hx⟩
    have : (osOpen s.dir n .rd).1 = s.dir := by unfold osOpen; dsimp only; split <;> rfl
    rw [this]; exact keep_inv h
  | excl =>
    cases hg : s.dir.get n with
    | none =>
      have hmay := may_of_new h (he rfl) hg
      have : osOpen s.dir n .excl = (s.dir.put n (.file []), none) := by unfold osOpen; dsimp only; rw [hg]
      rw [this]
      exact ⟨put_inv h hmay _, fun _ _ => hmay⟩
    | some f =>
      have : osOpen s.dir n .excl = (s.dir, some .exist) := by unfold osOpen; dsimp only; rw [hg]
      rw [this]
      exact ⟨keep_inv h, fun hx => by cases hx⟩
  | keep =>
    have hmay := hm (Or.inl rfl)
    refine ⟨?_, fun _ _ => hmay⟩
    have : (osOpen s.dir n .keep).1 = s.dir ∨ (osOpen s.dir n .keep).1 = s.dir.put n (.file []) := by
      unfold osOpen; dsimp only; split
      · exact Or.inl rfl
      · exact Or.inr rfl
    rcases this with hx | hx <;> rw [hx]
    · exact keep_inv h
    · exact put_inv h hmay _
  | trunc => exact ⟨put_inv h (hm (Or.inr rfl)) _, fun _ _ => hm (Or.inr rfl)⟩
theorem slOpen_tri {w : SlWorld} {o : SlOpts} {d0 : SDir} {s : SlSt} (h : SlInv o d0 s) {n : Bytes} {fl : OpenFlag} (he : fl = .excl → ArchiveFile o n) (hm : fl = .keep ∨ fl = .trunc → May o d0 n s.yes) :
    Tri o d0 s (slOpen w n fl) (fun r s' => r = none → fl ≠ .rd → May o d0 n s'.yes) := by
  obtain ⟨g1, g2⟩ := osOpen_inv h he hm
  unfold Tri slOpen
  cases hf : w.forced s.t with
  | none => exact ⟨g1, fun q hq => hq, fun a ha hx => by cases ha; exact g2 hx⟩
  | some be =>
    obtain ⟨b, e⟩ := be
    cases b with
    | false => exact ⟨keep_inv h, fun q hq => hq, fun a ha hx => by cases ha; cases hx⟩
    | true =>
      refine ⟨g1, fun q hq => hq, fun a ha hx => ?_⟩
      cases ha
      cases hx
/-- the file and its hash file -/
theorem slOpenH_tri {w : SlWorld} {o : SlOpts} {d0 : SDir} {s : SlSt} (h : SlInv o d0 s) {n : Bytes} {fl : OpenFlag} (hfl : fl ≠ .rd) (he : fl = .excl → ArchiveFile o n ∧ ∀ h, o.hash = some h → ArchiveFile o (hashName n h))
    (hm : fl = .keep ∨ fl = .trunc → May o d0 n s.yes ∧ ∀ h, o.hash = some h → May o d0 (hashName n h) s.yes) :
    Tri o d0 s (slOpenH w o n fl) (fun r s' => r = none → May o d0 n s'.yes ∧ ∀ h, o.hash = some h → May o d0 (hashName n h) s'.yes) := by
  refine tri_bind (slOpen_tri h (fun hx => (he hx).1) (fun hx => (hm hx).1)) ?_
  intro r s' h' hy hr
  cases r with
  | some e => exact tri_pure h' (fun hx => by cases hx)
  | none =>
    cases hh : o.hash with
    | none => exact tri_pure h' (fun _ => ⟨hr rfl hfl, fun h hx => by cases hx⟩)
    | some hs =>
      have hn := hr rfl hfl
      refine tri_weak (slOpen_tri h' (fun hx => (he hx).2 hs hh) (fun hx => ((hm hx).2 hs hh).mono hy)) ?_
      intro r2 s2 h2 hy2 hr2 hx
      exact ⟨hn.mono hy2, fun h hx' => by cases hx'; exact hr2 hx hfl⟩
theorem slAsk_tri {w : SlWorld} {o : SlOpts} {d0 : SDir} {s : SlSt} (h : SlInv o d0 s) (q : SlAsk) : Tri o d0 s (slAsk w q) (fun r s' => r = true → q ∈ s'.yes) := by
  have hy : ∀ x ∈ s.yes, x ∈ (if w.answer s.t then q :: s.yes else s.yes) := by
    intro x hx
    split
    · exact List.mem_cons_of_mem _ hx
    · exact hx
  refine ⟨⟨fun n hn => (h.1 n hn).mono hy, h.2⟩, hy, ?_⟩
  intro a ha hx
  cases ha
  show q ∈ (if w.answer s.t then q :: s.yes else s.yes)
  rw [if_pos hx]; exact List.mem_cons_self
theorem slWrite_tri {w : SlWorld} {o : SlOpts} {d0 : SDir} {s : SlSt} (h : SlInv o d0 s) {n : Bytes} (hm : May o d0 n s.yes) (c : Bytes) : Tri o d0 s (slWrite w n c) (fun _ _ => True) := by
  unfold Tri slWrite
  split
  · exact ⟨put_inv h hm _, fun q hq => hq, fun _ _ => trivial⟩
  · exact ⟨put_inv h hm _, fun q hq => hq, fun _ _ => trivial⟩
theorem slUnlink_tri {w : SlWorld} {o : SlOpts} {d0 : SDir} {s : SlSt} (h : SlInv o d0 s) {n : Bytes} (hm : May o d0 n s.yes) : Tri o d0 s (slUnlink w n) (fun _ _ => True) := by
  unfold Tri slUnlink
  split
  · exact ⟨keep_inv h, fun q hq => hq, fun _ _ => trivial⟩
  · exact ⟨del_inv h hm, fun q hq => hq, fun _ _ => trivial⟩

/-! ### names -/

theorem isDig_iff (c : UInt8) : isDig c = true ↔ 48 ≤ c ∧ c ≤ 57 := by unfold isDig; simp
/-- what the mask covers -/
theorem sliceMask_file {o : SlOpts} {n : Bytes} (h : sliceMask o.base o.ext n = true) : ArchiveFile o n := by
  unfold sliceMask at h
  rw [Bool.and_eq_true, List.isPrefixOf_iff_prefix] at h
  obtain ⟨⟨r, hr⟩, h2⟩ := h
  have hd : n.drop (o.base.length + 1) = r := by
    rw [← hr]
    have : o.base.length + 1 = (o.base ++ [46]).length := by simp
    rw [this, List.drop_left]
  rw [hd] at h2
  simp only [Bool.and_eq_true, Bool.or_eq_true, decide_eq_true_eq, List.any_eq_true] at h2
  obtain ⟨g1, g2⟩ := h2
  have hsplit : r = r.takeWhile isDig ++ r.dropWhile isDig := (List.takeWhile_append_dropWhile).symm
  have hne : r.takeWhile isDig ≠ [] := by
    intro hx; rw [hx] at g1; simp at g1
  refine ⟨r.takeWhile isDig, hne, fun c hc => (isDig_iff c).mp (List.all_eq_true.mp List.all_takeWhile c hc), ?_⟩
  rcases g2 with g2 | ⟨hs, k1, k2⟩
  · left
    conv => lhs; rw [← hr, hsplit, g2]
    simp
  · right
    refine ⟨hs, Or.inl k1, ?_⟩
    conv => lhs; rw [← hr, hsplit, k2]
    simp

/-- the names given to slices, and to their hash files -/
theorem slicePath_file (o : SlOpts) (k : Nat) : ArchiveFile o (slicePath o.base o.md o.ext k) ∧ ∀ h, o.hash = some h → ArchiveFile o (hashName (slicePath o.base o.md o.ext k) h) := by
  obtain ⟨c1, digits, c2, h1, h2, h3, _, _⟩ := slice_looks o.base o.md o.ext k
  have hp : paddedText o.md k = digits := by
    unfold slicePath at h1
    have hlen := congrArg List.length h1
    simp at hlen
    have e : o.base ++ ([46] ++ paddedText o.md k ++ [46] ++ o.ext) = o.base ++ ([c1] ++ digits ++ [c2] ++ o.ext) := by simpa using h1
    have e2 := List.append_cancel_left e
    have e3 : paddedText o.md k ++ ([46] ++ o.ext) = digits ++ ([c2] ++ o.ext) := by
      have := congrArg List.tail e2
      simpa using this
    exact (List.append_inj e3 (by omega)).1
  have hd : ∀ c ∈ digits, 48 ≤ c ∧ c ≤ 57 := fun c hc => h3 c hc
  refine ⟨⟨digits, h2, hd, Or.inl (by unfold slicePath; rw [hp])⟩, fun h hh => ⟨digits, h2, hd, Or.inr ⟨h, Or.inr hh, by unfold hashName slicePath; rw [hp]⟩⟩⟩

/-! ### functions -/

/-- the right to write to a slice and to its hash file -/
def MayBoth (o : SlOpts) (d0 : SDir) (n : Bytes) (ys : List SlAsk) : Prop := May o d0 n ys ∧ ∀ h, o.hash = some h → May o d0 (hashName n h) ys
theorem MayBoth.mono {o : SlOpts} {d0 : SDir} {n : Bytes} {ys ys' : List SlAsk} (h : MayBoth o d0 n ys) (hy : ∀ q ∈ ys, q ∈ ys') : MayBoth o d0 n ys' := ⟨h.1.mono hy, fun hs hx => (h.2 hs hx).mono hy⟩
theorem slRemoveAll_tri {w : SlWorld} {o : SlOpts} {d0 : SDir} : ∀ (l : List Bytes) (s : SlSt), SlInv o d0 s → (∀ n ∈ l, May o d0 n s.yes) → Tri o d0 s (slRemoveAll w l) (fun _ _ => True)
  | [], s, h, _ => tri_pure h trivial
  | n :: l, s, h, hm => by
    refine tri_bind (slUnlink_tri h (hm n List.mem_cons_self)) ?_
    intro _ s' h' hy _
    exact slRemoveAll_tri l s' h' fun m hx => (hm m (List.mem_cons_of_mem _ hx)).mono hy
theorem slAvoid_tri {w : SlWorld} {o : SlOpts} {d0 : SDir} {s : SlSt} (h : SlInv o d0 s) : Tri o d0 s (slAvoid w o) (fun _ _ => True) := by
  unfold Tri slAvoid
  dsimp only
  by_cases h1 : ((s.dir.map (·.1)).filter (sliceMask o.base o.ext)).isEmpty = true
  · rw [if_pos h1]; exact ⟨h, fun q hq => hq, fun _ _ => trivial⟩
  · rw [if_neg h1]
    by_cases h2 : o.allow = true
    · rw [if_neg (by rw [h2]; decide)]
      have hfile : ∀ n ∈ (s.dir.map (·.1)).filter (sliceMask o.base o.ext), ArchiveFile o n := fun n hn => sliceMask_file (List.mem_filter.mp hn).2
      by_cases h3 : o.warn = true
      · rw [if_pos h3]
        refine tri_bind (β := Unit) (f := fun yes => if yes then slRemoveAll w ((s.dir.map (·.1)).filter (sliceMask o.base o.ext)) else SlM.pure ()) (R := fun _ _ => True) (slAsk_tri (w := w) h .removeOld) ?_
        intro yes s' h' hy hq
        cases yes with
        | false => exact tri_pure h' trivial
        | true => exact slRemoveAll_tri _ s' h' fun n hn => ⟨hfile n hn, fun _ => ⟨h2, fun _ => Or.inl (hq rfl)⟩⟩
      · rw [if_neg h3]
        exact slRemoveAll_tri _ s h fun n hn => ⟨hfile n hn, fun _ => ⟨h2, fun hw => absurd hw h3⟩⟩
    · rw [if_pos (by simpa using h2)]
      exact ⟨h, fun q hq => hq, fun _ hx => by cases hx⟩
/-- the end of the opening with erase -/
theorem erase_tri {w : SlWorld} {o : SlOpts} {d0 : SDir} {s : SlSt} (h : SlInv o d0 s) {k : Nat} (ha : o.allow = true) {α : Type} (f : Option OpenErr → SlM α) (Q : α → SlSt → Prop)
    (hf : ∀ r s', SlInv o d0 s' → (r = none → MayBoth o d0 (slicePath o.base o.md o.ext k) s'.yes) → Tri o d0 s' (f r) Q) :
    Tri o d0 s (SlM.bind (if o.warn then slAsk w (.overwrite (slicePath o.base o.md o.ext k)) else SlM.pure true) (fun go => if go then SlM.bind (slOpenH w o (slicePath o.base o.md o.ext k) .trunc) f else slFail .userAbort)) Q := by
  have key : ∀ s', SlInv o d0 s' → (o.warn = true → SlAsk.overwrite (slicePath o.base o.md o.ext k) ∈ s'.yes) → Tri o d0 s' (SlM.bind (slOpenH w o (slicePath o.base o.md o.ext k) .trunc) f) Q := by
    intro s' h' hq
    refine tri_bind (slOpenH_tri h' (by decide) (by intro hx; cases hx) fun _ => ⟨⟨(slicePath_file o k).1, fun _ => ⟨ha, fun hw => Or.inr ⟨_, hq hw, Or.inl rfl⟩⟩⟩,
      fun hs hx => ⟨(slicePath_file o k).2 hs hx, fun _ => ⟨ha, fun hw => Or.inr ⟨_, hq hw, Or.inr ⟨hs, hx, rfl⟩⟩⟩⟩⟩) ?_
    intro r s2 h2 hy2 hr
    exact hf r s2 h2 hr
  by_cases hw : o.warn = true
  · rw [if_pos hw]
    refine tri_bind (slAsk_tri h _) ?_
    intro go s' h' hy hq
    cases go with
    | false => exact tri_fail h' _
    | true => exact key s' h' fun _ => hq rfl
  · rw [if_neg hw]
    refine tri_bind (tri_pure (Q := fun go _ => go = true) h rfl) ?_
    intro go s' h' hy hq
    cases hq
    exact key s' h' fun hx => absurd hx hw
/-- a slice that could not be created: when it is not to be erased, it is one of this archive -/
theorem slDoErase_tri {w : SlWorld} {o : SlOpts} {d0 : SDir} {s : SlSt} (h : SlInv o d0 s) (hfresh : ∀ n b, d0.get n = some (.file b) → o.labelOf b ≠ some o.label) (n : Bytes) :
    Tri o d0 s (slDoErase w o n) (fun e s' => e = false → May o d0 n s'.yes) := by
  refine tri_bind (slOpen_tri (w := w) (n := n) (fl := .rd) h (by intro hx; cases hx) (by rintro (hx | hx) <;> cases hx)) ?_
  intro r s' h' hy _
  cases r with
  | some e =>
    cases e <;> first | exact tri_fail h' _ | exact tri_pure h' (fun hx => by cases hx)
  | none =>
    refine ⟨h', fun q hq => hq, ?_⟩
    intro a ha hx
    subst hx
    -- the label is the one of this archive
    have ha' : (Except.ok (decide ((match s'.dir.get n with
      | some (.file b) => o.labelOf b
      | _ => none) ≠ some o.label)) : Res Bool) = .ok false := ha
    cases hg : s'.dir.get n with
    | none => rw [hg] at ha'; simp at ha'
    | some f =>
      cases f with
      | dangling => rw [hg] at ha'; simp at ha'
      | file b =>
        rw [hg] at ha'
        simp at ha'
        refine h'.1 n fun heq => ?_
        rw [hg] at heq
        exact hfresh n b heq.symm ha'
theorem slReopen_tri {w : SlWorld} {o : SlOpts} {d0 : SDir} {s : SlSt} (h : SlInv o d0 s) {k : Nat} {e : Bool} (he : e = false → May o d0 (slicePath o.base o.md o.ext k) s.yes) :
    Tri o d0 s (slReopen w o (slicePath o.base o.md o.ext k) e) (fun _ s' => MayBoth o d0 (slicePath o.base o.md o.ext k) s'.yes) := by
  unfold slReopen
  cases e with
  | true =>
    rw [if_pos rfl]
    by_cases ha : o.allow = true
    · rw [if_neg (by rw [ha]; decide)]
      refine erase_tri h ha _ _ ?_
      intro r s' h' hr
      cases r with
      | none => exact tri_pure h' (hr rfl)
      | some e => cases e <;> exact tri_fail h' _
    · rw [if_pos (by simpa using ha)]
      exact tri_fail h _
  | false =>
    rw [if_neg (by decide)]
    cases hh : o.hash with
    | some hs => rw [if_pos (by rfl)]; exact tri_fail h _
    | none =>
      rw [if_neg (by decide)]
      refine tri_bind (slOpenH_tri h (by decide) (by intro hx; cases hx) fun _ => ⟨he rfl, fun hs hx => by rw [hh] at hx; cases hx⟩) ?_
      intro r s' h' hy hr
      cases r with
      | none => exact tri_pure h' (hr rfl)
      | some e => cases e <;> exact tri_fail h' _
theorem slOpenSlice_tri {w : SlWorld} {o : SlOpts} {d0 : SDir} {s : SlSt} (h : SlInv o d0 s) (hfresh : ∀ n b, d0.get n = some (.file b) → o.labelOf b ≠ some o.label) (k : Nat) :
    Tri o d0 s (slOpenSlice w o (slicePath o.base o.md o.ext k)) (fun _ s' => MayBoth o d0 (slicePath o.base o.md o.ext k) s'.yes) := by
  refine tri_bind (slOpenH_tri h (by decide) (fun _ => slicePath_file o k) (by rintro (hx | hx) <;> cases hx)) ?_
  intro r s' h' hy hr
  have key : Tri o d0 s' (SlM.bind (slDoErase w o (slicePath o.base o.md o.ext k)) (fun e => slReopen w o (slicePath o.base o.md o.ext k) e)) (fun _ s' => MayBoth o d0 (slicePath o.base o.md o.ext k) s'.yes) :=
    tri_bind (slDoErase_tri h' hfresh _) fun e s2 h2 hy2 he => slReopen_tri h2 he
  cases r with
  | none => exact tri_pure h' (hr rfl)
  | some e =>
    cases e with
    | exist => exact key
    | other => exact key
    | absent => exact tri_fail h' _
    | access => exact tri_fail h' _
    | roFs => exact tri_fail h' _
    | owner => exact tri_fail h' _
theorem slHeader_tri {w : SlWorld} {o : SlOpts} {d0 : SDir} {s : SlSt} (h : SlInv o d0 s) {n : Bytes} (hm : May o d0 n s.yes) (k : Nat) (u : Bool) : Tri o d0 s (slHeader w o n k u) (fun _ _ => True) := by
  refine tri_bind (slWrite_tri h hm _) ?_
  intro ok s' h' hy _
  cases ok with
  | true => exact tri_pure h' trivial
  | false =>
    cases u with
    | false => exact tri_fail h' _
    | true => exact tri_bind (slUnlink_tri h' (hm.mono hy)) fun _ s2 h2 _ _ => tri_fail h2 _
theorem slFill_tri {w : SlWorld} {o : SlOpts} {d0 : SDir} {s : SlSt} (h : SlInv o d0 s) {n : Bytes} (hm : MayBoth o d0 n s.yes) (k i : Nat) : Tri o d0 s (slFill w o n k i) (fun _ _ => True) := by
  refine tri_bind (slWrite_tri h hm.1 _) ?_
  intro ok s' h' hy _
  cases ok with
  | false => exact tri_fail h' _
  | true =>
    rw [if_pos rfl]
    cases hh : o.hash with
    | none => exact tri_pure h' trivial
    | some hs =>
      refine tri_bind (slWrite_tri h' ((hm.2 hs hh).mono hy) _) ?_
      intro ok s2 h2 _ _
      cases ok with
      | true => exact tri_pure h2 trivial
      | false => exact tri_fail h2 _
theorem slSlices_tri {w : SlWorld} {o : SlOpts} {d0 : SDir} (hfresh : ∀ n b, d0.get n = some (.file b) → o.labelOf b ≠ some o.label) :
    ∀ (l : List Nat) (i : Nat) (s : SlSt), SlInv o d0 s → Tri o d0 s (slSlices w o l i) (fun _ _ => True)
  | [], _, s, h => tri_pure h trivial
  | k :: l, i, s, h => by
    unfold slSlices
    rw [C57_name]
    refine tri_bind (slOpenSlice_tri h hfresh k) ?_
    intro u s1 h1 _ hm
    refine tri_bind (slHeader_tri h1 hm.1 k u) ?_
    intro _ s2 h2 hy2 _
    refine tri_bind (slFill_tri h2 (hm.mono hy2) k i) ?_
    intro _ s3 h3 _ _
    exact slSlices_tri hfresh l (i + 1) s3 h3
theorem slOpenSingle_tri {w : SlWorld} {o : SlOpts} {d0 : SDir} {s : SlSt} (h : SlInv o d0 s) (k : Nat) :
    Tri o d0 s (slOpenSingle w o (slicePath o.base o.md o.ext k)) (fun _ s' => MayBoth o d0 (slicePath o.base o.md o.ext k) s'.yes) := by
  refine tri_bind (slOpenH_tri h (by decide) (fun _ => slicePath_file o k) (by rintro (hx | hx) <;> cases hx)) ?_
  intro r s' h' hy hr
  cases r with
  | none => exact tri_pure h' (hr rfl)
  | some e =>
    cases e with
    | exist =>
      dsimp only
      by_cases ha : o.allow = true
      · rw [if_neg (by rw [ha]; decide)]
        refine erase_tri h' ha _ _ ?_
        intro r s' h' hr
        cases r with
        | none => exact tri_pure h' (hr rfl)
        | some e => cases e <;> exact tri_fail h' _
      · rw [if_pos (by simpa using ha)]
        exact tri_fail h' _
    | other => exact tri_fail h' _
    | absent => exact tri_fail h' _
    | access => exact tri_fail h' _
    | roFs => exact tri_fail h' _
    | owner => exact tri_fail h' _
theorem start_inv (o : SlOpts) (d0 : SDir) : SlInv o d0 (slStart d0) := by
  refine ⟨fun n hn => absurd rfl hn, ?_⟩
  intro p hp
  rcases List.mem_cons.mp hp with rfl | hp
  · exact fun n hn => absurd rfl hn
  · cases hp
theorem createSliced_tri (w : SlWorld) (o : SlOpts) (slices : List Nat) {d0 : SDir} (hfresh : ∀ n b, d0.get n = some (.file b) → o.labelOf b ≠ some o.label) :
    Tri o d0 (slStart d0) (createSliced w o slices) (fun _ _ => True) :=
  tri_bind (slAvoid_tri (start_inv o d0)) fun _ s h _ _ => slSlices_tri hfresh slices 0 s h
theorem createSingle_tri (w : SlWorld) (o : SlOpts) {d0 : SDir} : Tri o d0 (slStart d0) (createSingle w o) (fun _ _ => True) := by
  refine tri_bind (slAvoid_tri (start_inv o d0)) fun _ s h _ _ => ?_
  rw [C57_name]
  refine tri_bind (slOpenSingle_tri h 1) ?_
  intro _ s1 h1 _ hm
  refine tri_bind (slHeader_tri h1 hm.1 1 false) ?_
  intro _ s2 h2 hy2 _
  exact slFill_tri h2 (hm.mono hy2) 1 0

end Dar
