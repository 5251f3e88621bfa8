import Verif.Lemmas.SliceCreate
import Mathlib.Data.List.Induction
/- C68: the files that exist are overwritten by a new archive only with permission. -/
namespace Dar

/-- **C68 (no overwriting).** When overwriting is not allowed, creating an archive changes no file that exists, at no time and whatever fails: neither the slices nor the hash files of another archive, nor
anything else.  (No file carries the internal name of the new archive, which is drawn at random.) -/
theorem C68_no_overwrite (w : SlWorld) (o : SlOpts) (hallow : o.allow = false) (slices : List Nat) (d0 : SDir) (hfresh : ∀ n b, d0.get n = some (.file b) → o.labelOf b ≠ some o.label) (n : Bytes) (f : SlEnt)
    (hn : d0.get n = some f) : (∀ p ∈ (createSliced w o slices (slStart d0)).1.hist, p.1.get n = some f) ∧ (∀ p ∈ (createSingle w o (slStart d0)).1.hist, p.1.get n = some f) := by
  have key : ∀ s, SlInv o d0 s → ∀ p ∈ s.hist, p.1.get n = some f := by
    intro s h p hp
    by_contra hx
    have := (h.2 p hp n (by rw [hn]; exact hx)).2 (by rw [hn]; exact Option.some_ne_none f)
    rw [hallow] at this
    cases this.1
  exact ⟨key _ (createSliced_tri w o slices hfresh).1, key _ (createSingle_tri w o).1⟩
/-- **C68 (permission).** By default (overwriting allowed, with a warning) a file that existed is changed or removed only after the user has agreed, either to the removal of the old slices or to the overwriting of that
slice (or of the slice it is the hash of). -/
theorem C68_agreed (w : SlWorld) (o : SlOpts) (hwarn : o.warn = true) (slices : List Nat) (d0 : SDir) (hfresh : ∀ n b, d0.get n = some (.file b) → o.labelOf b ≠ some o.label) (n : Bytes) (f : SlEnt)
    (hn : d0.get n = some f) : (∀ p ∈ (createSliced w o slices (slStart d0)).1.hist, p.1.get n = some f ∨ Agreed o n p.2) ∧ (∀ p ∈ (createSingle w o (slStart d0)).1.hist, p.1.get n = some f ∨ Agreed o n p.2) := by
  have key : ∀ s, SlInv o d0 s → ∀ p ∈ s.hist, p.1.get n = some f ∨ Agreed o n p.2 := by
    intro s h p hp
    by_cases hx : p.1.get n = some f
    · exact Or.inl hx
    · exact Or.inr (((h.2 p hp n (by rw [hn]; exact hx)).2 (by rw [hn]; exact Option.some_ne_none f)).2 hwarn)
  exact ⟨key _ (createSliced_tri w o slices hfresh).1, key _ (createSingle_tri w o).1⟩
/-- **C68 (scope).** Whatever the options are, only files named as slices of this archive, or as hash files of them, are ever created, changed or removed. -/
theorem C68_scope (w : SlWorld) (o : SlOpts) (slices : List Nat) (d0 : SDir) (hfresh : ∀ n b, d0.get n = some (.file b) → o.labelOf b ≠ some o.label) (n : Bytes) (hn : ¬ ArchiveFile o n) :
    (∀ p ∈ (createSliced w o slices (slStart d0)).1.hist, p.1.get n = d0.get n) ∧ (∀ p ∈ (createSingle w o (slStart d0)).1.hist, p.1.get n = d0.get n) := by
  have key : ∀ s, SlInv o d0 s → ∀ p ∈ s.hist, p.1.get n = d0.get n := by
    intro s h p hp
    by_contra hx
    exact hn (h.2 p hp n hx).1
  exact ⟨key _ (createSliced_tri w o slices hfresh).1, key _ (createSingle_tri w o).1⟩

/-! ### what is refused -/

theorem takeWhile_digits {d rest : Bytes} (hd : ∀ c ∈ d, 48 ≤ c ∧ c ≤ 57) : (d ++ 46 :: rest).takeWhile isDig = d ∧ (d ++ 46 :: rest).dropWhile isDig = 46 :: rest := by
  induction d with
  | nil => exact ⟨by simp [List.takeWhile, isDig], by simp [List.dropWhile, isDig]⟩
  | cons c d ih =>
    have hc : isDig c = true := (isDig_iff c).mpr (hd c List.mem_cons_self)
    have := ih fun x hx => hd x (List.mem_cons_of_mem _ hx)
    exact ⟨by rw [List.cons_append, List.takeWhile_cons, if_pos hc, this.1], by rw [List.cons_append, List.dropWhile_cons, if_pos hc, this.2]⟩
/-- the mask covers every slice and every hash file of the four kinds it knows -/
theorem sliceMask_of {base ext digits : Bytes} (h0 : digits ≠ []) (hd : ∀ c ∈ digits, 48 ≤ c ∧ c ≤ 57) {n : Bytes}
    (hn : n = base ++ [46] ++ digits ++ [46] ++ ext ∨ ∃ h ∈ maskHashes, n = base ++ [46] ++ digits ++ [46] ++ ext ++ [46] ++ h) : sliceMask base ext n = true := by
  have key : ∀ tail, (tail = ext ∨ ∃ h ∈ maskHashes, tail = ext ++ [46] ++ h) → n = base ++ [46] ++ (digits ++ 46 :: tail) → sliceMask base ext n = true := by
    intro tail ht hn
    unfold sliceMask
    rw [Bool.and_eq_true, List.isPrefixOf_iff_prefix]
    refine ⟨⟨_, hn.symm⟩, ?_⟩
    have : n.drop (base.length + 1) = digits ++ 46 :: tail := by
      rw [hn]
      have : base.length + 1 = (base ++ [46]).length := by simp
      rw [this, List.drop_left]
    rw [this]
    dsimp only
    rw [(takeWhile_digits hd).1, (takeWhile_digits hd).2, Bool.and_eq_true]
    refine ⟨by cases digits with
      | nil => exact absurd rfl h0
      | cons c d => rfl, ?_⟩
    rw [Bool.or_eq_true]
    rcases ht with ht | ⟨h, h1, h2⟩
    · left; rw [ht]; simp
    · right
      rw [List.any_eq_true]
      exact ⟨h, h1, by rw [h2]; simp⟩
  rcases hn with hn | ⟨h, h1, hn⟩
  · exact key ext (Or.inl rfl) (by rw [hn]; simp)
  · exact key (ext ++ [46] ++ h) (Or.inr ⟨h, h1, rfl⟩) (by rw [hn]; simp)
/-- **C68 (refused).** When overwriting is not allowed and there is a slice of an archive of the same name, whatever its number and its number of digits are, or the md5, sha1, sha512 or whirlpool file of such a slice, nothing is created. -/
theorem C68_refused (w : SlWorld) (o : SlOpts) (hallow : o.allow = false) (slices : List Nat) (d0 : SDir) (digits : Bytes) (h0 : digits ≠ []) (hd : ∀ c ∈ digits, 48 ≤ c ∧ c ≤ 57) (n : Bytes)
    (hn : n = o.base ++ [46] ++ digits ++ [46] ++ o.ext ∨ ∃ h ∈ maskHashes, n = o.base ++ [46] ++ digits ++ [46] ++ o.ext ++ [46] ++ h) (f : SlEnt) (hget : d0.get n = some f) :
    createSliced w o slices (slStart d0) = (slStart d0, .error .range) ∧ createSingle w o (slStart d0) = (slStart d0, .error .range) := by
  have hav : slAvoid w o (slStart d0) = (slStart d0, .error .range) := by
    unfold slAvoid
    dsimp only
    rw [if_neg ?_, if_pos (by rw [hallow]; rfl)]
    intro hx
    have hmem : n ∈ ((slStart d0).dir.map (·.1)).filter (sliceMask o.base o.ext) := List.mem_filter.mpr ⟨sdir_get_mem hget, sliceMask_of h0 hd hn⟩
    rw [List.isEmpty_iff.mp hx] at hmem
    cases hmem
  constructor
  · show SlM.bind (slAvoid w o) _ _ = _
    unfold SlM.bind; rw [hav]
  · show SlM.bind (slAvoid w o) _ _ = _
    unfold SlM.bind; rw [hav]

/-! ### what is in the slices -/

/-- partial correctness -/
def Post {α : Type} (s : SlSt) (m : SlM α) (Q : α → SDir → Prop) : Prop := ∀ a, (m s).2 = .ok a → Q a (m s).1.dir
theorem post_bind {α β : Type} {s : SlSt} {m : SlM α} {f : α → SlM β} {Q : α → SDir → Prop} {R : β → SDir → Prop} (h : Post s m Q) (hf : ∀ a s', Q a s'.dir → Post s' (f a) R) : Post s (SlM.bind m f) R := by
  intro b hb
  unfold SlM.bind at hb ⊢
  cases hm : m s with
  | mk s' r =>
    rw [hm] at hb
    cases r with
    | error e => cases hb
    | ok a =>
      have := h a (by rw [hm])
      rw [hm] at this
      exact hf a s' this b hb
theorem post_pure {α : Type} {s : SlSt} {a : α} {Q : α → SDir → Prop} (h : Q a s.dir) : Post s (SlM.pure a) Q := by intro b hb; cases hb; exact h
theorem post_fail {α : Type} {s : SlSt} {e : Err} {Q : α → SDir → Prop} : Post s (slFail (α := α) e) Q := by intro b hb; cases hb
theorem post_weak {α : Type} {s : SlSt} {m : SlM α} {Q R : α → SDir → Prop} (h : Post s m Q) (hq : ∀ a d, Q a d → R a d) : Post s m R := fun a ha => hq a _ (h a ha)
/-- only the names of `S` have changed -/
def SlSameBut (S : List Bytes) (d d' : SDir) : Prop := ∀ m, m ∉ S → d'.get m = d.get m
theorem SlSameBut.trans {S : List Bytes} {d d' d'' : SDir} (h : SlSameBut S d d') (h' : SlSameBut S d' d'') : SlSameBut S d d'' := fun m hm => (h' m hm).trans (h m hm)
theorem SlSameBut.refl (S : List Bytes) (d : SDir) : SlSameBut S d d := fun _ _ => rfl
theorem SlSameBut.mono {S S' : List Bytes} {d d' : SDir} (h : SlSameBut S d d') (hs : ∀ m ∈ S, m ∈ S') : SlSameBut S' d d' := fun m hm => h m fun hx => hm (hs m hx)
theorem slSameBut_put {S : List Bytes} {d : SDir} {n : Bytes} (hn : n ∈ S) (f : SlEnt) : SlSameBut S d (d.put n f) := by
  intro m hm
  rw [sdir_get_put, if_neg (by rintro rfl; exact hm hn)]
/-- the files of a slice -/
def filesOf (o : SlOpts) (n : Bytes) : List Bytes := match o.hash with
  | none => [n]
  | some h => [n, hashName n h]
theorem mem_filesOf (o : SlOpts) (n : Bytes) : n ∈ filesOf o n ∧ ∀ h, o.hash = some h → hashName n h ∈ filesOf o n := by
  unfold filesOf
  cases o.hash with
  | none => exact ⟨List.mem_cons_self, fun h hx => by cases hx⟩
  | some h => exact ⟨List.mem_cons_self, fun h hx => by cases hx; exact List.mem_cons_of_mem _ List.mem_cons_self⟩
theorem filesOf_mem {o : SlOpts} {n m : Bytes} (h : m ∈ filesOf o n) : m = n ∨ ∃ hs, o.hash = some hs ∧ m = hashName n hs := by
  unfold filesOf at h
  cases hh : o.hash with
  | none => rw [hh] at h; exact Or.inl (by simpa using h)
  | some hs =>
    rw [hh] at h
    rcases List.mem_cons.mp h with h | h
    · exact Or.inl h
    · exact Or.inr ⟨hs, rfl, by simpa using h⟩
/-- opening, excl or trunc -/
theorem osOpen_new {d : SDir} {n : Bytes} {fl : OpenFlag} (hfl : fl = .excl ∨ fl = .trunc) :
    ((osOpen d n fl).1 = d ∧ (osOpen d n fl).2 ≠ none) ∨ ((osOpen d n fl).1 = d.put n (.file []) ∧ (osOpen d n fl).2 = none) := by
  rcases hfl with rfl | rfl
  · unfold osOpen
    dsimp only
    cases d.get n with
    | none => exact Or.inr ⟨rfl, rfl⟩
    | some f => exact Or.inl ⟨rfl, by simp⟩
  · exact Or.inr ⟨rfl, rfl⟩
theorem slOpen_new {w : SlWorld} {s : SlSt} {n : Bytes} {fl : OpenFlag} (hfl : fl = .excl ∨ fl = .trunc) :
    Post s (slOpen w n fl) (fun r d => (d = s.dir ∨ d = s.dir.put n (.file [])) ∧ (r = none → d = s.dir.put n (.file []))) := by
  have key := osOpen_new (d := s.dir) (n := n) hfl
  intro a ha
  unfold slOpen at ha ⊢
  cases hf : w.forced s.t with
  | none =>
    rw [hf] at ha
    cases ha
    rcases key with ⟨h1, h2⟩ | ⟨h1, h2⟩
    · exact ⟨Or.inl h1, fun hx => absurd hx h2⟩
    · exact ⟨Or.inr h1, fun _ => h1⟩
  | some be =>
    obtain ⟨b, e⟩ := be
    rw [hf] at ha
    cases b with
    | false => cases ha; exact ⟨Or.inl rfl, fun hx => by cases hx⟩
    | true =>
      cases ha
      refine ⟨?_, fun hx => by cases hx⟩
      rcases key with ⟨h1, h2⟩ | ⟨h1, h2⟩
      · exact Or.inl h1
      · exact Or.inr h1
theorem hashName_ne (n h : Bytes) : hashName n h ≠ n := by
  intro hx
  have := congrArg List.length hx
  unfold hashName at this
  simp at this
/-- the file and its hash file: they are new and empty if it works; only they may have changed -/
theorem slOpenH_new {w : SlWorld} {o : SlOpts} {s : SlSt} {n : Bytes} {fl : OpenFlag} (hfl : fl = .excl ∨ fl = .trunc) :
    Post s (slOpenH w o n fl) (fun r d => SlSameBut (filesOf o n) s.dir d ∧ (d.get n = s.dir.get n ∨ d.get n = some (.file [])) ∧ (r = none → ∀ m ∈ filesOf o n, d.get m = some (.file []))) := by
  refine post_bind (slOpen_new hfl) ?_
  intro r s' hr
  have hsame : SlSameBut (filesOf o n) s.dir s'.dir := by
    rcases hr.1 with h | h <;> rw [h]
    · exact SlSameBut.refl _ _
    · exact slSameBut_put (mem_filesOf o n).1 _
  have hnn : s'.dir.get n = s.dir.get n ∨ s'.dir.get n = some (.file []) := by
    rcases hr.1 with h | h <;> rw [h]
    · exact Or.inl rfl
    · right; rw [sdir_get_put, if_pos rfl]
  cases r with
  | some e => exact post_pure ⟨hsame, hnn, fun hx => by cases hx⟩
  | none =>
    have hnew : s'.dir.get n = some (.file []) := by rw [hr.2 rfl, sdir_get_put, if_pos rfl]
    cases hh : o.hash with
    | none =>
      refine post_pure ⟨hsame, hnn, fun _ m hm => ?_⟩
      rcases filesOf_mem hm with rfl | ⟨hs, h1, _⟩
      · exact hnew
      · rw [hh] at h1; cases h1
    | some hs =>
      refine post_weak (slOpen_new hfl) ?_
      intro r2 d hd
      have hmem := (mem_filesOf o n).2 hs hh
      have hs2 : SlSameBut (filesOf o n) s'.dir d := by
        rcases hd.1 with h | h <;> rw [h]
        · exact SlSameBut.refl _ _
        · exact slSameBut_put hmem _
      have hn2 : d.get n = s'.dir.get n := by
        rcases hd.1 with h | h <;> rw [h]
        rw [sdir_get_put, if_neg (hashName_ne n hs).symm]
      refine ⟨hsame.trans hs2, by rw [hn2]; exact hnn, fun hx m hm => ?_⟩
      rcases filesOf_mem hm with rfl | ⟨hs', h1, rfl⟩
      · rw [hn2]; exact hnew
      · rw [hh] at h1; cases h1
        rw [hd.2 hx, sdir_get_put, if_pos rfl]
/-- the file `n` is not a slice of this archive -/
def NotOurs (o : SlOpts) (d : SDir) (n : Bytes) : Prop := ∀ b, d.get n = some (.file b) → o.labelOf b ≠ some o.label
theorem erase_post {w : SlWorld} {o : SlOpts} {s : SlSt} {n : Bytes} {α : Type} (f : Option OpenErr → SlM α) (Q : α → SDir → Prop)
    (hf : ∀ r s', SlSameBut (filesOf o n) s.dir s'.dir → (r = none → ∀ m ∈ filesOf o n, s'.dir.get m = some (.file [])) → Post s' (f r) Q) :
    Post s (SlM.bind (if o.warn then slAsk w (.overwrite n) else SlM.pure true) (fun go => if go then SlM.bind (slOpenH w o n .trunc) f else slFail .userAbort)) Q := by
  refine post_bind (Q := fun _ d => d = s.dir) ?_ ?_
  · split
    · intro a ha; cases ha; rfl
    · exact post_pure rfl
  · intro go s' hd
    split
    · refine post_bind (slOpenH_new (Or.inr rfl)) ?_
      intro r s2 hr
      rw [hd] at hr
      exact hf r s2 hr.1 hr.2.2
    · exact post_fail
theorem slOpenSlice_new {w : SlWorld} {o : SlOpts} {s : SlSt} {n : Bytes} (h0 : o.labelOf [] ≠ some o.label) (hn : NotOurs o s.dir n) :
    Post s (slOpenSlice w o n) (fun _ d => SlSameBut (filesOf o n) s.dir d ∧ ∀ m ∈ filesOf o n, d.get m = some (.file [])) := by
  refine post_bind (slOpenH_new (Or.inl rfl)) ?_
  intro r s' hr
  have key : Post s' (SlM.bind (slDoErase w o n) (fun e => slReopen w o n e)) (fun _ d => SlSameBut (filesOf o n) s.dir d ∧ ∀ m ∈ filesOf o n, d.get m = some (.file [])) := by
    have hno : NotOurs o s'.dir n := by
      intro b hb
      rcases hr.2.1 with hx | hx
      · exact hn b (by rw [← hx]; exact hb)
      · rw [hx] at hb; cases hb; exact h0
    refine post_bind (Q := fun e d => e = true ∧ d = s'.dir) ?_ ?_
    · refine post_bind (Q := fun _ d => d = s'.dir) ?_ ?_
      · intro a ha
        have hrd : (osOpen s'.dir n .rd).1 = s'.dir := by unfold osOpen; dsimp only; split <;> rfl
        unfold slOpen at ha ⊢
        cases hf : w.forced s'.t with
        | none => dsimp only; exact hrd
        | some be =>
          obtain ⟨b, e⟩ := be
          cases b
          · rfl
          · exact hrd
      · intro r2 s2 hd
        cases r2 with
        | some e =>
          cases e <;> first | exact post_fail | exact post_pure ⟨rfl, hd⟩
        | none =>
          intro a ha
          refine ⟨?_, hd⟩
          have ha' : (Except.ok (decide ((match s2.dir.get n with
            | some (.file b) => o.labelOf b
            | _ => none) ≠ some o.label)) : Res Bool) = .ok a := ha
          rw [hd] at ha'
          cases hg : s'.dir.get n with
          | none => rw [hg] at ha'; simp at ha'; exact ha'
          | some f =>
            cases f with
            | dangling => rw [hg] at ha'; simp at ha'; exact ha'
            | file b =>
              rw [hg] at ha'
              have hb := hno b hg
              rw [decide_eq_true hb] at ha'
              exact (Except.ok.inj ha').symm
    · rintro e s2 ⟨rfl, hd⟩
      unfold slReopen
      rw [if_pos rfl]
      split
      · exact post_fail
      · refine erase_post _ _ ?_
        intro r3 s3 h3 h4
        rw [hd] at h3
        cases r3 with
        | none => exact post_pure ⟨hr.1.trans h3, h4 rfl⟩
        | some e => cases e <;> exact post_fail
  cases r with
  | none => exact post_pure ⟨hr.1, hr.2.2 rfl⟩
  | some e =>
    cases e with
    | exist => exact key
    | other => exact key
    | absent => exact post_fail
    | access => exact post_fail
    | roFs => exact post_fail
    | owner => exact post_fail
theorem slOpenSingle_new {w : SlWorld} {o : SlOpts} {s : SlSt} {n : Bytes} :
    Post s (slOpenSingle w o n) (fun _ d => SlSameBut (filesOf o n) s.dir d ∧ ∀ m ∈ filesOf o n, d.get m = some (.file [])) := by
  refine post_bind (slOpenH_new (Or.inl rfl)) ?_
  intro r s' hr
  cases r with
  | none => exact post_pure ⟨hr.1, hr.2.2 rfl⟩
  | some e =>
    cases e with
    | exist =>
      dsimp only
      split
      · exact post_fail
      · refine erase_post _ _ ?_
        intro r3 s3 h3 h4
        cases r3 with
        | none => exact post_pure ⟨hr.1.trans h3, h4 rfl⟩
        | some e => cases e <;> exact post_fail
    | other => exact post_fail
    | absent => exact post_fail
    | access => exact post_fail
    | roFs => exact post_fail
    | owner => exact post_fail
theorem slWrite_post {w : SlWorld} {s : SlSt} {n c : Bytes} : Post s (slWrite w n c) (fun r d => r = true → d = s.dir.put n (.file (c ++ (s.dir.content n).drop c.length))) := by
  intro a ha
  unfold slWrite at ha ⊢
  split at ha
  · cases ha; intro hx; cases hx
  · next hf => rw [if_neg hf]; intro _; rfl
theorem slHeader_post {w : SlWorld} {o : SlOpts} {s : SlSt} {n : Bytes} {k : Nat} {u : Bool} (hf : ∀ m ∈ filesOf o n, s.dir.get m = some (.file [])) :
    Post s (slHeader w o n k u) (fun _ d => SlSameBut (filesOf o n) s.dir d ∧ d.get n = some (.file (o.header k)) ∧ ∀ h, o.hash = some h → d.get (hashName n h) = some (.file [])) := by
  refine post_bind slWrite_post ?_
  intro ok s' hd
  cases ok with
  | false =>
    cases u with
    | false => exact post_fail
    | true => exact post_bind (Q := fun _ _ => True) (fun _ _ => trivial) fun _ _ _ => post_fail
  | true =>
    have hd := hd rfl
    refine post_pure ⟨by rw [hd]; exact slSameBut_put (mem_filesOf o n).1 _, ?_, fun h hh => ?_⟩
    · have : s.dir.content n = [] := by unfold SDir.content; rw [hf n (mem_filesOf o n).1]
      rw [hd, sdir_get_put, if_pos rfl, this]
      simp
    · rw [hd, sdir_get_put, if_neg (hashName_ne n h)]
      exact hf _ ((mem_filesOf o n).2 h hh)
theorem slFill_post {w : SlWorld} {o : SlOpts} {s : SlSt} {n : Bytes} {k i : Nat} (hn : s.dir.get n = some (.file (o.header k))) (hh : ∀ h, o.hash = some h → s.dir.get (hashName n h) = some (.file [])) :
    Post s (slFill w o n k i) (fun _ d => SlSameBut (filesOf o n) s.dir d ∧ d.get n = some (.file (o.header k ++ o.data i)) ∧ ∀ h, o.hash = some h → d.get (hashName n h) = some (.file (o.hashText i))) := by
  refine post_bind slWrite_post ?_
  intro ok s' hd
  cases ok with
  | false => exact post_fail
  | true =>
    have hd := hd rfl
    have h1 : SlSameBut (filesOf o n) s.dir s'.dir := by rw [hd]; exact slSameBut_put (mem_filesOf o n).1 _
    have h2 : s'.dir.get n = some (.file (o.header k ++ o.data i)) := by
      have : s.dir.content n = o.header k := by unfold SDir.content; rw [hn]
      rw [hd, sdir_get_put, if_pos rfl, this]
      simp
    have h3 : ∀ h, o.hash = some h → s'.dir.get (hashName n h) = some (.file []) := by
      intro h hx
      rw [hd, sdir_get_put, if_neg (hashName_ne n h)]
      exact hh h hx
    rw [if_pos rfl]
    cases hs : o.hash with
    | none => exact post_pure ⟨h1, h2, fun h hx => by cases hx⟩
    | some h =>
      refine post_bind slWrite_post ?_
      intro ok s2 hd2
      cases ok with
      | false => exact post_fail
      | true =>
        have hd2 := hd2 rfl
        refine post_pure ⟨h1.trans (by rw [hd2]; exact slSameBut_put ((mem_filesOf o n).2 h hs) _), ?_, fun h' hx => ?_⟩
        · rw [hd2, sdir_get_put, if_neg (hashName_ne n h).symm]; exact h2
        · cases hx
          have : s'.dir.content (hashName n h) = [] := by unfold SDir.content; rw [h3 h hs]
          rw [hd2, sdir_get_put, if_pos rfl, this]
          simp
theorem slicePath_inj {base : Bytes} {md : Nat} {ext : Bytes} {n m : Nat} (h : slicePath base md ext n = slicePath base md ext m) : n = m :=
  (C57_roundtrip base md ext).2 n m (by rw [C57_name, C57_name, h])
theorem paddedText_digits (md n : Nat) : ∀ c ∈ paddedText md n, 48 ≤ c ∧ c ≤ 57 := by
  intro c hc
  rcases List.mem_append.1 hc with h | h
  · rw [(List.mem_replicate.1 h).2]; exact ⟨by decide, by decide⟩
  · exact decText_isDigit n c h
/-- a slice is not the hash file of another -/
theorem slicePath_ne_hash (base : Bytes) (md : Nat) (ext : Bytes) (n m : Nat) (h : Bytes) : slicePath base md ext n ≠ hashName (slicePath base md ext m) h := by
  intro he
  have e : base ++ [46] ++ (paddedText md n ++ 46 :: ext) = base ++ [46] ++ (paddedText md m ++ 46 :: (ext ++ [46] ++ h)) := by
    have : slicePath base md ext n = hashName (slicePath base md ext m) h := he
    unfold hashName slicePath at this
    simpa using this
  have e2 := List.append_cancel_left e
  have e3 := congrArg (List.dropWhile isDig) e2
  rw [(takeWhile_digits (paddedText_digits md n)).2, (takeWhile_digits (paddedText_digits md m)).2] at e3
  have := congrArg List.length e3
  simp at this
theorem filesOf_disjoint (o : SlOpts) {n m : Nat} (hnm : n ≠ m) : ∀ f ∈ filesOf o (slicePath o.base o.md o.ext n), f ∉ filesOf o (slicePath o.base o.md o.ext m) := by
  intro f h1 h2
  rcases filesOf_mem h1 with rfl | ⟨h, a1, rfl⟩
  · rcases filesOf_mem h2 with h | ⟨h, _, h3⟩
    · exact hnm (slicePath_inj h)
    · exact slicePath_ne_hash _ _ _ _ _ _ h3
  · rcases filesOf_mem h2 with h3 | ⟨h', b1, h3⟩
    · exact slicePath_ne_hash _ _ _ _ _ _ h3.symm
    · rw [a1] at b1; cases b1
      unfold hashName at h3
      exact hnm (slicePath_inj (List.append_cancel_right (List.append_cancel_right h3)))
/-- the slices written one after the other -/
theorem slSlices_post {w : SlWorld} {o : SlOpts} (h0 : o.labelOf [] ≠ some o.label) : ∀ (l : List Nat) (i : Nat) (s : SlSt), l.Nodup → (∀ k ∈ l, NotOurs o s.dir (slicePath o.base o.md o.ext k)) →
    Post s (slSlices w o l i) (fun _ d => (∀ m, (∀ k ∈ l, m ∉ filesOf o (slicePath o.base o.md o.ext k)) → d.get m = s.dir.get m) ∧
      ∀ j k, l[j]? = some k → d.get (slicePath o.base o.md o.ext k) = some (.file (o.header k ++ o.data (i + j))) ∧ ∀ h, o.hash = some h → d.get (hashName (slicePath o.base o.md o.ext k) h) = some (.file (o.hashText (i + j))))
  | [], i, s, _, _ => post_pure ⟨fun _ _ => rfl, fun j k hj => by simp at hj⟩
  | k :: l, i, s, hnd, hno => by
    rw [List.nodup_cons] at hnd
    unfold slSlices
    rw [C57_name]
    refine post_bind (slOpenSlice_new h0 (hno k List.mem_cons_self)) ?_
    rintro u s1 ⟨a1, a2⟩
    refine post_bind (slHeader_post a2) ?_
    rintro _ s2 ⟨b1, b2, b3⟩
    refine post_bind (slFill_post b2 b3) ?_
    rintro _ s3 ⟨c1, c2, c3⟩
    have hsame : SlSameBut (filesOf o (slicePath o.base o.md o.ext k)) s.dir s3.dir := (a1.trans b1).trans c1
    have hne : ∀ k' ∈ l, k ≠ k' := fun k' hk' he => hnd.1 (he ▸ hk')
    have hno3 : ∀ k' ∈ l, NotOurs o s3.dir (slicePath o.base o.md o.ext k') := by
      intro k' hk' b hb
      refine hno k' (List.mem_cons_of_mem _ hk') b ?_
      rw [← hsame _ (filesOf_disjoint o (hne k' hk').symm _ (mem_filesOf o _).1)]
      exact hb
    refine post_weak (slSlices_post h0 l (i + 1) s3 hnd.2 hno3) ?_
    rintro _ d ⟨e1, e2⟩
    refine ⟨fun m hm => ?_, fun j k' hj => ?_⟩
    · rw [e1 m fun k' hk' => hm k' (List.mem_cons_of_mem _ hk')]
      exact hsame m (hm k List.mem_cons_self)
    · cases j with
      | zero =>
        simp at hj
        subst hj
        have hfr : ∀ f ∈ filesOf o (slicePath o.base o.md o.ext k), d.get f = s3.dir.get f := fun f hf => e1 f fun k' hk' => filesOf_disjoint o (hne k' hk') f hf
        refine ⟨by rw [hfr _ (mem_filesOf o _).1]; exact c2, fun h hh => by rw [hfr _ ((mem_filesOf o _).2 h hh)]; exact c3 h hh⟩
      | succ j =>
        rw [List.getElem?_cons_succ] at hj
        have := e2 j k' hj
        rw [show i + (j + 1) = i + 1 + j by omega]
        exact this
theorem slRemoveAll_post {w : SlWorld} {o : SlOpts} : ∀ (l : List Bytes) (s : SlSt), (∀ n, NotOurs o s.dir n) → Post s (slRemoveAll w l) (fun _ d => ∀ n, NotOurs o d n)
  | [], s, h => post_pure h
  | n :: l, s, h => by
    refine post_bind (Q := fun _ d => ∀ n, NotOurs o d n) ?_ ?_
    · intro a ha
      unfold slUnlink at ha ⊢
      split
      · exact h
      · intro m b hb
        have hb : (s.dir.del n).get m = some (.file b) := hb
        rw [sdir_get_del] at hb
        by_cases hm : m = n
        · rw [if_pos hm] at hb; cases hb
        · rw [if_neg hm] at hb; exact h m b hb
    · intro _ s' h'
      exact slRemoveAll_post l s' h'
theorem slAvoid_post {w : SlWorld} {o : SlOpts} {s : SlSt} (h : ∀ n, NotOurs o s.dir n) : Post s (slAvoid w o) (fun _ d => ∀ n, NotOurs o d n) := by
  unfold slAvoid
  intro a ha
  dsimp only at ha ⊢
  by_cases h1 : ((s.dir.map (·.1)).filter (sliceMask o.base o.ext)).isEmpty = true
  · rw [if_pos h1] at ha ⊢; exact h
  · rw [if_neg h1] at ha ⊢
    by_cases h2 : (!o.allow) = true
    · rw [if_pos h2] at ha; cases ha
    · rw [if_neg h2] at ha ⊢
      by_cases h3 : o.warn = true
      · rw [if_pos h3] at ha ⊢
        have : Post s (SlM.bind (slAsk w .removeOld) (fun yes => if yes then slRemoveAll w ((s.dir.map (·.1)).filter (sliceMask o.base o.ext)) else SlM.pure ())) (fun _ d => ∀ n, NotOurs o d n) := by
          refine post_bind (Q := fun _ d => d = s.dir) (by intro a ha; cases ha; rfl) ?_
          intro yes s' hd
          rw [← hd] at h
          cases yes with
          | true => exact slRemoveAll_post _ _ h
          | false => exact post_pure h
        exact this a ha
      · rw [if_neg h3] at ha ⊢
        exact slRemoveAll_post _ _ h a ha
/-- **C68 (content).** An archive created without error is made of new files: whatever was there before, each slice holds its header and its data and nothing else, and each hash file its text. -/
theorem C68_content (w : SlWorld) (o : SlOpts) (h0 : o.labelOf [] ≠ some o.label) (slices : List Nat) (hnd : slices.Nodup) (d0 : SDir) (hfresh : ∀ n b, d0.get n = some (.file b) → o.labelOf b ≠ some o.label)
    (hok : (createSliced w o slices (slStart d0)).2 = .ok ()) (j k : Nat) (hj : slices[j]? = some k) : (createSliced w o slices (slStart d0)).1.dir.get (slicePath o.base o.md o.ext k) = some (.file (o.header k ++ o.data j)) ∧
      ∀ h, o.hash = some h → (createSliced w o slices (slStart d0)).1.dir.get (hashName (slicePath o.base o.md o.ext k) h) = some (.file (o.hashText j)) := by
  have : Post (slStart d0) (createSliced w o slices) (fun _ d => ∀ j k, slices[j]? = some k → d.get (slicePath o.base o.md o.ext k) = some (.file (o.header k ++ o.data j)) ∧
      ∀ h, o.hash = some h → d.get (hashName (slicePath o.base o.md o.ext k) h) = some (.file (o.hashText j))) := by
    refine post_bind (slAvoid_post hfresh) ?_
    intro _ s hs
    refine post_weak (slSlices_post h0 slices 0 s hnd fun k _ => hs _) ?_
    rintro _ d ⟨_, e⟩ j k hj
    have := e j k hj
    rwa [Nat.zero_add] at this
  exact this () hok j k hj
/-- and the same for an archive of a single slice -/
theorem C68_content_single (w : SlWorld) (o : SlOpts) (d0 : SDir) (hok : (createSingle w o (slStart d0)).2 = .ok ()) :
    (createSingle w o (slStart d0)).1.dir.get (slicePath o.base o.md o.ext 1) = some (.file (o.header 1 ++ o.data 0)) ∧
      ∀ h, o.hash = some h → (createSingle w o (slStart d0)).1.dir.get (hashName (slicePath o.base o.md o.ext 1) h) = some (.file (o.hashText 0)) := by
  have : Post (slStart d0) (createSingle w o) (fun _ d => d.get (slicePath o.base o.md o.ext 1) = some (.file (o.header 1 ++ o.data 0)) ∧
      ∀ h, o.hash = some h → d.get (hashName (slicePath o.base o.md o.ext 1) h) = some (.file (o.hashText 0))) := by
    refine post_bind (Q := fun _ _ => True) (fun _ _ => trivial) ?_
    intro _ s _
    rw [C57_name]
    refine post_bind slOpenSingle_new ?_
    rintro _ s1 ⟨_, a2⟩
    refine post_bind (slHeader_post a2) ?_
    rintro _ s2 ⟨b1, b2, b3⟩
    exact post_weak (slFill_post b2 b3) fun _ d hd => ⟨hd.2.1, hd.2.2⟩
  exact this () hok

/-! ### cases -/

/-- base "a", extension "d"; the internal name is the first byte, 7 for the new archive -/
def o68 (hash : Option Bytes) (allow warn : Bool) : SlOpts := ⟨[97], 0, [100], hash, allow, warn, [7], fun b => b.head?.map (fun c => [c]), fun k => [7, UInt8.ofNat k], fun i => [UInt8.ofNat i], fun i => [99, UInt8.ofNat i]⟩
/-- nothing fails, the user agrees -/
def w68 : SlWorld := ⟨fun _ => none, fun _ => true, fun _ => false, fun _ => []⟩
/-- a.1.d and a.2.d of an old archive, and a file of the user -/
def d68 : SDir := [([97, 46, 49, 46, 100], .file [5, 5, 5, 5, 5]), ([97, 46, 50, 46, 100], .file [5, 5]), ([98], .file [1])]
theorem d68_fresh (hash : Option Bytes) (allow warn : Bool) : ∀ n b, d68.get n = some (.file b) → (o68 hash allow warn).labelOf b ≠ some (o68 hash allow warn).label := by
  intro n b hb
  have h := hb
  unfold d68 at h
  rw [sdir_get_cons, sdir_get_cons, sdir_get_cons] at h
  split at h
  · cases h; show some [_] ≠ some [7]; decide
  · split at h
    · cases h; show some [_] ≠ some [7]; decide
    · split at h
      · cases h; show some [_] ≠ some [7]; decide
      · cases h
/-- refused; with overwriting allowed, the new archive is there; a user that refuses everything keeps the old one -/
example : (createSliced w68 (o68 none false true) [1, 2] (slStart d68)).2 = .error .range := by decide +kernel
example : (createSliced w68 (o68 none true true) [1, 2] (slStart d68)).2 = .ok () ∧ (createSliced w68 (o68 none true true) [1, 2] (slStart d68)).1.dir =
    [([97, 46, 50, 46, 100], .file [7, 2, 1]), ([97, 46, 49, 46, 100], .file [7, 1, 0]), ([98], .file [1])] := by decide +kernel
example : (createSliced { w68 with answer := fun _ => false } (o68 none true true) [1, 2] (slStart d68)).2 = .error .userAbort ∧ (createSliced { w68 with answer := fun _ => false } (o68 none true true) [1, 2] (slStart d68)).1.dir = d68 := by decide +kernel
/-- going back to a slice of the same archive is no overwriting -/
example : (createSliced w68 (o68 none false true) [1, 2, 1] (slStart [([98], .file [1])])).2 = .ok () := by decide +kernel
/-- **C68, counterexample: other hash files stay.** The hash files of the other kinds dar can make (sha3, blake2b, argon2) are not looked for: with overwriting not allowed an archive is created next to the sha3 file of a
slice of the old one; with overwriting allowed and agreed it is not removed. -/
theorem C68_other_hash : ∃ (w : SlWorld) (o o' : SlOpts) (d0 : SDir) (n : Bytes) (f : SlEnt), o.allow = false ∧ o'.allow = true ∧ o'.warn = true ∧ n = hashName (slicePath o.base o.md o.ext 2) [115, 104, 97, 51] ∧ d0.get n = some f ∧
    (createSliced w o [1] (slStart d0)).2 = .ok () ∧ (createSliced w o' [1] (slStart (d68 ++ d0))).2 = .ok () ∧ SlAsk.removeOld ∈ (createSliced w o' [1] (slStart (d68 ++ d0))).1.yes ∧
    (createSliced w o' [1] (slStart (d68 ++ d0))).1.dir.get n = some f :=
  ⟨w68, o68 none false true, o68 none true true, [([97, 46, 50, 46, 100, 46, 115, 104, 97, 51], .file [3])], [97, 46, 50, 46, 100, 46, 115, 104, 97, 51], .file [3], rfl, rfl, rfl, by decide +kernel, by decide +kernel, by decide +kernel,
    by decide +kernel, by decide +kernel, by decide +kernel⟩
/-- **C68, counterexample: an empty slice is left.** When the hash file of a slice exists without the slice and overwriting is not allowed, the archive is refused but an empty slice has been created, and the next try is refused
because of it. -/
theorem C68_empty_left : ∃ (w : SlWorld) (o : SlOpts) (d0 : SDir), o.allow = false ∧ (createSliced w o [1] (slStart d0)).2 = .error .range ∧ d0.get (slicePath o.base o.md o.ext 1) = none ∧
    (createSliced w o [1] (slStart d0)).1.dir.get (slicePath o.base o.md o.ext 1) = some (.file []) :=
  ⟨w68, o68 (some [115, 104, 97, 51]) false true, [([97, 46, 49, 46, 100, 46, 115, 104, 97, 51], .file [3])], rfl, by decide +kernel, by decide +kernel, by decide +kernel⟩
/-- **C68, counterexample: a link to nothing.** A symbolic link to nothing that has the name of a slice stops the program with an internal error, even if overwriting is allowed (when the user does not agree to its removal). -/
theorem C68_dangling : ∃ (w : SlWorld) (o : SlOpts) (d0 : SDir), o.allow = true ∧ (createSliced w o [1] (slStart d0)).2 = .error .bug :=
  ⟨{ w68 with answer := fun _ => false }, o68 none true true, [([97, 46, 49, 46, 100], .dangling)], rfl, by decide +kernel⟩

end Dar
