import Verif.Spec.Backup
import Verif.Lemmas.Backup
/- C33: what a differential backup records. -/
namespace Dar

theorem looseEqual_spec (a b : DateT) : ∃ r, a.looseEqual b = .ok r ∧ (r = true ↔ SameRounded a b) := by
  obtain ⟨v, u⟩ := a
  obtain ⟨w, t⟩ := b
  unfold DateT.looseEqual SameRounded DateT.instant DateT.inUnit
  cases u <;> cases t <;> simp [unitMax, TimeUnit.idx, TimeUnit.nanos, scaling, bind, Except.bind] <;> omega

theorem mtimeDiffers_spec (capa : TimeUnit) (hs : Nat) (a b : DateT) :
    ∃ r, mtimeDiffers capa hs a b = .ok r ∧ (r = true ↔ (hs ≠ 0 ∧ ¬ SameHours capa hs a b ∨ hs = 0 ∧ ¬ SameRounded a b)) := by
  unfold mtimeDiffers
  by_cases h : hs ≠ 0
  · rw [if_pos h]
    obtain ⟨r, h1, h2⟩ := C22_hourshift capa hs a b
    rw [h1]
    refine ⟨!r, rfl, ?_⟩
    have h2 : r = true ↔ SameHours capa hs a b := h2
    rw [← h2]
    cases r <;> simp [h]
  · rw [if_neg h]
    obtain ⟨r, h1, h2⟩ := looseEqual_spec a b
    rw [h1]
    refine ⟨!r, rfl, ?_⟩
    rw [← h2]
    cases r <;> simp at h ⊢ <;> simp [h]

theorem hasChanged_spec (o : BkOpts) (x b : Ino) (hk : b.kind = x.kind) :
    ∃ r, hasChangedSince o.capa o.hourshift o.what x b = .ok r ∧ (r = true ↔ Changed o x b) := by
  have inode : ∃ r, inodeChanged o.capa o.hourshift o.what x b = .ok r ∧ (r = true ↔
      (o.what ≠ .inodeType ∧ (o.hourshift ≠ 0 ∧ ¬ SameHours o.capa o.hourshift b.mtime x.mtime ∨ o.hourshift = 0 ∧ ¬ SameRounded b.mtime x.mtime)) ∨
      (o.what = .all ∧ (x.uid ≠ b.uid ∨ x.gid ≠ b.gid)) ∨ ((o.what = .all ∨ o.what = .ignoreOwner) ∧ x.perm ≠ b.perm)) := by
    obtain ⟨r, h1, h2⟩ := mtimeDiffers_spec o.capa o.hourshift b.mtime x.mtime
    unfold inodeChanged
    rw [← h2]
    cases hw : o.what with
    | inodeType =>
      rw [if_neg (by simp)]
      exact ⟨_, rfl, by simp⟩
    | mtime =>
      rw [if_pos (by simp), h1]
      exact ⟨_, rfl, by simp⟩
    | ignoreOwner =>
      rw [if_pos (by simp), h1]
      exact ⟨_, rfl, by simp⟩
    | all =>
      rw [if_pos (by simp), h1]
      exact ⟨_, rfl, by simp [or_assoc]⟩
  obtain ⟨r, h1, h2⟩ := inode
  unfold hasChangedSince Changed
  by_cases hf : x.isFile = true
  · rw [if_pos hf, if_pos (show b.isFile = true by unfold Ino.isFile at hf ⊢; rw [hk]; exact hf), h1]
    refine ⟨_, rfl, ?_⟩
    simp only [Bool.or_eq_true, h2, decide_eq_true_eq, hf, true_and, or_assoc]
  · rw [if_neg hf, h1]
    refine ⟨r, rfl, ?_⟩
    rw [h2]
    simp only [hf, Bool.false_eq_true, false_and, or_false]

/-- the reference used by the decision, as an option -/
def RefIs (o : BkOpts) (ref : BCat) (p : List Bytes) (x : Obj) (f : Option Obj) : Prop :=
  ∀ b, (if o.snapshot then none else f) = some b ↔ Reference o ref p x b

theorem decide_spec (o : BkOpts) (ref : BCat) (p : List Bytes) (x : Obj) (f : Option Obj) (hf : RefIs o ref p x f) (hx : x.ino.status = .saved) :
    ∃ x', decideEntry o x f = .ok x' ∧ ∀ d, d = (o.dirty p && x.ino.isFile && (decide (x'.ino.status = .saved) || decide (x'.ino.status = .delta))) →
      Recorded o ref p x (x'.setDirty d) := by
  unfold decideEntry
  dsimp only
  rw [if_neg (by simp [hx])]
  unfold RefIs at hf
  generalize (if o.snapshot = true then none else f) = g at hf ⊢
  have hdate : ∀ t : DateT, ∃ r, t.lt (dateBuildSec o.fixed) = .ok r ∧ (r = true ↔ t.instant < o.fixed * 1000000000) := by
    intro t
    obtain ⟨r, h1, h2⟩ := C22_lt t (dateBuildSec o.fixed)
    refine ⟨r, h1, ?_⟩
    rw [h2, show (dateBuildSec o.fixed).instant = o.fixed * 1000000000 from (C22_reduce ⟨o.fixed, .s⟩).1]
  have hnone : ∀ b, Reference o ref p x b → o.snapshot = false ∧ o.fixed = 0 := fun b h => ⟨h.1, h.2.1⟩
  have hct : ∀ a b : DateT, ∃ r, ctimeNotAfter a b = .ok r ∧ (r = true ↔ (a.instant ≤ b.instant ∨ SameRounded a b)) := by
    intro a b
    obtain ⟨r1, h1, h2⟩ := C22_le a b
    obtain ⟨r2, h3, h4⟩ := looseEqual_spec a b
    unfold ctimeNotAfter
    rw [h1, h3]
    exact ⟨_, rfl, by simp [h2, h4]⟩
  -- avoid_saving_inode
  have havoid : ∃ r, avoidInode o x g = .ok r ∧ (r = true ↔ Skipped o ref p x) := by
    unfold avoidInode Skipped
    cases hs : o.snapshot with
    | true => exact ⟨true, by simp, by simp⟩
    | false =>
      simp only [Bool.false_eq_true, if_false, false_or, true_and]
      by_cases h0 : o.fixed ≠ 0
      · rw [if_pos h0]
        obtain ⟨r, h1, h2⟩ := hdate x.ino.mtime
        refine ⟨r, h1, ?_⟩
        rw [h2]
        constructor
        · intro h; exact Or.inl ⟨h0, h⟩
        · rintro (h | ⟨b, h, -⟩)
          · exact h.2
          · exact absurd (hnone b h).2 h0
      · rw [if_neg h0]
        unfold unchangedSince
        cases g with
        | none =>
          refine ⟨false, rfl, ?_⟩
          simp only [Bool.false_eq_true, false_iff]
          rintro (h | ⟨b, h, -⟩)
          · exact h0 h.1
          · simpa using (hf b).2 h
        | some b =>
          have hb := (hf b).1 rfl
          obtain ⟨r, h1, h2⟩ := hasChanged_spec o x.ino b.ino hb.2.2.choose_spec.2.2
          dsimp only
          rw [h1]
          refine ⟨_, rfl, ?_⟩
          have : (¬ Changed o x.ino b.ino ∧ ¬ (b.ino.isFile = true ∧ b.ino.dirty = true)) ↔ (!r && (!b.ino.isFile || !b.ino.dirty)) = true := by
            rw [← h2]
            cases r <;> cases b.ino.isFile <;> cases b.ino.dirty <;> simp
          rw [← this]
          constructor
          · intro h; exact Or.inr ⟨b, hb, h⟩
          · rintro (h | ⟨b', h, h'⟩)
            · exact absurd h.1 h0
            · have := (hf b').2 h
              simp only [Option.some.injEq] at this
              subst this
              exact h'
  -- the other conditions
  have honly : ∃ r, onlyInode o x g = .ok r ∧ (r = true ↔ o.modData = .mtimeSize ∧ x.ino.isFile = true ∧
      ∃ b, Reference o ref p x b ∧ x.ino.size = b.ino.size ∧ SameHours o.capa o.hourshift x.ino.mtime b.ino.mtime) := by
    unfold onlyInode
    cases g with
    | none =>
      refine ⟨false, rfl, ?_⟩
      simp only [Bool.false_eq_true, false_iff]
      rintro ⟨-, -, b, h, -⟩
      simpa using (hf b).2 h
    | some b =>
      have hb := (hf b).1 rfl
      have hfile : b.ino.isFile = x.ino.isFile := by unfold Ino.isFile; rw [hb.2.2.choose_spec.2.2]
      have huniq : (∃ b', Reference o ref p x b' ∧ x.ino.size = b'.ino.size ∧ SameHours o.capa o.hourshift x.ino.mtime b'.ino.mtime) ↔
          (x.ino.size = b.ino.size ∧ SameHours o.capa o.hourshift x.ino.mtime b.ino.mtime) := by
        constructor
        · rintro ⟨b', h, h'⟩
          have := (hf b').2 h
          simp only [Option.some.injEq] at this
          subst this
          exact h'
        · intro h; exact ⟨b, hb, h⟩
      rw [huniq]
      dsimp only
      rw [hfile]
      by_cases hc : (x.ino.isFile && x.ino.isFile && decide (o.modData = .mtimeSize)) = true
      · rw [if_pos hc]
        simp only [Bool.and_self, Bool.and_eq_true, decide_eq_true_eq] at hc
        unfold sameDataAs
        by_cases hsz : x.ino.size ≠ b.ino.size
        · rw [if_pos hsz]; exact ⟨false, rfl, by simp [hsz]⟩
        · rw [if_neg hsz]
          obtain ⟨r, h1, h2⟩ := C22_hourshift o.capa o.hourshift x.ino.mtime b.ino.mtime
          refine ⟨r, h1, ?_⟩
          have h2 : r = true ↔ SameHours o.capa o.hourshift x.ino.mtime b.ino.mtime := h2
          rw [h2]
          simp only [ne_eq, not_not] at hsz
          simp [hc, hsz]
      · rw [if_neg hc]
        simp only [Bool.and_self, Bool.and_eq_true, decide_eq_true_eq] at hc
        exact ⟨false, rfl, by simp; tauto⟩
  have hdelta : ((o.deltaDiff && bothFiles x g && refSig g) = true ↔ o.deltaDiff = true ∧ x.ino.isFile = true ∧ ∃ b, Reference o ref p x b ∧ b.ino.deltaSig = true) := by
    cases g with
    | none =>
      simp only [bothFiles, refSig, Bool.and_false, Bool.false_eq_true, false_iff]
      rintro ⟨-, -, b, h, -⟩
      simpa using (hf b).2 h
    | some b =>
      have hb := (hf b).1 rfl
      have hfile : b.ino.isFile = x.ino.isFile := by unfold Ino.isFile; rw [hb.2.2.choose_spec.2.2]
      simp only [bothFiles, refSig, hfile, Bool.and_self, Bool.and_eq_true]
      constructor
      · rintro ⟨⟨h1, h2⟩, h3⟩; exact ⟨h1, h2, b, hb, h3⟩
      · rintro ⟨h1, h2, b', h, h3⟩
        have := (hf b').2 h
        simp only [Option.some.injEq] at this
        subst this
        exact ⟨⟨h1, h2⟩, h3⟩
  have hst : ∃ s, newStatus o x g = .ok s ∧ (s = .notSaved ↔ Skipped o ref p x) ∧ (s = .inodeOnly ↔ MetaOnly o ref p x) ∧
      (s = .delta ↔ DeltaOnly o ref p x) ∧ (s = .saved ↔ ¬ Skipped o ref p x ∧ ¬ MetaOnly o ref p x ∧ ¬ DeltaOnly o ref p x) := by
    obtain ⟨r, h1, h2⟩ := havoid
    obtain ⟨r', h3, h4⟩ := honly
    unfold newStatus
    rw [h1]
    by_cases hr : r = true
    · have hsk := h2.1 hr
      subst hr
      refine ⟨.notSaved, rfl, by simp [hsk], ?_, ?_, ?_⟩ <;> simp [MetaOnly, DeltaOnly, hsk]
    · have hsk : ¬ Skipped o ref p x := fun h => hr (h2.2 h)
      simp only [Bool.not_eq_true] at hr
      subst hr
      show ∃ s, (do let same ← onlyInode o x g; .ok (if same = true then SavedStatus.inodeOnly else _)) = Except.ok s ∧ _
      rw [h3]
      have hm : r' = true ↔ MetaOnly o ref p x := by rw [h4]; simp [MetaOnly, hsk]
      by_cases hr' : r' = true
      · have hmo := hm.1 hr'
        subst hr'
        refine ⟨.inodeOnly, rfl, ?_, ?_, ?_, ?_⟩ <;> simp [DeltaOnly, hsk, hmo]
      · have hmo : ¬ MetaOnly o ref p x := fun h => hr' (hm.2 h)
        simp only [Bool.not_eq_true] at hr'
        subst hr'
        have hd : (o.deltaDiff && bothFiles x g && refSig g) = true ↔ DeltaOnly o ref p x := by rw [hdelta]; simp [DeltaOnly, hsk, hmo]
        by_cases hdd : (o.deltaDiff && bothFiles x g && refSig g) = true
        · refine ⟨.delta, ?_, ?_⟩
          · simp only [bind, Except.bind, hdd, if_true, Bool.false_eq_true, if_false]
          · simp [hsk, hmo, hd.1 hdd]
        · have hnd : ¬ DeltaOnly o ref p x := fun h => hdd (hd.2 h)
          refine ⟨.saved, ?_, ?_⟩
          · simp only [bind, Except.bind, hdd, Bool.false_eq_true, if_false]
          · simp [hsk, hmo, hnd]
  have hattr : ∀ (c : Prop) [Decidable c] (had : Obj → Prop) [DecidablePred had] (r : Res Bool),
      r = (if o.snapshot then .ok true else if o.fixed ≠ 0 then (if True then x.ino.ctime.lt (dateBuildSec o.fixed) else .ok false)
        else match g with | none => .ok false | some f => if had f then ctimeNotAfter x.ino.ctime f.ino.ctime else .ok false) →
      ∃ b, r = .ok b ∧ (b = true ↔ AttrSkipped o ref p x had) := by
    intro _ _ had _ r hr
    subst hr
    unfold AttrSkipped
    cases hs : o.snapshot with
    | true => exact ⟨true, by simp, by simp⟩
    | false =>
      simp only [Bool.false_eq_true, if_false, false_or, true_and, if_true]
      by_cases h0 : o.fixed ≠ 0
      · rw [if_pos h0]
        obtain ⟨r, h1, h2⟩ := hdate x.ino.ctime
        refine ⟨r, h1, ?_⟩
        rw [h2]
        constructor
        · intro h; exact Or.inl ⟨h0, h⟩
        · rintro (h | ⟨b, h, -⟩)
          · exact h.2
          · exact absurd (hnone b h).2 h0
      · rw [if_neg h0]
        cases g with
        | none =>
          refine ⟨false, rfl, ?_⟩
          simp only [Bool.false_eq_true, false_iff]
          rintro (h | ⟨b, h, -⟩)
          · exact h0 h.1
          · simpa using (hf b).2 h
        | some b =>
          have hb := (hf b).1 rfl
          dsimp only
          have huniq : (∃ b', Reference o ref p x b' ∧ had b' ∧ (x.ino.ctime.instant ≤ b'.ino.ctime.instant ∨ SameRounded x.ino.ctime b'.ino.ctime)) ↔
              (had b ∧ (x.ino.ctime.instant ≤ b.ino.ctime.instant ∨ SameRounded x.ino.ctime b.ino.ctime)) := by
            constructor
            · rintro ⟨b', h, h'⟩
              have := (hf b').2 h
              simp only [Option.some.injEq] at this
              subst this
              exact h'
            · intro h; exact ⟨b, hb, h⟩
          rw [huniq]
          by_cases hh : had b
          · rw [if_pos hh]
            obtain ⟨r, h1, h2⟩ := hct x.ino.ctime b.ino.ctime
            refine ⟨r, h1, ?_⟩
            rw [h2]
            constructor
            · intro h; exact Or.inr ⟨hh, h⟩
            · rintro (h | h)
              · exact absurd h.1 h0
              · exact h.2
          · rw [if_neg hh]
            refine ⟨false, rfl, ?_⟩
            simp only [Bool.false_eq_true, false_iff]
            rintro (h | h)
            · exact h0 h.1
            · exact hh h.1
  have hrem : removeEa x g = true ↔ (x.ino.eaStatus = .none ∧ ∃ b, Reference o ref p x b ∧ b.ino.eaStatus ≠ .none ∧ b.ino.eaStatus ≠ .removed) := by
    cases g with
    | none =>
      simp only [removeEa, Bool.false_eq_true, false_iff]
      rintro ⟨-, b, h, -⟩
      simpa using (hf b).2 h
    | some b =>
      have hb := (hf b).1 rfl
      simp only [removeEa, decide_eq_true_eq]
      constructor
      · rintro ⟨h1, h2⟩; exact ⟨h1, b, hb, h2⟩
      · rintro ⟨h1, b', h, h2⟩
        have := (hf b').2 h
        simp only [Option.some.injEq] at this
        subst this
        exact ⟨h1, h2⟩
  have hea : ∃ a, newEa o x g = .ok a ∧
      (x.ino.eaStatus = .full → (a = .part ↔ AttrSkipped o ref p x (fun b => b.ino.eaStatus ≠ .none)) ∧ (a = .part ∨ a = .full)) ∧
      (x.ino.eaStatus = .none → (a = .removed ↔ ∃ b, Reference o ref p x b ∧ b.ino.eaStatus ≠ .none ∧ b.ino.eaStatus ≠ .removed) ∧ (a = .removed ∨ a = .none)) := by
    have hok : ∃ r, avoidEa o x g = .ok r ∧ (x.ino.eaStatus = .full → (r = true ↔ AttrSkipped o ref p x (fun b => b.ino.eaStatus ≠ .none))) := by
      by_cases hfull : x.ino.eaStatus = .full
      · obtain ⟨r, h1, h2⟩ := hattr True (fun b => b.ino.eaStatus ≠ .none) (avoidEa o x g) (by
          unfold avoidEa
          cases g <;> simp [hfull])
        exact ⟨r, h1, fun _ => h2⟩
      · unfold avoidEa
        have : ∀ r : Res Bool, (∃ b, r = .ok b) → ∃ b, r = .ok b ∧ (x.ino.eaStatus = .full → (b = true ↔ AttrSkipped o ref p x (fun b => b.ino.eaStatus ≠ .none))) :=
          fun r ⟨b, hb⟩ => ⟨b, hb, fun h => absurd h hfull⟩
        apply this
        split
        · exact ⟨_, rfl⟩
        · split
          · split
            · obtain ⟨r, h, -⟩ := hdate x.ino.ctime; exact ⟨r, h⟩
            · exact ⟨_, rfl⟩
          · cases g with
            | none => exact ⟨_, rfl⟩
            | some b => exact ⟨false, by simp [hfull]⟩
    obtain ⟨r, h1, h2⟩ := hok
    unfold newEa
    rw [h1]
    refine ⟨_, rfl, ?_, ?_⟩
    · intro hfull
      have hr0 : removeEa x g = false := by
        cases hh : removeEa x g with
        | false => rfl
        | true => have := (hrem.1 hh).1; rw [hfull] at this; cases this
      rw [hr0, ← h2 hfull]
      cases r <;> simp [hfull]
    · intro hn
      have hr0 := hrem
      simp only [hn, true_and] at hr0
      rw [← hr0]
      cases removeEa x g <;> simp [hn]
  have hfsa : ∃ a, newFsa o x g = .ok a ∧
      (x.fsa = .full → (a = .part ↔ AttrSkipped o ref p x (fun b => b.fsa ≠ .none)) ∧ (a = .part ∨ a = .full)) ∧ (x.fsa = .none → a = .none) := by
    have hok : ∃ r, avoidFsa o x g = .ok r ∧ (x.fsa = .full → (r = true ↔ AttrSkipped o ref p x (fun b => b.fsa ≠ .none))) := by
      by_cases hfull : x.fsa = .full
      · obtain ⟨r, h1, h2⟩ := hattr True (fun b => b.fsa ≠ .none) (avoidFsa o x g) (by
          unfold avoidFsa
          cases g <;> simp [hfull])
        exact ⟨r, h1, fun _ => h2⟩
      · unfold avoidFsa
        have : ∀ r : Res Bool, (∃ b, r = .ok b) → ∃ b, r = .ok b ∧ (x.fsa = .full → (b = true ↔ AttrSkipped o ref p x (fun b => b.fsa ≠ .none))) :=
          fun r ⟨b, hb⟩ => ⟨b, hb, fun h => absurd h hfull⟩
        apply this
        split
        · exact ⟨_, rfl⟩
        · split
          · split
            · obtain ⟨r, h, -⟩ := hdate x.ino.ctime; exact ⟨r, h⟩
            · exact ⟨_, rfl⟩
          · cases g with
            | none => exact ⟨_, rfl⟩
            | some b => exact ⟨false, by simp [hfull]⟩
    obtain ⟨r, h1, h2⟩ := hok
    unfold newFsa
    rw [h1]
    refine ⟨_, rfl, ?_, ?_⟩
    · intro hfull
      rw [← h2 hfull]
      cases r <;> simp [hfull]
    · intro hn
      simp [hn]
  obtain ⟨s, hs1, hs2, hs3, hs4, hs5⟩ := hst
  obtain ⟨a, ha1, ha2, ha3⟩ := hea
  obtain ⟨y, hy1, hy2, hy3⟩ := hfsa
  rw [hs1, ha1, hy1]
  refine ⟨_, rfl, ?_⟩
  intro d hd
  dsimp only at hd
  have hsd : ∀ (z : Obj) (d : Bool), ∃ e, z.setDirty d = { z with ino := { z.ino with dirty := e } } ∧ (e = z.ino.dirty ∨ e = true ∧ d = true ∧ z.ino.isFile = true) := by
    intro z d
    unfold Obj.setDirty
    by_cases h : (d && z.ino.isFile) = true
    · rw [if_pos h]
      simp only [Bool.and_eq_true] at h
      exact ⟨true, rfl, Or.inr ⟨rfl, h⟩⟩
    · rw [if_neg h]
      exact ⟨z.ino.dirty, rfl, Or.inl rfl⟩
  obtain ⟨e, he1, he2⟩ := hsd { x with ino := { x.ino with status := s, eaStatus := a }, fsa := y } d
  show Recorded o ref p x (Obj.setDirty { x with ino := { x.ino with status := s, eaStatus := a }, fsa := y } d)
  rw [he1]
  refine ⟨⟨s, a, e, y, rfl, ?_⟩, hs2, hs3, hs4, hs5, ha2, ha3, hy2, hy3⟩
  rcases he2 with h | ⟨h1, h2, h3⟩
  · exact Or.inl h
  · refine Or.inr ⟨h1, ?_⟩
    rw [h2] at hd
    have hd := hd.symm
    simp only [Bool.and_eq_true, Bool.or_eq_true, decide_eq_true_eq] at hd
    exact ⟨hd.1.1, hd.1.2, hd.2⟩


theorem bkHead_name {o : BkOpts} {rstars : Nat → Obj} {refd : Option (List BEntry)} {path : List Bytes} {e : BEntry} {c : BkCore} {h : BkHead}
    (hh : bkHead o rstars refd path e c = .ok h) :
    (∀ e' c', h = .leaf e' c' → e'.name = e.name) ∧ (∀ x' c', h = .down x' c' → x'.name = e.name ∧ e.isDir = true) := by
  have hs := step_entry o rstars ⟨(match refd with | none => ⟨[], [[]]⟩ | some l => ⟨[l], []⟩), [], [], path, c.stars, c.wrote, c.st, 0⟩ refd
    (by cases refd <;> simp [CmpAt]) rfl e
  dsimp only [BkSt.core] at hs
  rw [show bkHead o rstars refd path e ⟨c.stars, c.wrote, c.st⟩ = bkHead o rstars refd path e c from rfl, hh] at hs
  refine ⟨?_, ?_⟩
  · rintro e' c' rfl; exact hs.1
  · rintro x' c' rfl
    exact ⟨hs.2.choose_spec.2.2.1, hs.1⟩

theorem bkEntry_name {o : BkOpts} {rstars : Nat → Obj} {refd : Option (List BEntry)} {path : List Bytes} {e e' : BEntry} {c c' : BkCore}
    (h : bkEntry o rstars refd path e c = .ok (e', c')) : e'.name = e.name := by
  have key : (do
      let h ← bkHead o rstars refd path e c
      match h with
      | .leaf e' c' => .ok (e', c')
      | .down _ _ => .error .bug) = .ok (e', c') → e'.name = e.name := by
    intro h
    cases hh : bkHead o rstars refd path e c with
    | error err => rw [hh] at h; cases h
    | ok r =>
      rw [hh] at h
      cases r with
      | leaf e1 c1 => cases h; exact (bkHead_name hh).1 _ _ rfl
      | down x1 c1 => cases h
  cases e with
  | dir x ch =>
    rw [bkEntry] at h
    cases hh : bkHead o rstars refd path (.dir x ch) c with
    | error err => rw [hh] at h; cases h
    | ok r =>
      rw [hh] at h
      cases r with
      | leaf e1 c1 => cases h; exact (bkHead_name hh).1 _ _ rfl
      | down x1 c1 =>
        simp only [bind, Except.bind] at h
        cases hl : bkList o rstars (refSub refd x.name) (x.name :: path) ch c1 with
        | error err => rw [hl] at h; cases h
        | ok r2 => rw [hl] at h; cases h; exact ((bkHead_name hh).2 _ _ rfl).1
  | node x => exact key h
  | mirage n k => exact key h
  | detruit n k d => exact key h
  | ignored n => exact key h
  | ignoredDir x => exact key h

/-- the first entry of a name goes to the first entry of the same name -/
theorem bkList_find {o : BkOpts} {rstars : Nat → Obj} {refd : Option (List BEntry)} {path : List Bytes} (n : Bytes) : ∀ (l : List BEntry) (c : BkCore)
    (l' : List BEntry) (c' : BkCore), bkList o rstars refd path l c = .ok (l', c') →
    match l.find? (fun e => e.name = n) with
    | none => l'.find? (fun e => e.name = n) = none
    | some e => ∃ c0 e' c1, bkEntry o rstars refd path e c0 = .ok (e', c1) ∧ l'.find? (fun e => e.name = n) = some e'
  | [], c, l', c', h => by rw [bkList] at h; cases h; rfl
  | e :: l, c, l', c', h => by
    rw [bkList] at h
    cases h1 : bkEntry o rstars refd path e c with
    | error err => rw [h1] at h; cases h
    | ok r =>
      obtain ⟨e', c1⟩ := r
      rw [h1] at h
      simp only [bind, Except.bind] at h
      cases h2 : bkList o rstars refd path l c1 with
      | error err => rw [h2] at h; cases h
      | ok r2 =>
        obtain ⟨l2, c2⟩ := r2
        rw [h2] at h
        cases h
        have hn := bkEntry_name h1
        by_cases he : e.name = n
        · simp only [List.find?_cons, he, decide_true, hn]
          exact ⟨c, e', c1, h1, rfl⟩
        · simp only [List.find?_cons, hn, he, decide_false]
          exact bkList_find n l c1 l2 _ h2

/-- the comparison is in the directory of reference of the given path (last name first) -/
def RefDir (ref : BCat) (path : List Bytes) (refd : Option (List BEntry)) : Prop :=
  ∀ q, q ≠ [] → treeAt ref.root (path.reverse ++ q) = (match refd with | none => none | some l => treeAt l q)

theorem RefDir.sub {ref : BCat} {path : List Bytes} {refd : Option (List BEntry)} (h : RefDir ref path refd) (n : Bytes) :
    RefDir ref (n :: path) (refSub refd n) := by
  intro q hq
  cases q with
  | nil => exact absurd rfl hq
  | cons m q =>
    have := h (n :: m :: q) (by simp)
    rw [List.reverse_cons, List.append_assoc, List.singleton_append, this]
    cases refd with
    | none => rfl
    | some l =>
      simp only [treeAt, refSub, findChild]
      cases List.find? (fun e => decide (e.name = n)) l with
      | none => rfl
      | some g => cases g <;> rfl

/-- the name of the inode plays no part -/
theorem recorded_name {o : BkOpts} {ref : BCat} {p : List Bytes} {x x' : Obj} {n : Bytes} (h : Recorded o ref p { x with name := n } x') :
    Recorded o ref p x { x' with name := x.name } := by
  obtain ⟨⟨s, a, d, f, rfl, hd⟩, h1, h2, h3, h4, h5, h6, h7, h8⟩ := h
  exact ⟨⟨s, a, d, f, rfl, hd⟩, h1, h2, h3, h4, h5, h6, h7, h8⟩

theorem obj_name {stars : Nat → Obj} {e : BEntry} {x : Obj} (h : e.obj stars = some x) : x.name = e.name := by
  cases e <;> simp only [BEntry.obj, Option.some.injEq, reduceCtorEq] at h <;> subst h <;> rfl

theorem refObj_is {o : BkOpts} {ref : BCat} {path : List Bytes} {refd : Option (List BEntry)} (h : RefDir ref path refd) (stars : Nat → Obj) (e : BEntry)
    (x : Obj) (hx : e.obj stars = some x) : RefIs o ref (path.reverse ++ [e.name]) x (refObj o stars ref.stars refd e) := by
  intro b
  unfold Reference
  have hq := h [e.name] (by simp)
  rw [hq]
  unfold refObj
  cases hs : o.snapshot with
  | true => simp
  | false =>
    by_cases hf : o.fixed = 0
    · simp only [hf, if_true, Bool.false_eq_true, if_false, true_and]
      cases refd with
      | none => simp
      | some l =>
        simp only [treeAt, findChild]
        cases hgf : List.find? (fun e_1 => decide (e_1.name = e.name)) l with
        | none => simp
        | some g =>
          have hgn : g.name = e.name := of_decide_eq_true (by have := List.find?_some hgf; exact this)
          simp only [hx, Option.some.injEq]
          cases hg : g.obj ref.stars with
          | none =>
            simp only [reduceCtorEq, false_iff]
            rintro ⟨g', rfl, h2, -⟩
            rw [hg] at h2; cases h2
          | some y =>
            simp only
            have hnm : x.name = y.name := by rw [obj_name hx, obj_name hg, hgn]
            unfold Obj.sameAs
            by_cases hc : x.ino.kind = y.ino.kind
            · rw [if_pos (by simpa using ⟨hnm, hc⟩)]
              constructor
              · intro h; cases h; exact ⟨g, rfl, hg, hc.symm⟩
              · rintro ⟨g', rfl, h2, -⟩
                rw [hg] at h2; exact h2
            · rw [if_neg (by simp [hc])]
              simp only [reduceCtorEq, false_iff]
              rintro ⟨g', rfl, h2, h4⟩
              rw [hg] at h2; cases h2
              exact hc h4.symm
    · simp [hf]

theorem decideEntry_saved {o : BkOpts} {x x' : Obj} {f : Option Obj} (hh : decideEntry o x f = .ok x') : x.ino.status = .saved := by
  unfold decideEntry at hh
  dsimp only at hh
  by_cases h1 : x.ino.status ≠ .saved
  · rw [if_pos h1] at hh; cases hh
  · simpa using h1

/-- what `headOne` gives when nothing fails -/
theorem headOne_ok {o : BkOpts} {ref : BCat} {refd : Option (List BEntry)} {path : List Bytes} {e : BEntry} {x : Obj} {c : BkCore} {h : BkHead}
    (hr : RefDir ref path refd) (hx : e.obj c.stars = some x) (hfl : o.fails (path.reverse ++ [e.name]) = none)
    (hh : headOne o ref.stars refd path e x c = .ok h) :
    ∃ x', Recorded o ref (path.reverse ++ [e.name]) x x' ∧ ∃ st, h = (if e.isDir then .down x' ⟨setStar c.stars e x', markWrote c.wrote e, st⟩
      else .leaf (e.withObj x') ⟨setStar c.stars e x', markWrote c.wrote e, st⟩) := by
  unfold headOne at hh
  cases hd : decideEntry o x (refObj o c.stars ref.stars refd e) with
  | error err => rw [hd] at hh; cases hh
  | ok x' =>
    rw [hd] at hh
    have hsv := decideEntry_saved hd
    obtain ⟨x2, hx2, hrec⟩ := decide_spec o ref (path.reverse ++ [e.name]) x _ (refObj_is hr c.stars e x hx) hsv
    rw [hd] at hx2
    cases hx2
    simp only [bind, Except.bind, List.reverse_cons, hfl] at hh
    refine ⟨x'.setDirty _, hrec _ rfl, ?_⟩
    cases hh
    exact ⟨_, rfl⟩

/-- where the entries that are not hard links go -/
theorem at_path {o : BkOpts} {ref : BCat} : ∀ (p : List Bytes) (l : List BEntry) (refd : Option (List BEntry)) (path : List Bytes) (c : BkCore)
    (l' : List BEntry) (c' : BkCore) (e : BEntry) (x : Obj),
    bkList o ref.stars refd path l c = .ok (l', c') → RefDir ref path refd → treeAt l p = some e →
    (∀ q, q ≠ [] → q <+: p → o.cov (path.reverse ++ q) false = true ∧ o.fails (path.reverse ++ q) = none) →
    (e = .node x ∨ ∃ ch, e = .dir x ch) →
    ∃ x', Recorded o ref (path.reverse ++ p) x x' ∧ ((e = .node x ∧ treeAt l' p = some (.node x')) ∨
      (∃ ch ch', e = .dir x ch ∧ treeAt l' p = some (.dir x' ch')))
  | [], l, refd, path, c, l', c', e, x, h, hr, ht, hk, he => by simp [treeAt] at ht
  | [n], l, refd, path, c, l', c', e, x, h, hr, ht, hk, he => by
    have hf := bkList_find n l c l' c' h
    simp only [treeAt] at ht ⊢
    rw [ht] at hf
    obtain ⟨c0, e', c1, hb, hfind⟩ := hf
    have hn : e.name = n := by simpa using List.find?_some ht
    obtain ⟨hcov, hfl⟩ := hk [n] (by simp) (List.prefix_refl _)
    rw [← hn] at hcov hfl ⊢
    rw [hn, hfind]
    rw [hn.symm]
    have hkn : e.known c0.wrote = false := by rcases he with rfl | ⟨ch, rfl⟩ <;> rfl
    have hobj : e.obj c0.stars = some x := by rcases he with rfl | ⟨ch, rfl⟩ <;> rfl
    have hhead : bkHead o ref.stars refd path e c0 = headOne o ref.stars refd path e x c0 := by
      unfold bkHead
      rw [hkn, if_pos (by rw [List.reverse_cons]; exact hcov), if_neg (by simp), hobj]
    rcases he with rfl | ⟨ch, rfl⟩
    · rw [show bkEntry o ref.stars refd path (.node x) c0 = (bkHead o ref.stars refd path (.node x) c0 >>= fun h => match h with
        | .leaf e' c' => .ok (e', c') | .down _ _ => .error .bug) from rfl, hhead] at hb
      cases hh : headOne o ref.stars refd path (.node x) x c0 with
      | error err => rw [hh] at hb; cases hb
      | ok r =>
        rw [hh] at hb
        obtain ⟨x', hrec, st, rfl⟩ := headOne_ok hr hobj hfl hh
        cases hb
        exact ⟨x', hrec, Or.inl ⟨rfl, rfl⟩⟩
    · rw [bkEntry, hhead] at hb
      cases hh : headOne o ref.stars refd path (.dir x ch) x c0 with
      | error err => rw [hh] at hb; cases hb
      | ok r =>
        rw [hh] at hb
        obtain ⟨x', hrec, st, rfl⟩ := headOne_ok hr hobj hfl hh
        simp only [bind, Except.bind, BEntry.isDir, if_true] at hb
        cases hl : bkList o ref.stars (refSub refd x.name) (x.name :: path) ch ⟨setStar c0.stars (.dir x ch) x', markWrote c0.wrote (.dir x ch), st⟩ with
        | error err => rw [hl] at hb; cases hb
        | ok r2 =>
          rw [hl] at hb
          cases hb
          exact ⟨x', hrec, Or.inr ⟨ch, _, rfl, rfl⟩⟩
  | n :: m :: p, l, refd, path, c, l', c', e, x, h, hr, ht, hk, he => by
    have hf := bkList_find n l c l' c' h
    simp only [treeAt] at ht ⊢
    cases hfd : l.find? (fun e => decide (e.name = n)) with
    | none => rw [hfd] at ht; cases ht
    | some d =>
      rw [hfd] at ht hf
      cases d with
      | dir y ch =>
        simp only at ht
        obtain ⟨c0, e', c1, hb, hfind⟩ := hf
        have hn : y.name = n := by have := List.find?_some hfd; exact of_decide_eq_true this
        obtain ⟨hcov, hfl⟩ := hk [n] (by simp) ⟨m :: p, rfl⟩
        have hhead : bkHead o ref.stars refd path (.dir y ch) c0 = headOne o ref.stars refd path (.dir y ch) y c0 := by
          unfold bkHead
          rw [show (BEntry.dir y ch).known c0.wrote = false from rfl, if_pos (by rw [List.reverse_cons]; simpa [BEntry.name, hn] using hcov), if_neg (by simp)]
          rfl
        rw [bkEntry, hhead] at hb
        cases hh : headOne o ref.stars refd path (.dir y ch) y c0 with
        | error err => rw [hh] at hb; cases hb
        | ok r =>
          rw [hh] at hb
          obtain ⟨x', hrec, st, rfl⟩ := headOne_ok hr rfl (by simpa [BEntry.name, hn] using hfl) hh
          simp only [bind, Except.bind, BEntry.isDir, if_true] at hb
          cases hl : bkList o ref.stars (refSub refd y.name) (y.name :: path) ch ⟨setStar c0.stars (.dir y ch) x', markWrote c0.wrote (.dir y ch), st⟩ with
          | error err => rw [hl] at hb; cases hb
          | ok r2 =>
            obtain ⟨l2, c2⟩ := r2
            rw [hl] at hb
            cases hb
            rw [hfind]
            obtain ⟨x2, h1, h2⟩ := at_path (m :: p) ch (refSub refd y.name) (y.name :: path) _ l2 _ e x hl (hr.sub y.name) ht (by
              intro q hq hpre
              have := hk (n :: q) (by simp) (by simpa using hpre)
              simpa [hn] using this) he
            refine ⟨x2, by simpa [hn] using h1, h2⟩
      | _ => simp at ht

/-- C33: for every source, every archive of reference and every set of options: each inode of the source that the filters keep, and that could be saved,
is in the new archive at the same path, and what is recorded for it is what the specification tells: not saved exactly when there is a reference
that has not changed. -/
theorem C33_recorded (o : BkOpts) (src ref cat : BCat) (st : Stats) (h : backup o src ref = .ok (cat, st)) (p : List Bytes) (x : Obj) (hk : Kept o p) :
    (treeAt src.root p = some (.node x) → ∃ x', treeAt cat.root p = some (.node x') ∧ Recorded o ref p x x') ∧
    (∀ ch, treeAt src.root p = some (.dir x ch) → ∃ x' ch', treeAt cat.root p = some (.dir x' ch') ∧ Recorded o ref p x x') := by
  rw [backup_eq] at h
  cases hb : bkList o ref.stars (some ref.root) [] src.root ⟨src.stars, [], Stats.zero⟩ with
  | error e => rw [hb] at h; cases h
  | ok r =>
    obtain ⟨l', c'⟩ := r
    rw [hb] at h
    cases h
    have hr : RefDir ref [] (some ref.root) := fun q _ => rfl
    refine ⟨fun ht => ?_, fun ch ht => ?_⟩
    · obtain ⟨x', h1, h2⟩ := at_path p src.root _ [] _ l' c' _ x hb hr ht hk (Or.inl rfl)
      rcases h2 with ⟨-, h2⟩ | ⟨ch, ch', h2, -⟩
      · exact ⟨x', h2, h1⟩
      · cases h2
    · obtain ⟨x', h1, h2⟩ := at_path p src.root _ [] _ l' c' _ x hb hr ht hk (Or.inr ⟨ch, rfl⟩)
      rcases h2 with ⟨h2, -⟩ | ⟨ch1, ch', h2, h3⟩
      · cases h2
      · exact ⟨x', ch', h3, h1⟩


theorem headSkip_leaf {o : BkOpts} {rstars : Nat → Obj} {refd : Option (List BEntry)} {e : BEntry} {c : BkCore} {h : BkHead}
    (hh : headSkip o rstars refd e c = .ok h) : ∃ e' c', h = .leaf e' c' ∧ ((∃ n, e' = .ignored n) ∨ ∃ x, e' = .ignoredDir x) := by
  unfold headSkip at hh
  cases e with
  | dir x ch =>
    simp only at hh
    by_cases he : o.emptyDir = true
    · rw [if_pos he] at hh
      cases hs : emptyDirStatus o x (refObj o c.stars rstars refd (.dir x ch)) with
      | error err => rw [hs] at hh; cases hh
      | ok st => rw [hs] at hh; cases hh; exact ⟨_, _, rfl, Or.inr ⟨_, rfl⟩⟩
    · rw [if_neg he] at hh; cases hh; exact ⟨_, _, rfl, Or.inl ⟨_, rfl⟩⟩
  | _ => cases hh; exact ⟨_, _, rfl, Or.inl ⟨_, rfl⟩⟩

/-- an entry that is neither a hard link nor a placeholder for something excluded comes from the source, and was covered -/
theorem bkHead_inv {o : BkOpts} {rstars : Nat → Obj} {refd : Option (List BEntry)} {path : List Bytes} {e : BEntry} {c : BkCore} {h : BkHead}
    (hh : bkHead o rstars refd path e c = .ok h) :
    (∀ x' c', h = .leaf (.node x') c' → (∃ x, e = .node x) ∧ o.cov (path.reverse ++ [e.name]) false = true ∧ o.fails (path.reverse ++ [e.name]) = none) ∧
    (∀ x' ch c', h ≠ .leaf (.dir x' ch) c') ∧
    (∀ x' c', h = .down x' c' → o.cov (path.reverse ++ [e.name]) false = true ∧ o.fails (path.reverse ++ [e.name]) = none) := by
  unfold bkHead at hh
  rw [List.reverse_cons] at hh
  by_cases hc : o.cov (path.reverse ++ [e.name]) (e.known c.wrote) = true
  · rw [if_pos hc] at hh
    by_cases hk : e.known c.wrote = true
    · rw [if_pos hk] at hh
      cases e with
      | mirage n k => cases hh; simp
      | _ => simp [BEntry.known] at hk
    · rw [if_neg hk] at hh
      have hk' : e.known c.wrote = false := by simpa using hk
      rw [hk'] at hc
      cases hx : e.obj c.stars with
      | none => rw [hx] at hh; cases hh
      | some x =>
        rw [hx] at hh
        simp only at hh
        unfold headOne at hh
        cases hd : decideEntry o x (refObj o c.stars rstars refd e) with
        | error err => rw [hd] at hh; cases hh
        | ok x' =>
          rw [hd] at hh
          simp only [bind, Except.bind, List.reverse_cons] at hh
          cases hfl : o.fails (path.reverse ++ [e.name]) with
          | none =>
            rw [hfl] at hh
            simp only at hh
            cases hh
            cases e with
            | dir x1 ch1 => simp [BEntry.isDir, hc]
            | node x1 => simp [BEntry.isDir, hc, BEntry.withObj]
            | _ => simp [BEntry.isDir, BEntry.withObj]
          | some w =>
            rw [hfl] at hh
            simp only at hh
            cases hh
            simp
  · rw [if_neg hc] at hh
    obtain ⟨e', c', rfl, h⟩ := headSkip_leaf hh
    rcases h with ⟨n, rfl⟩ | ⟨x, rfl⟩ <;> simp

theorem bkEntry_inv {o : BkOpts} {rstars : Nat → Obj} {refd : Option (List BEntry)} {path : List Bytes} {e e' : BEntry} {c c' : BkCore}
    (h : bkEntry o rstars refd path e c = .ok (e', c')) :
    (∀ x', e' = .node x' → (∃ x, e = .node x) ∧ o.cov (path.reverse ++ [e.name]) false = true ∧ o.fails (path.reverse ++ [e.name]) = none) ∧
    (∀ x' ch', e' = .dir x' ch' → o.cov (path.reverse ++ [e.name]) false = true ∧ o.fails (path.reverse ++ [e.name]) = none ∧
      ∃ x ch c1, e = .dir x ch ∧ bkList o rstars (refSub refd x.name) (x.name :: path) ch c1 = .ok (ch', c')) := by
  have key : e.isDir = false → (do
      let h ← bkHead o rstars refd path e c
      match h with
      | .leaf e' c' => .ok (e', c')
      | .down _ _ => .error .bug) = .ok (e', c') →
      (∀ x', e' = .node x' → (∃ x, e = .node x) ∧ o.cov (path.reverse ++ [e.name]) false = true ∧ o.fails (path.reverse ++ [e.name]) = none) ∧
      (∀ x' ch', e' ≠ .dir x' ch') := by
    intro hd h
    cases hh : bkHead o rstars refd path e c with
    | error err => rw [hh] at h; cases h
    | ok r =>
      rw [hh] at h
      obtain ⟨h1, h2, h3⟩ := bkHead_inv hh
      cases r with
      | leaf e1 c1 =>
        cases h
        exact ⟨fun x' hx => h1 x' _ (by rw [hx]), fun x' ch' hx => h2 x' ch' _ (by rw [hx])⟩
      | down x1 c1 => cases h
  have key2 : e.isDir = false → (do
      let h ← bkHead o rstars refd path e c
      match h with
      | .leaf e' c' => .ok (e', c')
      | .down _ _ => .error .bug) = .ok (e', c') → _ := fun hd h =>
    (⟨(key hd h).1, fun x' ch' hx => absurd hx ((key hd h).2 x' ch')⟩ :
      (∀ x', e' = .node x' → (∃ x, e = .node x) ∧ o.cov (path.reverse ++ [e.name]) false = true ∧ o.fails (path.reverse ++ [e.name]) = none) ∧
    (∀ x' ch', e' = .dir x' ch' → o.cov (path.reverse ++ [e.name]) false = true ∧ o.fails (path.reverse ++ [e.name]) = none ∧
      ∃ x ch c1, e = .dir x ch ∧ bkList o rstars (refSub refd x.name) (x.name :: path) ch c1 = .ok (ch', c')))
  cases e with
  | dir x ch =>
    rw [bkEntry] at h
    cases hh : bkHead o rstars refd path (.dir x ch) c with
    | error err => rw [hh] at h; cases h
    | ok r =>
      rw [hh] at h
      obtain ⟨h1, h2, h3⟩ := bkHead_inv hh
      cases r with
      | leaf e1 c1 =>
        cases h
        exact ⟨fun x' hx => h1 x' _ (by rw [hx]), fun x' ch' hx => absurd (by rw [hx]) (h2 x' ch' c')⟩
      | down x1 c1 =>
        simp only [bind, Except.bind] at h
        cases hl : bkList o rstars (refSub refd x.name) (x.name :: path) ch c1 with
        | error err => rw [hl] at h; cases h
        | ok r2 =>
          rw [hl] at h
          cases h
          refine ⟨(by intro x' hx; cases hx), fun x' ch' hx => ?_⟩
          cases hx
          exact ⟨(h3 _ _ rfl).1, (h3 _ _ rfl).2, x, ch, c1, rfl, hl⟩
  | node x => exact key2 rfl h
  | mirage n k => exact key2 rfl h
  | detruit n k d => exact key2 rfl h
  | ignored n => exact key2 rfl h
  | ignoredDir x => exact key2 rfl h

theorem kept_cons {o : BkOpts} {path : List Bytes} {n : Bytes} {p : List Bytes}
    (h1 : o.cov (path.reverse ++ [n]) false = true ∧ o.fails (path.reverse ++ [n]) = none)
    (h2 : ∀ q, q ≠ [] → q <+: p → o.cov ((n :: path).reverse ++ q) false = true ∧ o.fails ((n :: path).reverse ++ q) = none) :
    ∀ q, q ≠ [] → q <+: (n :: p) → o.cov (path.reverse ++ q) false = true ∧ o.fails (path.reverse ++ q) = none := by
  intro q hq hpre
  cases q with
  | nil => exact absurd rfl hq
  | cons m q =>
    obtain ⟨rfl, hpre2⟩ := List.cons_prefix_cons.1 hpre
    cases q with
    | nil => exact h1
    | cons k q => simpa using h2 (k :: q) (by simp) hpre2

theorem from_path {o : BkOpts} {rstars : Nat → Obj} : ∀ (p : List Bytes) (l : List BEntry) (refd : Option (List BEntry)) (path : List Bytes) (c : BkCore)
    (l' : List BEntry) (c' : BkCore) (e' : BEntry) (x' : Obj),
    bkList o rstars refd path l c = .ok (l', c') → treeAt l' p = some e' → (e' = .node x' ∨ ∃ ch, e' = .dir x' ch) →
    (∀ q, q ≠ [] → q <+: p → o.cov (path.reverse ++ q) false = true ∧ o.fails (path.reverse ++ q) = none) ∧
    ((e' = .node x' ∧ ∃ x, treeAt l p = some (.node x)) ∨ (∃ ch', e' = .dir x' ch' ∧ ∃ x ch, treeAt l p = some (.dir x ch)))
  | [], l, refd, path, c, l', c', e', x', h, ht, he => by simp [treeAt] at ht
  | [n], l, refd, path, c, l', c', e', x', h, ht, he => by
    have hf := bkList_find n l c l' c' h
    simp only [treeAt] at ht ⊢
    cases hfd : l.find? (fun e => decide (e.name = n)) with
    | none => rw [hfd] at hf; simp only at hf; rw [hf] at ht; cases ht
    | some d =>
      rw [hfd] at hf
      obtain ⟨c0, e1, c1, hb, hfind⟩ := hf
      rw [hfind] at ht
      cases ht
      have hn : d.name = n := of_decide_eq_true (by have := List.find?_some hfd; exact this)
      obtain ⟨h1, h2⟩ := bkEntry_inv hb
      rw [hn] at h1 h2
      rcases he with rfl | ⟨ch, rfl⟩
      · obtain ⟨⟨x, rfl⟩, hc, hfl⟩ := h1 x' rfl
        exact ⟨kept_cons ⟨hc, hfl⟩ (fun q hq hpre => absurd (List.prefix_nil.1 hpre) hq), Or.inl ⟨rfl, x, rfl⟩⟩
      · obtain ⟨hc, hfl, x, ch1, c2, rfl, -⟩ := h2 x' ch rfl
        exact ⟨kept_cons ⟨hc, hfl⟩ (fun q hq hpre => absurd (List.prefix_nil.1 hpre) hq), Or.inr ⟨ch, rfl, x, ch1, rfl⟩⟩
  | n :: m :: p, l, refd, path, c, l', c', e', x', h, ht, he => by
    have hf := bkList_find n l c l' c' h
    simp only [treeAt] at ht ⊢
    cases hfd : l.find? (fun e => decide (e.name = n)) with
    | none => rw [hfd] at hf; simp only at hf; rw [hf] at ht; cases ht
    | some d =>
      rw [hfd] at hf
      obtain ⟨c0, e1, c1, hb, hfind⟩ := hf
      rw [hfind] at ht
      have hn : d.name = n := of_decide_eq_true (by have := List.find?_some hfd; exact this)
      cases e1 with
      | dir y ch' =>
        simp only at ht
        obtain ⟨hc, hfl, x, ch, c2, rfl, hl⟩ := (bkEntry_inv hb).2 y ch' rfl
        obtain ⟨h1, h2⟩ := from_path (m :: p) ch _ _ _ ch' c1 e' x' hl ht he
        have hn : x.name = n := hn
        rw [hn] at h1
        rw [show (BEntry.dir x ch).name = n from hn] at hc hfl
        exact ⟨kept_cons ⟨hc, hfl⟩ h1, h2⟩
      | _ => simp at ht

/-- C33: nothing else is recorded as an inode: what the archive has at a path was in the source at this path, of the same type, covered by the filters and
could be saved. -/
theorem C33_nothing_else (o : BkOpts) (src ref cat : BCat) (st : Stats) (h : backup o src ref = .ok (cat, st)) (p : List Bytes) (x' : Obj) :
    (treeAt cat.root p = some (.node x') → Kept o p ∧ ∃ x, treeAt src.root p = some (.node x) ∧ Recorded o ref p x x') ∧
    (∀ ch', treeAt cat.root p = some (.dir x' ch') → Kept o p ∧ ∃ x ch, treeAt src.root p = some (.dir x ch) ∧ Recorded o ref p x x') := by
  have h0 := h
  rw [backup_eq] at h
  cases hb : bkList o ref.stars (some ref.root) [] src.root ⟨src.stars, [], Stats.zero⟩ with
  | error e => rw [hb] at h; cases h
  | ok r =>
    obtain ⟨l', c'⟩ := r
    rw [hb] at h
    cases h
    refine ⟨fun ht => ?_, fun ch' ht => ?_⟩
    · obtain ⟨h1, h2⟩ := from_path p src.root _ [] _ l' c' _ x' hb ht (Or.inl rfl)
      have hk : Kept o p := h1
      rcases h2 with ⟨-, x, h2⟩ | ⟨ch, h2, -⟩
      · obtain ⟨x2, h3, h4⟩ := (C33_recorded o src ref _ _ h0 p x hk).1 h2
        rw [ht] at h3
        cases h3
        exact ⟨hk, x, h2, h4⟩
      · cases h2
    · obtain ⟨h1, h2⟩ := from_path p src.root _ [] _ l' c' _ x' hb ht (Or.inr ⟨ch', rfl⟩)
      have hk : Kept o p := h1
      rcases h2 with ⟨h2, -⟩ | ⟨ch, -, x, ch1, h2⟩
      · cases h2
      · obtain ⟨x2, ch2, h3, h4⟩ := (C33_recorded o src ref _ _ h0 p x hk).2 ch1 h2
        rw [ht] at h3
        cases h3
        exact ⟨hk, x, ch1, h2, h4⟩

/-- the labels saved so far: each was decided for one of its names, and the others are untouched -/
def LinkInv (o : BkOpts) (src ref : BCat) (c : BkCore) : Prop :=
  (∀ k, k ∉ c.wrote → c.stars k = src.stars k) ∧
  ∀ k, k ∈ c.wrote → ∃ q n, OccursIn src.root q (.mirage n k) ∧ Recorded o ref q (src.stars k) (c.stars k)
/-- what is needed of an entry of the source -/
def GoodEntry (o : BkOpts) (src : BCat) (p : List Bytes) (e : BEntry) : Prop :=
  SourceEntry src.stars e ∧ ∀ n k, e = .mirage n k → o.fails p = none

theorem head_total (o : BkOpts) (src ref : BCat) (refd : Option (List BEntry)) (path : List Bytes) (e : BEntry) (c : BkCore) (hr : RefDir ref path refd)
    (hg : GoodEntry o src (path.reverse ++ [e.name]) e) (hi : LinkInv o src ref c) (hocc : OccursIn src.root (path.reverse ++ [e.name]) e) :
    ∃ h, bkHead o ref.stars refd path e c = .ok h ∧ (match h with
      | .leaf e' c' => LinkInv o src ref c' ∧ c.wrote ⊆ c'.wrote ∧ (∀ n k, e' = .mirage n k → e = .mirage n k ∧ k ∈ c'.wrote) ∧
          (∀ n k, e = .mirage n k → (∀ b, o.cov (path.reverse ++ [n]) b = true) → e' = .mirage n k)
      | .down _ c' => e.isDir = true ∧ LinkInv o src ref c' ∧ c.wrote ⊆ c'.wrote) := by
  obtain ⟨hg1, hg2⟩ := hg
  have hskip : ∃ h, headSkip o ref.stars refd e c = .ok h ∧ ∃ e' st, h = .leaf e' ⟨c.stars, c.wrote, st⟩ ∧ ∀ n k, e' ≠ .mirage n k := by
    unfold headSkip
    cases e with
    | dir x ch =>
      dsimp only
      by_cases he : o.emptyDir = true
      · rw [if_pos he]
        have : ∃ s, emptyDirStatus o x (refObj o c.stars ref.stars refd (.dir x ch)) = .ok s := by
          unfold emptyDirStatus
          have href := refObj_is (o := o) hr c.stars (.dir x ch) x rfl
          cases hro : refObj o c.stars ref.stars refd (.dir x ch) with
          | none => exact ⟨_, rfl⟩
          | some y =>
            have hkind : y.ino.kind = x.ino.kind := by
              unfold refObj at hro
              split at hro
              · cases refd with
                | none => cases hro
                | some l =>
                  simp only [show (BEntry.dir x ch).obj c.stars = some x from rfl] at hro
                  cases hfc : findChild l (BEntry.dir x ch).name with
                  | none => rw [hfc] at hro; cases hro
                  | some g =>
                    rw [hfc] at hro
                    simp only at hro
                    cases hgo : g.obj ref.stars with
                    | none => rw [hgo] at hro; cases hro
                    | some b =>
                      rw [hgo] at hro
                      simp only at hro
                      by_cases hsa : x.sameAs b = true
                      · rw [if_pos hsa] at hro
                        cases hro
                        unfold Obj.sameAs at hsa
                        simp at hsa
                        exact hsa.2.symm
                      · rw [if_neg hsa] at hro; cases hro
              · cases hro
            obtain ⟨r, h1, -⟩ := hasChanged_spec o x.ino y.ino hkind
            simp only [h1, bind, Except.bind]
            exact ⟨_, rfl⟩
        obtain ⟨s, hs⟩ := this
        rw [hs]
        exact ⟨_, rfl, _, _, rfl, by simp⟩
      · rw [if_neg he]
        exact ⟨_, rfl, _, _, rfl, by simp⟩
    | _ => exact ⟨_, rfl, _, _, rfl, by simp⟩
  unfold bkHead
  rw [List.reverse_cons]
  by_cases hc : o.cov (path.reverse ++ [e.name]) (e.known c.wrote) = true
  · rw [if_pos hc]
    by_cases hk : e.known c.wrote = true
    · rw [if_pos hk]
      refine ⟨_, rfl, hi, fun _ h => h, ?_, ?_⟩
      · intro n k he
        refine ⟨he, ?_⟩
        subst he
        simpa [BEntry.known] using hk
      · intro n k he _; exact he
    · rw [if_neg hk]
      have hx : ∃ x, e.obj c.stars = some x ∧ x.ino.status = .saved := by
        cases e with
        | node x => exact ⟨x, rfl, hg1⟩
        | dir x ch => exact ⟨x, rfl, hg1⟩
        | mirage n k =>
          refine ⟨_, rfl, ?_⟩
          rw [hi.1 k (by simpa [BEntry.known] using hk)]
          exact hg1
        | detruit n k d => exact absurd hg1 (by simp [SourceEntry])
        | ignored n => exact absurd hg1 (by simp [SourceEntry])
        | ignoredDir x => exact absurd hg1 (by simp [SourceEntry])
      obtain ⟨x, hx, hsv⟩ := hx
      rw [hx]
      dsimp only
      obtain ⟨x', hd, hrec⟩ := decide_spec o ref (path.reverse ++ [e.name]) x _ (refObj_is hr c.stars e x hx) hsv
      unfold headOne
      rw [hd]
      simp only [bind, Except.bind, List.reverse_cons]
      have hrec := hrec _ rfl
      cases hfl : o.fails (path.reverse ++ [e.name]) with
      | some w =>
        dsimp only
        cases e with
        | mirage n k => rw [hg2 n k rfl] at hfl; cases hfl
        | node y => exact ⟨_, rfl, hi, fun _ h => h, by simp, by simp⟩
        | dir y ch => exact ⟨_, rfl, hi, fun _ h => h, by simp, by simp⟩
        | detruit n k d => exact absurd hg1 (by simp [SourceEntry])
        | ignored n => exact absurd hg1 (by simp [SourceEntry])
        | ignoredDir x => exact absurd hg1 (by simp [SourceEntry])
      | none =>
        dsimp only
        cases e with
        | mirage n k =>
          refine ⟨_, rfl, ⟨?_, ?_⟩, ?_, ?_, ?_⟩
          · intro j hj
            simp only [markWrote, List.mem_cons, not_or] at hj
            simp only [setStar, putStar, if_neg hj.1]
            exact hi.1 j hj.2
          · intro j hj
            simp only [markWrote, List.mem_cons] at hj
            simp only [setStar, putStar]
            by_cases hjk : j = k
            · subst hjk
              rw [if_pos rfl]
              refine ⟨_, n, hocc, ?_⟩
              have : x = { src.stars j with name := n } := by
                simp only [BEntry.obj, Option.some.injEq] at hx
                rw [← hx, hi.1 j (by simpa [BEntry.known] using hk)]
              rw [hi.1 j (by simpa [BEntry.known] using hk)]
              subst this
              exact recorded_name hrec
            · rw [if_neg hjk]
              exact hi.2 j (hj.resolve_left hjk)
          · intro j hj; exact List.mem_cons_of_mem _ hj
          · intro n' k' he
            simp only [BEntry.withObj] at he
            cases he
            exact ⟨rfl, by simp [markWrote]⟩
          · intro n' k' he _; cases he; rfl
        | node y => exact ⟨_, rfl, hi, fun _ h => h, by simp [BEntry.withObj], by simp⟩
        | dir y ch => exact ⟨_, rfl, rfl, hi, fun _ h => h⟩
        | detruit n k d => exact absurd hg1 (by simp [SourceEntry])
        | ignored n => exact absurd hg1 (by simp [SourceEntry])
        | ignoredDir x => exact absurd hg1 (by simp [SourceEntry])
  · rw [if_neg hc]
    obtain ⟨h, hh, e', st, rfl, hne⟩ := hskip
    refine ⟨_, hh, hi, fun _ h => h, fun n k he => absurd he (hne n k), fun n k he hcov => ?_⟩
    subst he
    exact absurd (hcov _) hc

mutual
theorem entry_total (o : BkOpts) (src ref : BCat) (refd : Option (List BEntry)) (path : List Bytes) (e : BEntry) (c : BkCore) (hr : RefDir ref path refd)
    (hg : BEntry.Each (GoodEntry o src) path.reverse e) (hi : LinkInv o src ref c)
    (hocc : ∀ q e', OccursIn [e] q e' → OccursIn src.root (path.reverse ++ q) e') :
    ∃ e' c', bkEntry o ref.stars refd path e c = .ok (e', c') ∧ LinkInv o src ref c' ∧ c.wrote ⊆ c'.wrote ∧
      (∀ n k, e = .mirage n k → (∀ b, o.cov (path.reverse ++ [n]) b = true) → e' = .mirage n k ∧ k ∈ c'.wrote) := by
  have hhere : OccursIn src.root (path.reverse ++ [e.name]) e := hocc _ _ (.here (by simp))
  have hge : GoodEntry o src (path.reverse ++ [e.name]) e := by
    cases e with
    | dir x ch => rw [BEntry.Each] at hg; exact hg.1
    | _ => exact hg
  have leafCase : ∀ e : BEntry, e.isDir = false → GoodEntry o src (path.reverse ++ [e.name]) e → OccursIn src.root (path.reverse ++ [e.name]) e →
      ∃ e' c', (do
        let h ← bkHead o ref.stars refd path e c
        match h with
        | .leaf e' c' => .ok (e', c')
        | .down _ _ => .error .bug) = .ok (e', c') ∧ LinkInv o src ref c' ∧ c.wrote ⊆ c'.wrote ∧
      (∀ n k, e = .mirage n k → (∀ b, o.cov (path.reverse ++ [n]) b = true) → e' = .mirage n k ∧ k ∈ c'.wrote) := by
    intro e hd hge hhere
    obtain ⟨h, hh, hm⟩ := head_total o src ref refd path e c hr hge hi hhere
    rw [hh]
    cases h with
    | leaf e' c' =>
      obtain ⟨h1, h2, h3, h4⟩ := hm
      exact ⟨e', c', rfl, h1, h2, fun n k he hcov => ⟨h4 n k he hcov, (h3 n k (h4 n k he hcov)).2⟩⟩
    | down x' c' =>
      obtain ⟨h1, -⟩ := hm
      rw [hd] at h1; cases h1
  match e with
  | .node x => exact leafCase _ rfl hge hhere
  | .mirage n k => exact leafCase _ rfl hge hhere
  | .detruit n k d => exact leafCase _ rfl hge hhere
  | .ignored n => exact leafCase _ rfl hge hhere
  | .ignoredDir x => exact leafCase _ rfl hge hhere
  | .dir x ch =>
    rw [bkEntry]
    obtain ⟨h, hh, hm⟩ := head_total o src ref refd path (.dir x ch) c hr hge hi hhere
    rw [hh]
    cases h with
    | leaf e' c' =>
      obtain ⟨h1, h2, h3, h4⟩ := hm
      exact ⟨e', c', rfl, h1, h2, by simp⟩
    | down x' c' =>
      obtain ⟨-, h1, h2⟩ := hm
      rw [BEntry.Each] at hg
      obtain ⟨l', c2, hl, h3, h4, -⟩ := list_total o src ref (refSub refd x.name) (x.name :: path) ch c' (hr.sub x.name)
        (by simpa using hg.2) h1 (by
          intro q e' hq
          have := hocc (x.name :: q) e' (.inside (by simp) hq)
          simpa using this)
      refine ⟨.dir x' l', c2, ?_, h3, fun _ h => h4 (h2 h), by simp⟩
      simp only [bind, Except.bind, hl]
theorem list_total (o : BkOpts) (src ref : BCat) (refd : Option (List BEntry)) (path : List Bytes) (l : List BEntry) (c : BkCore) (hr : RefDir ref path refd)
    (hg : BEntry.EachL (GoodEntry o src) path.reverse l) (hi : LinkInv o src ref c)
    (hocc : ∀ q e', OccursIn l q e' → OccursIn src.root (path.reverse ++ q) e') :
    ∃ l' c', bkList o ref.stars refd path l c = .ok (l', c') ∧ LinkInv o src ref c' ∧ c.wrote ⊆ c'.wrote ∧ True := by
  match l with
  | [] => rw [bkList]; exact ⟨[], c, rfl, hi, fun _ h => h, trivial⟩
  | e :: l =>
    rw [BEntry.EachL] at hg
    have lift : ∀ l', (∀ a, a ∈ l' → a ∈ e :: l) → ∀ q e', OccursIn l' q e' → OccursIn (e :: l) q e' := by
      intro l' hl q e' h
      cases h with
      | here h => exact .here (hl _ h)
      | inside h h2 => exact .inside (hl _ h) h2
    obtain ⟨e', c1, h1, h2, h3, -⟩ := entry_total o src ref refd path e c hr hg.1 hi (fun q e' h => hocc q e' (lift [e] (by simp) q e' h))
    obtain ⟨l', c2, h4, h5, h6, -⟩ := list_total o src ref refd path l c1 hr hg.2 h2 (fun q e' h => hocc q e' (lift l (fun a ha => List.mem_cons_of_mem _ ha) q e' h))
    rw [bkList, h1]
    simp only [bind, Except.bind, h4]
    exact ⟨_, _, rfl, h5, fun _ h => h6 (h3 h), trivial⟩
end

theorem linkInv_start (o : BkOpts) (src ref : BCat) : LinkInv o src ref ⟨src.stars, [], Stats.zero⟩ :=
  ⟨fun _ _ => rfl, fun k hk => by simp at hk⟩

/-- C33: the backup of a filesystem completes, provided that saving a hard link does not fail (see the counterexample below); saving other inodes may. -/
theorem C33_completes (o : BkOpts) (src ref : BCat) (hg : BEntry.EachL (GoodEntry o src) [] src.root) : ∃ cat st, backup o src ref = .ok (cat, st) := by
  obtain ⟨l', c', h, -⟩ := list_total o src ref (some ref.root) [] src.root ⟨src.stars, [], Stats.zero⟩ (fun q _ => rfl) hg (linkInv_start o src ref)
    (fun q e h => h)
  rw [backup_eq, h]
  exact ⟨_, _, rfl⟩


theorem bkHead_mono {o : BkOpts} {rstars : Nat → Obj} {refd : Option (List BEntry)} {path : List Bytes} {e : BEntry} {c : BkCore} {h : BkHead}
    (hh : bkHead o rstars refd path e c = .ok h) :
    (∀ e' c', h = .leaf e' c' → c.wrote ⊆ c'.wrote) ∧ (∀ x' c', h = .down x' c' → c.wrote ⊆ c'.wrote) := by
  have hmark : c.wrote ⊆ markWrote c.wrote e := by
    cases e with
    | mirage n k => exact fun _ h => List.mem_cons_of_mem _ h
    | _ => exact fun _ h => h
  unfold bkHead at hh
  split at hh
  · split at hh
    · cases hh; exact ⟨fun _ _ h => by cases h; exact fun _ h => h, fun _ _ h => by cases h⟩
    · cases hx : e.obj c.stars with
      | none => rw [hx] at hh; cases hh
      | some x =>
        rw [hx] at hh
        simp only at hh
        unfold headOne at hh
        cases hd : decideEntry o x (refObj o c.stars rstars refd e) with
        | error err => rw [hd] at hh; cases hh
        | ok x' =>
          rw [hd] at hh
          simp only [bind, Except.bind] at hh
          cases hfl : o.fails (e.name :: path).reverse with
          | some w =>
            rw [hfl] at hh
            cases hh
            exact ⟨fun _ _ h => by cases h; exact fun _ h => h, fun _ _ h => by cases h⟩
          | none =>
            rw [hfl] at hh
            cases hh
            refine ⟨fun _ _ h => ?_, fun _ _ h => ?_⟩ <;> (split at h <;> cases h) <;> exact hmark
  · unfold headSkip at hh
    cases e with
    | dir x ch =>
      simp only at hh
      split at hh
      · cases hs : emptyDirStatus o x (refObj o c.stars rstars refd (.dir x ch)) with
        | error err => rw [hs] at hh; cases hh
        | ok s => rw [hs] at hh; cases hh; exact ⟨fun _ _ h => by cases h; exact fun _ h => h, fun _ _ h => by cases h⟩
      · cases hh; exact ⟨fun _ _ h => by cases h; exact fun _ h => h, fun _ _ h => by cases h⟩
    | _ => cases hh; exact ⟨fun _ _ h => by cases h; exact fun _ h => h, fun _ _ h => by cases h⟩

mutual
theorem bkEntry_mono (o : BkOpts) (rstars : Nat → Obj) (refd : Option (List BEntry)) (path : List Bytes) (e : BEntry) (c : BkCore) (e' : BEntry) (c' : BkCore)
    (h : bkEntry o rstars refd path e c = .ok (e', c')) : c.wrote ⊆ c'.wrote := by
  have key : ∀ e, (do
      let h ← bkHead o rstars refd path e c
      match h with
      | .leaf e' c' => .ok (e', c')
      | .down _ _ => .error .bug) = .ok (e', c') → c.wrote ⊆ c'.wrote := by
    intro e h
    cases hh : bkHead o rstars refd path e c with
    | error err => rw [hh] at h; cases h
    | ok r =>
      rw [hh] at h
      cases r with
      | leaf e1 c1 => cases h; exact (bkHead_mono hh).1 _ _ rfl
      | down x1 c1 => cases h
  match e with
  | .dir x ch =>
    rw [bkEntry] at h
    cases hh : bkHead o rstars refd path (.dir x ch) c with
    | error err => rw [hh] at h; cases h
    | ok r =>
      rw [hh] at h
      cases r with
      | leaf e1 c1 => cases h; exact (bkHead_mono hh).1 _ _ rfl
      | down x1 c1 =>
        simp only [bind, Except.bind] at h
        cases hl : bkList o rstars (refSub refd x.name) (x.name :: path) ch c1 with
        | error err => rw [hl] at h; cases h
        | ok r2 =>
          obtain ⟨l2, c2⟩ := r2
          rw [hl] at h
          cases h
          exact fun _ h => bkList_mono o rstars _ _ ch c1 l2 _ hl ((bkHead_mono hh).2 _ _ rfl h)
  | .node x => exact key _ h
  | .mirage n k => exact key _ h
  | .detruit n k d => exact key _ h
  | .ignored n => exact key _ h
  | .ignoredDir x => exact key _ h
theorem bkList_mono (o : BkOpts) (rstars : Nat → Obj) (refd : Option (List BEntry)) (path : List Bytes) (l : List BEntry) (c : BkCore) (l' : List BEntry) (c' : BkCore)
    (h : bkList o rstars refd path l c = .ok (l', c')) : c.wrote ⊆ c'.wrote := by
  match l with
  | [] => rw [bkList] at h; cases h; exact fun _ h => h
  | e :: l =>
    rw [bkList] at h
    cases h1 : bkEntry o rstars refd path e c with
    | error err => rw [h1] at h; cases h
    | ok r =>
      obtain ⟨e1, c1⟩ := r
      rw [h1] at h
      simp only [bind, Except.bind] at h
      cases h2 : bkList o rstars refd path l c1 with
      | error err => rw [h2] at h; cases h
      | ok r2 =>
        obtain ⟨l2, c2⟩ := r2
        rw [h2] at h
        cases h
        exact fun _ h => bkList_mono o rstars refd path l c1 l2 _ h2 (bkEntry_mono o rstars refd path e c e1 c1 h1 h)
end

theorem bkList_findW {o : BkOpts} {rstars : Nat → Obj} {refd : Option (List BEntry)} {path : List Bytes} (n : Bytes) : ∀ (l : List BEntry) (c : BkCore)
    (l' : List BEntry) (c' : BkCore), bkList o rstars refd path l c = .ok (l', c') → ∀ e, l.find? (fun e => e.name = n) = some e →
    ∃ c0 e' c1, bkEntry o rstars refd path e c0 = .ok (e', c1) ∧ l'.find? (fun e => e.name = n) = some e' ∧ c1.wrote ⊆ c'.wrote
  | [], c, l', c', h, e, he => by simp at he
  | e0 :: l, c, l', c', h, e, he => by
    rw [bkList] at h
    cases h1 : bkEntry o rstars refd path e0 c with
    | error err => rw [h1] at h; cases h
    | ok r =>
      obtain ⟨e', c1⟩ := r
      rw [h1] at h
      simp only [bind, Except.bind] at h
      cases h2 : bkList o rstars refd path l c1 with
      | error err => rw [h2] at h; cases h
      | ok r2 =>
        obtain ⟨l2, c2⟩ := r2
        rw [h2] at h
        cases h
        have hn := bkEntry_name h1
        by_cases he0 : e0.name = n
        · simp only [List.find?_cons, he0, decide_true, Option.some.injEq] at he
          subst he
          simp only [List.find?_cons, he0, decide_true, hn]
          exact ⟨c, e', c1, h1, rfl, bkList_mono _ _ _ _ _ _ _ _ h2⟩
        · simp only [List.find?_cons, he0, decide_false] at he
          simp only [List.find?_cons, hn, he0, decide_false]
          exact bkList_findW n l c1 l2 _ h2 e he

theorem link_path {o : BkOpts} {rstars : Nat → Obj} : ∀ (p : List Bytes) (l : List BEntry) (refd : Option (List BEntry)) (path : List Bytes) (c : BkCore)
    (l' : List BEntry) (c' : BkCore) (n : Bytes) (k : Nat),
    bkList o rstars refd path l c = .ok (l', c') → treeAt l p = some (.mirage n k) →
    (∀ q, q ≠ [] → q <+: p → o.cov (path.reverse ++ q) false = true ∧ o.fails (path.reverse ++ q) = none) → o.cov (path.reverse ++ p) true = true →
    treeAt l' p = some (.mirage n k) ∧ k ∈ c'.wrote
  | [], l, refd, path, c, l', c', n, k, h, ht, hk, hc => by simp [treeAt] at ht
  | [m], l, refd, path, c, l', c', n, k, h, ht, hk, hc => by
    simp only [treeAt] at ht ⊢
    obtain ⟨c0, e', c1, hb, hfind, hsub⟩ := bkList_findW m l c l' c' h _ ht
    have hn : n = m := of_decide_eq_true (by have := List.find?_some ht; exact this)
    subst hn
    obtain ⟨hcov, hfl⟩ := hk [n] (by simp) (List.prefix_refl _)
    rw [hfind]
    rw [show bkEntry o rstars refd path (.mirage n k) c0 = (bkHead o rstars refd path (.mirage n k) c0 >>= fun h => match h with
        | .leaf e' c' => .ok (e', c') | .down _ _ => .error .bug) from rfl] at hb
    unfold bkHead at hb
    rw [List.reverse_cons, show (BEntry.mirage n k).name = n from rfl] at hb
    rw [if_pos (by cases (BEntry.mirage n k).known c0.wrote <;> assumption)] at hb
    by_cases hkn : (BEntry.mirage n k).known c0.wrote = true
    · rw [if_pos hkn] at hb
      cases hb
      exact ⟨rfl, hsub (by simpa [BEntry.known] using hkn)⟩
    · rw [if_neg hkn] at hb
      simp only [BEntry.obj] at hb
      unfold headOne at hb
      cases hd : decideEntry o { c0.stars k with name := n } (refObj o c0.stars rstars refd (.mirage n k)) with
      | error err => rw [hd] at hb; cases hb
      | ok x' =>
        rw [hd] at hb
        simp only [bind, Except.bind, List.reverse_cons, show (BEntry.mirage n k).name = n from rfl, hfl] at hb
        cases hb
        exact ⟨rfl, hsub (by simp [markWrote])⟩
  | m :: m2 :: p, l, refd, path, c, l', c', n, k, h, ht, hk, hc => by
    simp only [treeAt] at ht ⊢
    cases hfd : l.find? (fun e => decide (e.name = m)) with
    | none => rw [hfd] at ht; cases ht
    | some d =>
      rw [hfd] at ht
      obtain ⟨c0, e', c1, hb, hfind, hsub⟩ := bkList_findW m l c l' c' h _ hfd
      have hn : d.name = m := of_decide_eq_true (by have := List.find?_some hfd; exact this)
      cases d with
      | dir y ch =>
        simp only at ht
        obtain ⟨hcov, hfl⟩ := hk [m] (by simp) ⟨m2 :: p, rfl⟩
        have hn : y.name = m := hn
        rw [bkEntry] at hb
        cases hh : bkHead o rstars refd path (.dir y ch) c0 with
        | error err => rw [hh] at hb; cases hb
        | ok r =>
          rw [hh] at hb
          have hdown : ∃ x' c2, r = .down x' c2 := by
            unfold bkHead at hh
            rw [show (BEntry.dir y ch).known c0.wrote = false from rfl, if_pos (by rw [List.reverse_cons]; simpa [BEntry.name, hn] using hcov), if_neg (by simp)] at hh
            simp only [BEntry.obj] at hh
            unfold headOne at hh
            cases hd : decideEntry o y (refObj o c0.stars rstars refd (.dir y ch)) with
            | error err => rw [hd] at hh; cases hh
            | ok x' =>
              rw [hd] at hh
              simp only [bind, Except.bind, List.reverse_cons, show (BEntry.dir y ch).name = m from hn, hfl, BEntry.isDir, if_true] at hh
              cases hh
              exact ⟨_, _, rfl⟩
          obtain ⟨x', c2, rfl⟩ := hdown
          simp only [bind, Except.bind] at hb
          cases hl : bkList o rstars (refSub refd y.name) (y.name :: path) ch c2 with
          | error err => rw [hl] at hb; cases hb
          | ok r2 =>
            obtain ⟨l2, c3⟩ := r2
            rw [hl] at hb
            cases hb
            rw [hfind]
            obtain ⟨h1, h2⟩ := link_path (m2 :: p) ch _ _ _ l2 _ n k hl ht (by
              intro q hq hpre
              have := hk (m :: q) (by simp) (by simpa using hpre)
              simpa [hn] using this) (by simpa [hn] using hc)
            exact ⟨h1, hsub h2⟩
      | _ => simp at ht

/-- C33, hard links: each name of a hard linked inode that the filters keep is recorded as a name of the same inode, and the inode is recorded
according to the specification, for one of its names. -/
theorem C33_hard_links (o : BkOpts) (src ref cat : BCat) (st : Stats) (hg : BEntry.EachL (GoodEntry o src) [] src.root)
    (h : backup o src ref = .ok (cat, st)) (p : List Bytes) (n : Bytes) (k : Nat) (ht : treeAt src.root p = some (.mirage n k)) (hk : Kept o p)
    (hc : o.cov p true = true) :
    treeAt cat.root p = some (.mirage n k) ∧ ∃ q m, OccursIn src.root q (.mirage m k) ∧ Recorded o ref q (src.stars k) (cat.stars k) := by
  obtain ⟨l', c', hb, hi, -⟩ := list_total o src ref (some ref.root) [] src.root ⟨src.stars, [], Stats.zero⟩ (fun q _ => rfl) hg (linkInv_start o src ref)
    (fun q e h => h)
  rw [backup_eq, hb] at h
  cases h
  obtain ⟨h1, h2⟩ := link_path p src.root _ [] _ l' c' n k hb ht hk hc
  exact ⟨h1, hi.2 k h2⟩

/-! ### Examples and counterexamples -/

private def dsec (n : Nat) : DateT := ⟨n, .s⟩
private def exIno (kind : InoKind) (size mt ct : Nat) (perm : Nat) : Ino :=
  ⟨kind, 1000, 100, perm, dsec mt, dsec ct, .saved, size, false, false, false, 0, 0, [], .none, 0, 0⟩
private def exObj (name : Bytes) (kind : InoKind) (size mt ct : Nat) (perm : Nat) : Obj := ⟨name, exIno kind size mt ct perm, .none, [], [], []⟩
private def exOpts : BkOpts := ⟨.us, 0, .all, false, 0, false, .anyInodeChange, false, fun _ _ => true, fun _ => false, fun _ => none⟩
private def noStars : Nat → Obj := fun _ => exObj [] .file 3 50 50 420

/-- a directory "d" with an unchanged file "a", a modified file "b" and a new file "c" -/
private def exSrc : BCat := ⟨[.dir (exObj [100] .dir 0 90 90 493) [.node (exObj [97] .file 5 10 10 420), .node (exObj [98] .file 7 80 80 420),
  .node (exObj [99] .file 9 85 85 420)]], noStars⟩
private def exRef : BCat := ⟨[.dir (exObj [100] .dir 0 40 40 493) [.node (exObj [97] .file 5 10 10 420), .node (exObj [98] .file 7 20 20 420)]], noStars⟩

theorem C33_example : ∃ cat st, backup exOpts exSrc exRef = .ok (cat, st) ∧ BEntry.EachL (GoodEntry exOpts exSrc) [] exSrc.root ∧
    (∃ x, treeAt cat.root [[100], [97]] = some (.node x) ∧ x.ino.status = .notSaved) ∧
    (∃ x, treeAt cat.root [[100], [98]] = some (.node x) ∧ x.ino.status = .saved) ∧
    (∃ x, treeAt cat.root [[100], [99]] = some (.node x) ∧ x.ino.status = .saved) ∧ st.treated = 3 ∧ st.skipped = 1 := by
  refine ⟨_, _, rfl, ?_, ⟨_, rfl, rfl⟩, ⟨_, rfl, rfl⟩, ⟨_, rfl, rfl⟩, rfl, rfl⟩
  simp [BEntry.EachL, BEntry.Each, exSrc, GoodEntry, SourceEntry, exObj, exIno]

/-- A file that has another hard link (outside what is saved), whose reference was recorded as a file with a single name (what happens when no tape mark
is used) and which has not changed is not saved again. -/
theorem C33_hard_link_example : ∃ cat st,
    backup exOpts ⟨[.mirage [97] 0], fun _ => exObj [] .file 5 10 10 420⟩ ⟨[.node (exObj [97] .file 5 10 10 420)], noStars⟩ = .ok (cat, st) ∧
    (cat.stars 0).ino.status = .notSaved := ⟨_, _, rfl, rfl⟩

/-- Reading a hard linked file fails while a binary difference was to be made; when the second name of the same inode comes, the program stops on an
internal error: the whole backup is lost. -/
theorem C33_link_failure_counterexample :
    backup { exOpts with deltaDiff := true, fails := fun p => if p = [[97]] then some .inode else none }
      ⟨[.mirage [97] 0, .mirage [98] 0], fun _ => exObj [] .file 5 99 99 420⟩
      ⟨[.mirage [97] 0, .mirage [98] 0], fun _ => let y := exObj [] .file 5 10 10 420; { y with ino := { y.ino with deltaSig := true } }⟩ = .error .bug := by rfl

end Dar
