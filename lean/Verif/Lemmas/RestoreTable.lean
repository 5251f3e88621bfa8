import Verif.Lemmas.RestorePath
/- What the overwriting policy does to one file. -/
namespace Dar

variable {o : RsOpts} {stars : Nat → Obj} {s s' : RsSt} {e : BEntry} {p w : List Bytes} {hard : Bool} {cat : BCat} {fs0 : FS} {x y z : Obj} {j : Nat}
  {le lf : Bytes → Bytes → Option Bytes}

/-- the inode `j` is `z`, and `p` is its only name -/
structure Sole (s : RsSt) (p : List Bytes) (j : Nat) (z : Obj) : Prop where
  ent : s.fs.ent p = some (.ino j)
  ino : s.fs.ino j = z
  names : ∀ q, s.fs.ent q = some (.ino j) → q = p
  lt : j < s.fs.next

theorem Sole.ne (h : Sole s p j z) : s.fs.ent p ≠ none := by rw [h.ent]; simp
theorem Sole.upd (h : Sole s p j z) (f : Obj → Obj) : Sole { s with fs := s.fs.upd p f } p j (f z) := by
  refine ⟨(upd_ino_ent _ _ _ _ _).2 h.ent, ?_, fun q hq => h.names q ((upd_ino_ent _ _ _ _ _).1 hq), ?_⟩
  · show (s.fs.upd p f).ino j = f z
    unfold FS.upd
    rw [h.ent]
    simp [h.ino]
  · show j < (s.fs.upd p f).next
    rw [upd_next]; exact h.lt
theorem Sole.congr {s s' : RsSt} (h : Sole s p j z) (hf : s'.fs = s.fs) : Sole s' p j z :=
  ⟨by rw [hf]; exact h.ent, by rw [hf]; exact h.ino, by rw [hf]; exact h.names, by rw [hf]; exact h.lt⟩

/-- the attributes once the data is there -/
theorem ea_node {a : OverEa} (he : LookLaw o.eaOver le) (hx : x.eaSaved = true) (hs : Sole s p j z) (hz : (∀ n, le z.eas n = le y.eas n) ∨ ∀ n, le z.eas n = eaOutcome le a x y n) :
    match s.overEa o (.node x) x y p a with
    | .ok (s', b) => ∃ E, Sole s' p j { z with eas := E } ∧ (∀ n, le E n = eaOutcome le a x y n)
    | .error (er, _) => er = .range ∧ a = .undefined ∨ er = .bug := by
  have hst : x.ino.eaStatus = .full ∨ x.ino.eaStatus = .removed := by
    simpa [Obj.eaSaved] using hx
  have hget : ∀ n, le x.getEa n = if x.ino.eaStatus = .full then le x.eas n else none := by
    intro n; unfold Obj.getEa; split
    · rfl
    · exact he.none n
  have keep : ∀ {b : Bool}, (∀ n, eaOutcome le a x y n = le y.eas n) → ∃ E, Sole s p j { z with eas := E } ∧ (∀ n, le E n = eaOutcome le a x y n) := by
    intro _ ho
    refine ⟨z.eas, hs, fun n => ?_⟩
    rcases hz with hz | hz
    · rw [hz, ho]
    · exact hz n
  have hover : (∀ n, eaOutcome le a x y n = le x.getEa n) → ∃ E, Sole { s with fs := (s.fs.upd p (fun y => { y with eas := [] })).upd p (fun y => { y with eas := o.eaOver y.eas x.getEa }) } p j { z with eas := E } ∧
      (∀ n, le E n = eaOutcome le a x y n) := by
    intro ho
    have h1 := hs.upd (fun y => { y with eas := [] })
    have h2 := h1.upd (fun y => { y with eas := o.eaOver y.eas x.getEa })
    refine ⟨o.eaOver [] x.getEa, h2, fun n => ?_⟩
    rw [he.set, he.none, ho, Option.or_none]
  have hclr : (∀ n, eaOutcome le a x y n = none) → ∃ E, Sole { s with fs := s.fs.upd p (fun y => { y with eas := [] }) } p j { z with eas := E } ∧ (∀ n, le E n = eaOutcome le a x y n) := by
    intro ho
    exact ⟨[], hs.upd (fun y => { y with eas := [] }), fun n => by rw [he.none, ho]⟩
  have hset : ∀ E0, (∀ n, (le E0 n).or (le z.eas n) = eaOutcome le a x y n) →
      ∃ E, Sole { s with fs := s.fs.upd p (fun y => { y with eas := o.eaOver y.eas E0 }) } p j { z with eas := E } ∧ (∀ n, le E n = eaOutcome le a x y n) := by
    intro E0 ho
    exact ⟨o.eaOver z.eas E0, hs.upd (fun y => { y with eas := o.eaOver y.eas E0 }), fun n => by rw [he.set, ho]⟩
  unfold RsSt.overEa
  simp only
  cases a with
  | preserve => simp only [reduceCtorEq, or_self, and_false, if_false]; exact keep (b := false) (fun n => by unfold eaOutcome; rcases hst with h | h <;> rw [h])
  | preserveMark => simp only [reduceCtorEq, or_self, and_false, if_false]; exact keep (b := false) (fun n => by unfold eaOutcome; rcases hst with h | h <;> rw [h])
  | undefined => simp only [reduceCtorEq, or_self, and_false, if_false]; exact Or.inl ⟨rfl, trivial⟩
  | ask => simp only [reduceCtorEq, or_self, and_false, if_false]; exact Or.inr rfl
  | overwrite =>
    simp only [reduceCtorEq, or_self, and_false, if_false]
    exact hover (fun n => by unfold eaOutcome; rw [hget]; rcases hst with h | h <;> simp [h])
  | overwriteMark =>
    simp only [reduceCtorEq, or_self, and_false, if_false]
    exact hover (fun n => by unfold eaOutcome; rw [hget]; rcases hst with h | h <;> simp [h])
  | clear =>
    simp only [reduceCtorEq, or_self, and_false, if_false]
    exact hclr (fun n => by unfold eaOutcome; rcases hst with h | h <;> simp [h])
  | mergePreserve =>
    by_cases hy : y.eas = []
    · simp only [hy, true_or, and_self, if_true, reduceCtorEq, or_self, and_false, if_false]
      refine hover (fun n => ?_)
      unfold eaOutcome; rw [hget, hy, he.none]; rcases hst with h | h <;> simp [h]
    · simp only [hy, false_and, if_false, true_or, and_true]
      rcases hst with h | h
      · simp only [h, reduceCtorEq, if_false, if_true]
        refine hset _ (fun n => ?_)
        rw [he.set, hget, if_pos h]
        rcases hz with hz | hz
        · rw [hz]; unfold eaOutcome; rw [h]; dsimp only
          cases le y.eas n <;> cases le x.eas n <;> rfl
        · rw [hz]; unfold eaOutcome; rw [h]; dsimp only
          cases le y.eas n <;> cases le x.eas n <;> rfl
      · simp only [h, if_true]
        exact hclr (fun n => by unfold eaOutcome; simp [h])
  | mergeOverwrite =>
    by_cases hy : y.eas = []
    · simp only [hy, or_true, and_self, if_true, reduceCtorEq, or_self, and_false, if_false]
      refine hover (fun n => ?_)
      unfold eaOutcome; rw [hget, hy, he.none]; rcases hst with h | h <;> simp [h]
    · simp only [hy, false_and, if_false, or_true, and_true]
      rcases hst with h | h
      · simp only [h, reduceCtorEq, if_false, if_true]
        refine hset _ (fun n => ?_)
        rw [he.set, hget, if_pos h]
        rcases hz with hz | hz
        · rw [hz]; unfold eaOutcome; rw [h]; dsimp only
          cases le y.eas n <;> cases le x.eas n <;> rfl
        · rw [hz]; unfold eaOutcome; rw [h]; dsimp only
          cases le y.eas n <;> cases le x.eas n <;> rfl
      · simp only [h, if_true]
        exact hclr (fun n => by unfold eaOutcome; simp [h])

theorem fsa_node {a : OverEa} {base : Bytes} (hl : LookLaw o.fsaOver lf) (hx : x.fsa = .full) (hs : Sole s p j z) (hz : ∀ n, lf z.fsas n = (lf y.fsas n).or (lf base n)) :
    match s.overFsa o (.node x) x y p a with
    | .ok (s', b) => ∃ F, Sole s' p j { z with fsas := F } ∧ (∀ n, lf F n = fsaOutcome lf a base x y n)
    | .error (er, _) => er = .range ∧ a = .undefined ∨ er = .bug := by
  have keep : (∀ n, fsaOutcome lf a base x y n = (lf y.fsas n).or (lf base n)) → ∃ F, Sole s p j { z with fsas := F } ∧ (∀ n, lf F n = fsaOutcome lf a base x y n) :=
    fun ho => ⟨z.fsas, hs, fun n => by rw [hz, ho]⟩
  have hset : ∀ F0, (∀ n, (lf F0 n).or (lf z.fsas n) = fsaOutcome lf a base x y n) → ∃ F, Sole (s.setFsa o F0 p) p j { z with fsas := F } ∧ (∀ n, lf F n = fsaOutcome lf a base x y n) := by
    intro F0 ho
    exact ⟨o.fsaOver z.fsas F0, hs.upd (fun y => { y with fsas := o.fsaOver y.fsas F0 }), fun n => by rw [hl.set, ho]⟩
  unfold RsSt.overFsa
  simp only [RsSt.knows]
  cases a with
  | preserve => simp only [reduceCtorEq, or_self, and_false, if_false]; exact keep (fun n => by unfold fsaOutcome; simp [hx])
  | preserveMark => simp only [reduceCtorEq, or_self, and_false, if_false]; exact keep (fun n => by unfold fsaOutcome; simp [hx])
  | clear => simp only [reduceCtorEq, or_self, and_false, if_false]; exact keep (fun n => by unfold fsaOutcome; simp [hx])
  | undefined => simp only [reduceCtorEq, or_self, and_false, if_false]; exact Or.inl ⟨rfl, trivial⟩
  | ask => simp only [reduceCtorEq, or_self, and_false, if_false]; exact Or.inr rfl
  | overwrite =>
    simp only [reduceCtorEq, or_self, and_false, if_false, Bool.false_eq_true]
    exact hset _ (fun n => by rw [hz]; unfold fsaOutcome; simp [hx])
  | overwriteMark =>
    simp only [reduceCtorEq, or_self, and_false, if_false, Bool.false_eq_true]
    exact hset _ (fun n => by rw [hz]; unfold fsaOutcome; simp [hx])
  | mergePreserve =>
    by_cases hy : y.fsas = []
    · simp only [hy, true_or, and_self, if_true, Bool.false_eq_true, if_false]
      exact hset _ (fun n => by rw [hz]; unfold fsaOutcome; simp [hx, hy, hl.none])
    · simp only [hy, false_and, if_false]
      refine hset _ (fun n => ?_)
      rw [hz, hl.set]; unfold fsaOutcome; simp only [hx, if_true]
      cases lf y.fsas n <;> cases lf x.fsas n <;> simp
  | mergeOverwrite =>
    by_cases hy : y.fsas = []
    · simp only [hy, or_true, and_self, if_true, Bool.false_eq_true, if_false]
      exact hset _ (fun n => by rw [hz]; unfold fsaOutcome; simp [hx, hy, hl.none])
    · simp only [hy, false_and, if_false]
      refine hset _ (fun n => ?_)
      rw [hz, hl.set]; unfold fsaOutcome; simp only [hx, if_true]
      cases lf y.fsas n <;> cases lf x.fsas n <;> simp

/-- the inode of a file created where there is nothing -/
theorem sole_new (hk : x.ino.kind ≠ .dir) (hids : ∀ q i, s.fs.ent q = some (.ino i) → i < s.fs.next) (hn : s.fs.ent p = none) :
    Sole { s with fs := s.fs.newObj o p x } p s.fs.next (o.blank x) := by
  have hf : s.fs.newObj o p x = { s.fs.put o.now p (.ino s.fs.next) with ino := fun j => if j = s.fs.next then o.blank x else s.fs.ino j, next := s.fs.next + 1 } := by
    unfold FS.newObj FS.newIno FS.newDir
    rw [if_neg hk]
  refine ⟨?_, ?_, fun q hq => ?_, ?_⟩
  · rw [hf]; simp [FS.put]
  · rw [hf]; simp
  · rcases newObj_names _ _ _ _ _ _ hq with h3 | ⟨h3, -⟩
    · exact absurd (hids q _ h3.1) (by omega)
    · exact h3
  · rw [hf]; simp

theorem ownerPerm_ino (o : RsOpts) (x : Obj) {a b : Obj} (h : a.ino = b.ino) : (o.ownerPerm x (o.date x a)).ino = (o.ownerPerm x (o.date x b)).ino := by
  unfold RsOpts.ownerPerm RsOpts.date
  simp only
  split <;> split <;> split <;> simp [h]
theorem ownerPerm_data (o : RsOpts) (x a : Obj) : (o.ownerPerm x (o.date x a)).data = a.data := by
  unfold RsOpts.ownerPerm RsOpts.date
  simp only
  split <;> split <;> split <;> rfl
theorem ownerPerm_keeps (o : RsOpts) (x a : Obj) : (o.ownerPerm x (o.date x a)).ino =
    { a.ino with uid := (o.ownerPerm x (o.date x a)).ino.uid, gid := (o.ownerPerm x (o.date x a)).ino.gid, perm := (o.ownerPerm x (o.date x a)).ino.perm, mtime := (o.ownerPerm x (o.date x a)).ino.mtime } := by
  unfold RsOpts.ownerPerm RsOpts.date
  simp only
  split <;> split <;> split <;> rfl
theorem stamped (o : RsOpts) (x a : Obj) : Stamped o x a.ino.uid a.ino.gid a.ino.perm a.ino.mtime (o.ownerPerm x (o.date x a)) := by
  unfold RsOpts.ownerPerm RsOpts.date
  cases hw : o.what <;> by_cases hk : x.ino.kind = .symlink <;> constructor <;> simp [hw, hk]
theorem content_owner (o : RsOpts) (x a b : Obj) (h : SameContent a b) : SameContent (o.ownerPerm x (o.date x a)) b := by
  unfold RsOpts.ownerPerm RsOpts.date
  simp only
  split <;> split <;> split <;> exact h

/-- the data of the file -/
structure ContentIs (o : RsOpts) (le lf : Bytes → Bytes → Option Bytes) (ad : OverData) (x y z : Obj) (d : RsDone) : Prop where
  eas : ∀ n, le z.eas n = le y.eas n
  fsas : ∀ n, lf z.fsas n = (lf y.fsas n).or (lf (if x.ino.status = .saved ∧ Replaces ad then o.fsa0 else []) n)
  done : d = .restored → (∀ E F, DataOutcome o ad x y (o.ownerPerm x (o.date x { z with eas := E, fsas := F }))) ∧ (x.ino.status = .delta ∨ InArchive x)
  kept : d ≠ .restored → z = y ∧ ∀ E F, DataOutcome o ad x y { y with eas := E, fsas := F }

theorem content_node (ad : OverData) (he : LookLaw o.eaOver le) (hl : LookLaw o.fsaOver lf) (hs : Sole s p j y) (hp : p ≠ []) (hd : s.fs.isDir p.dropLast = true)
    (hids : ∀ q i, s.fs.ent q = some (.ino i) → i < s.fs.next) (hk : x.ino.kind ≠ .dir) :
    match s.overContent o (.node x) x y p ad with
    | .ok (s1, d) => (ad = .remove ∧ InArchive x ∧ s1.fs.ent p = none ∧ d = .removed) ∨
        (¬ (ad = .remove ∧ InArchive x) ∧ ¬ Refused o ad x y ∧ ∃ j1 z1, Sole s1 p j1 z1 ∧ ContentIs o le lf ad x y z1 d ∧ (¬ (x.ino.status = .saved ∧ Replaces ad) → j1 = j))
    | .error (er, s1) => er = .bug ∨ s1 = s ∧ Refused o ad x y := by
  have hRem : ¬ s.fs.ent p = none := hs.ne
  have keepIs : ∀ {d : RsDone}, d ≠ .restored → ¬ (x.ino.status = .saved ∧ Replaces ad) → (∀ E F, DataOutcome o ad x y { y with eas := E, fsas := F }) → ContentIs o le lf ad x y y d := by
    intro d hd hn ho
    exact ⟨fun _ => rfl, fun n => by rw [if_neg hn, hl.none, Option.or_none], fun h => absurd h hd, fun _ => ⟨rfl, ho⟩⟩
  unfold RsSt.overContent
  by_cases hin : x.ino.status = .saved ∨ x.ino.status = .inodeOnly
  · rw [if_pos hin]
    have hsame : sameInPlace x y = decide (x.ino.kind = y.ino.kind) := by rfl
    have hpres : ¬ Replaces ad → ad ≠ .remove → ad ≠ .undefined → (¬ (ad = .remove ∧ InArchive x) ∧ ¬ Refused o ad x y ∧ ∃ j1 z1, Sole s p j1 z1 ∧ ContentIs o le lf ad x y z1 .policy ∧ (¬ (x.ino.status = .saved ∧ Replaces ad) → j1 = j)) := by
      intro h1 h2 h3
      refine ⟨fun h => h2 h.1, ?_, j, y, hs, keepIs (by simp) (fun h => h1 h.2) (fun E F => ?_), fun _ => rfl⟩
      · rintro (h | h | h)
        · exact h1 h.2.1
        · rcases hin with hi | hi <;> rw [hi] at h <;> exact absurd h.1 (by simp)
        · exact h3 h.2
      · unfold DataOutcome
        rcases hin with hi | hi <;> rw [hi] <;> simp [h1]
    have hover : Replaces ad → ad ≠ .remove → ad ≠ .undefined → match (if ((BEntry.node x).isDir || decide (x.ino.status = .inodeOnly)) && sameInPlace x y then (.ok ({ s with fs := s.fs.upd p (o.widen x) }, .restored) : RsM (RsSt × RsDone))
        else if x.ino.status = .inodeOnly then s.throw .range
        else do
          let s ← s.replace o (.node x) x y p
          .ok (s, .restored)) with
      | .ok (s1, d) => (ad = .remove ∧ InArchive x ∧ s1.fs.ent p = none ∧ d = .removed) ∨
          (¬ (ad = .remove ∧ InArchive x) ∧ ¬ Refused o ad x y ∧ ∃ j1 z1, Sole s1 p j1 z1 ∧ ContentIs o le lf ad x y z1 d ∧ (¬ (x.ino.status = .saved ∧ Replaces ad) → j1 = j))
      | .error (er, s1) => er = .bug ∨ s1 = s ∧ Refused o ad x y := by
      intro hr h2 h3
      rw [hsame]
      by_cases hi : x.ino.status = .inodeOnly
      · by_cases hkk : x.ino.kind = y.ino.kind
        · rw [if_pos (by simp [hi, hkk])]
          right
          refine ⟨fun h => h2 h.1, ?_, j, o.widen x y, hs.upd _, ?_, fun _ => rfl⟩
          · rintro (h | h | h)
            · exact h.2.2 hkk.symm
            · rw [hi] at h; exact absurd h.1 (by simp)
            · exact h3 h.2
          · have hwy : o.widen x y = y := by unfold RsOpts.widen; rw [if_neg (fun h => hk h.1)]
            rw [hwy]
            refine ⟨fun _ => rfl, fun n => by rw [if_neg (by simp [hi]), hl.none, Option.or_none], fun _ => ⟨fun E F => ?_, Or.inr hin⟩, fun h => absurd rfl h⟩
            unfold DataOutcome
            rw [hi]
            simp only [hr, if_true]
            refine ⟨?_, content_owner _ _ _ _ ⟨fun _ => ⟨rfl, rfl⟩, fun _ => rfl, fun _ => ⟨rfl, rfl⟩⟩, stamped o x { y with eas := E, fsas := F }⟩
            rw [ownerPerm_kind, date_kind]
        · rw [if_neg (by simp [hkk]), if_pos hi]
          exact Or.inr ⟨rfl, Or.inl ⟨hi, hr, fun h => hkk h.symm⟩⟩
      · have hsv := hin.resolve_right hi
        rw [if_neg (by simp [BEntry.isDir, hi]), if_neg hi]
        have hdr : (s.fs.remove o.now p).isDir p.dropLast = true := by
          rw [remove_keeps _ _ _ _ (fun hc => dropLast_ne hp ((List.dropLast_prefix p).eq_of_length (Nat.le_antisymm (List.dropLast_prefix p).length_le hc.length_le)))]
          exact hd
        have hrp : s.replace o (.node x) x y p = .ok (RsSt.setFsa o (if y.eas = [] then ({ s with fs := (s.fs.remove o.now p).newObj o p x } : RsSt)
            else { s with fs := ((s.fs.remove o.now p).newObj o p x).upd p (fun z => { z with eas := o.eaOver z.eas y.eas }) }) y.fsas p) := by
          unfold RsSt.replace RsSt.makeFile
          simp only [create_newObj, hdr, if_true]
          rfl
        rw [hrp]
        right
        have h0 := sole_new (o := o) (s := { s with fs := s.fs.remove o.now p }) (p := p) hk (fun q i hq => hids q i (remove_names _ _ _ _ _ hq)) (remove_none s.fs o.now p)
        have h1 : ∃ E, Sole (if y.eas = [] then ({ s with fs := (s.fs.remove o.now p).newObj o p x } : RsSt)
            else { s with fs := ((s.fs.remove o.now p).newObj o p x).upd p (fun z => { z with eas := o.eaOver z.eas y.eas }) }) p s.fs.next { o.blank x with eas := E } ∧ ∀ n, le E n = le y.eas n := by
          by_cases hye : y.eas = []
          · simp only [hye, if_true]
            exact ⟨[], h0, fun n => rfl⟩
          · simp only [hye, if_false]
            exact ⟨o.eaOver [] y.eas, h0.upd (fun z => { z with eas := o.eaOver z.eas y.eas }), fun n => by rw [he.set, he.none, Option.or_none]⟩
        obtain ⟨E0, h1, h1e⟩ := h1
        refine ⟨fun h => h2 h.1, ?_, s.fs.next, { o.blank x with eas := E0, fsas := o.fsaOver o.fsa0 y.fsas }, h1.upd (fun z => { z with fsas := o.fsaOver z.fsas y.fsas }), ?_, fun h => absurd ⟨hsv, hr⟩ h⟩
        · rintro (h | h | h)
          · exact hi h.1
          · rw [hsv] at h; exact absurd h.1 (by simp)
          · exact h3 h.2
        · refine ⟨h1e, fun n => by rw [if_pos ⟨hsv, hr⟩, hl.set], fun _ => ⟨fun E F => ?_, Or.inr hin⟩, fun h => absurd rfl h⟩
          unfold DataOutcome
          rw [hsv]
          simp only [hr, if_true]
          refine ⟨?_, content_owner _ _ _ _ ⟨fun _ => ⟨rfl, rfl⟩, fun _ => rfl, fun _ => ⟨rfl, rfl⟩⟩, stamped o x { o.blank x with eas := E, fsas := F }⟩
          rw [ownerPerm_kind, date_kind]; rfl
    unfold RsSt.overData
    simp only
    cases ad with
    | preserve => rw [if_neg (by simp [BEntry.isDir])]; exact Or.inr (hpres (by simp [Replaces]) (by simp) (by simp))
    | preserveMark => rw [if_neg (by simp [BEntry.isDir])]; exact Or.inr (hpres (by simp [Replaces]) (by simp) (by simp))
    | overwrite => exact hover (by simp [Replaces]) (by simp) (by simp)
    | overwriteMark => exact hover (by simp [Replaces]) (by simp) (by simp)
    | remove => exact Or.inl ⟨rfl, hin, remove_none s.fs o.now p, rfl⟩
    | undefined => exact Or.inr ⟨rfl, Or.inr (Or.inr ⟨hin, rfl⟩)⟩
    | ask => exact Or.inl rfl
  · rw [if_neg hin]
    have hns : ¬ (x.ino.status = .saved ∧ Replaces ad) := fun h => hin (Or.inl h.1)
    have hni : ¬ (ad = .remove ∧ InArchive x) := fun h => hin h.2
    by_cases hdl : x.ino.status = .delta
    · rw [if_pos hdl]
      by_cases hf : y.ino.isFile = true
      · rw [if_pos hf]
        cases hpt : o.patch y.data x with
        | error er => exact Or.inr ⟨rfl, Or.inr (Or.inl ⟨hdl, hf, fun d hd => by rw [hpt] at hd; cases hd⟩)⟩
        | ok d =>
          right
          refine ⟨hni, ?_, j, { y with data := d, ino := { y.ino with size := x.ino.size, mtime := o.now } },
            hs.upd (fun z => { z with data := d, ino := { z.ino with size := x.ino.size, mtime := o.now } }), ?_, fun _ => rfl⟩
          · rintro (h | h | h)
            · rw [hdl] at h; exact absurd h.1 (by simp)
            · exact h.2.2 d hpt
            · exact hin h.1
          · refine ⟨fun _ => rfl, fun n => by rw [if_neg hns, hl.none, Option.or_none], fun _ => ⟨fun E F => ?_, Or.inl hdl⟩, fun h => absurd rfl h⟩
            unfold DataOutcome
            rw [hdl]
            simp only [hf, if_true]
            refine ⟨?_, ?_, stamped o x { y with data := d, ino := { y.ino with size := x.ino.size, mtime := o.now }, eas := E, fsas := F }⟩
            · rw [ownerPerm_kind, date_kind]
            · rw [ownerPerm_data]; exact hpt
      · rw [if_neg hf]
        right
        refine ⟨hni, ?_, j, y, hs, keepIs (by simp) hns (fun E F => ?_), fun _ => rfl⟩
        · rintro (h | h | h)
          · rw [hdl] at h; exact absurd h.1 (by simp)
          · exact hf h.2.1
          · exact hin h.1
        · unfold DataOutcome
          rw [hdl]
          simp [hf]
    · rw [if_neg hdl]
      right
      refine ⟨hni, ?_, j, y, hs, keepIs (by simp) hns (fun E F => ?_), fun _ => rfl⟩
      · rintro (h | h | h)
        · exact hin (Or.inr h.1)
        · exact hdl h.1
        · exact hin h.1
      · unfold DataOutcome
        cases hst : x.ino.status with
        | saved => exact absurd (Or.inl hst) hin
        | inodeOnly => exact absurd (Or.inr hst) hin
        | delta => exact absurd hst hdl
        | notSaved => exact ⟨rfl, rfl⟩
        | fake => exact ⟨rfl, rfl⟩

theorem flagFs (s : RsSt) : s.flag.fs = s.fs := by rw [flag_eq]

/-- a file over an existing one -/
theorem over_node (ad : OverData) (ae : OverEa) (he : LookLaw o.eaOver le) (hl : LookLaw o.fsaOver lf) (hs : Sole s p j y) (hp : p ≠ []) (hd : s.fs.isDir p.dropLast = true)
    (hids : ∀ q i, s.fs.ent q = some (.ino i) → i < s.fs.next) (hk : x.ino.kind ≠ .dir) (hyk : y.ino.kind ≠ .dir) :
    match s.writeOver o (.node x) x y p ad ae with
    | .ok (s1, _) => (ad = .remove ∧ InArchive x ∧ s1.fs.ent p = none) ∨
        (¬ (ad = .remove ∧ InArchive x) ∧ ¬ Refused o ad x y ∧ ∃ j1 z, Sole s1 p j1 z ∧ DataOutcome o ad x y z ∧ (∀ n, le z.eas n = eaOutcome le (if ad = .remove then .preserve else ae) x y n) ∧
          (∀ n, lf z.fsas n = fsaOutcome lf (if ad = .remove then .preserve else ae) (if x.ino.status = .saved ∧ Replaces ad then o.fsa0 else []) x y n) ∧
          (¬ (x.ino.status = .saved ∧ Replaces ad) → j1 = j))
    | .error (er, s1) => er = .bug ∨ (ad = .remove ∧ InArchive x ∧ s1.fs.ent p = none) ∨ s1 = s ∧ Refused o ad x y := by
  have hc := content_node (o := o) (x := x) ad he hl hs hp hd hids hk
  unfold RsSt.writeOver
  cases hoc : s.overContent o (.node x) x y p ad with
  | error er =>
    rw [hoc] at hc
    rcases hc with h | h
    · exact Or.inl h
    · exact Or.inr (Or.inr h)
  | ok r =>
    obtain ⟨s1, d⟩ := r
    rw [hoc] at hc
    simp only [bind, Except.bind]
    rcases hc with ⟨h1, h2, h3, h4⟩ | ⟨h1, h2, j1, z1, h3, h4, h5⟩
    · subst h1; subst h4
      have hcond : x.fsa = .full ∨ x.eaSaved = true ∨ x.ino.status = .delta ∨ x.ino.status = .saved ∨ x.ino.status = .inodeOnly := by
        rcases h2 with h | h <;> simp [h]
      simp only [ne_eq, not_true_eq_false, false_and, if_false, hcond, if_true, reduceCtorEq]
      have hsd : s1.setDate o y p = if o.what = .inodeType then .ok s1 else s1.throw .range := by unfold RsSt.setDate; rw [h3]
      rw [hsd]
      by_cases hw : o.what = .inodeType
      · simp only [hw, if_true, true_or, flagFs]
        exact Or.inl ⟨trivial, h2, h3⟩
      · simp only [hw, if_false]
        exact Or.inr (Or.inl ⟨trivial, h2, h3⟩)
    · -- extended attributes
      have e1 : match (if ad ≠ .remove ∧ x.eaSaved = true then caught s1 (s1.overEa o (.node x) x y p ae) else .ok (s1, false)) with
          | .ok (s2, b) => ∃ E, Sole s2 p j1 { z1 with eas := E } ∧ (∀ n, le E n = eaOutcome le (if ad = .remove then .preserve else ae) x y n) ∧ (b = true → ad ≠ .remove ∧ x.eaSaved = true)
          | .error (er, _) => er = .bug := by
        by_cases hcd : ad ≠ .remove ∧ x.eaSaved = true
        · rw [if_pos hcd, if_neg hcd.1]
          have := ea_node (y := y) (a := ae) he hcd.2 h3 (Or.inl h4.eas)
          cases hr : s1.overEa o (.node x) x y p ae with
          | ok v =>
            rw [hr] at this
            obtain ⟨E, g1, g2⟩ := this
            exact ⟨E, g1, g2, fun _ => hcd⟩
          | error v =>
            obtain ⟨er, t⟩ := v
            rw [hr] at this
            rcases this with ⟨rfl, g2⟩ | rfl
            · refine ⟨z1.eas, h3, fun n => ?_, fun h => by cases h⟩
              rw [h4.eas, g2]; unfold eaOutcome
              cases x.ino.eaStatus <;> rfl
            · rfl
        · rw [if_neg hcd]
          refine ⟨z1.eas, h3, fun n => ?_, fun h => by cases h⟩
          rw [h4.eas]
          by_cases hr : ad = .remove
          · rw [if_pos hr]; unfold eaOutcome; cases x.ino.eaStatus <;> rfl
          · have hns : x.eaSaved = false := by simpa [hr] using hcd
            unfold eaOutcome
            unfold Obj.eaSaved at hns
            cases hst : x.ino.eaStatus <;> simp_all
      generalize (if ad ≠ .remove ∧ x.eaSaved = true then caught s1 (s1.overEa o (.node x) x y p ae) else .ok (s1, false)) = g1 at e1 ⊢
      cases g1 with
      | error v => exact Or.inl e1
      | ok v =>
        obtain ⟨s2, eaD⟩ := v
        obtain ⟨E, a1, a2, a3⟩ := e1
        dsimp only
        -- attributes of the filesystem
        have e2 : match (if ad ≠ .remove ∧ x.fsa = .full then caught s2 (s2.overFsa o (.node x) x y p ae) else .ok (s2, false)) with
            | .ok (s3, b) => ∃ F, Sole s3 p j1 { z1 with eas := E, fsas := F } ∧
                (∀ n, lf F n = fsaOutcome lf (if ad = .remove then .preserve else ae) (if x.ino.status = .saved ∧ Replaces ad then o.fsa0 else []) x y n)
            | .error (er, _) => er = .bug := by
          by_cases hcd : ad ≠ .remove ∧ x.fsa = .full
          · rw [if_pos hcd, if_neg hcd.1]
            have := fsa_node (y := y) (a := ae) (base := if x.ino.status = .saved ∧ Replaces ad then o.fsa0 else []) hl hcd.2 a1 h4.fsas
            cases hr : s2.overFsa o (.node x) x y p ae with
            | ok v => rw [hr] at this; exact this
            | error v =>
              obtain ⟨er, t⟩ := v
              rw [hr] at this
              rcases this with ⟨rfl, g2⟩ | rfl
              · refine ⟨z1.fsas, a1, fun n => ?_⟩
                rw [h4.fsas, g2]; unfold fsaOutcome
                simp
              · rfl
          · rw [if_neg hcd]
            refine ⟨z1.fsas, a1, fun n => ?_⟩
            rw [h4.fsas]
            by_cases hr : ad = .remove
            · rw [if_pos hr]; unfold fsaOutcome; simp
            · have hns : x.fsa ≠ .full := by simpa [hr] using hcd
              unfold fsaOutcome; simp [hns]
        generalize (if ad ≠ .remove ∧ x.fsa = .full then caught s2 (s2.overFsa o (.node x) x y p ae) else .ok (s2, false)) = g2 at e2 ⊢
        cases g2 with
        | error v => exact Or.inl e2
        | ok v =>
          obtain ⟨s3, fb⟩ := v
          obtain ⟨F, b1, b2⟩ := e2
          dsimp only
          simp only [setDate_ok b1.ne, hyk, if_false]
          -- dates and owner
          generalize hg : (if x.fsa = .full ∨ x.eaSaved = true ∨ x.ino.status = .delta ∨ x.ino.status = .saved ∨ x.ino.status = .inodeOnly then _ else _) = g3
          have e3 : ∃ (s4 : RsSt) (z4 : Obj), g3 = .ok s4 ∧ Sole s4 p j1 { z4 with eas := E, fsas := F } ∧ ∀ E' F', DataOutcome o ad x y { z4 with eas := E', fsas := F' } := by
            rw [← hg]
            by_cases hdn : d = .restored
            · obtain ⟨c1, c2⟩ := h4.done hdn
              have hcond : x.fsa = .full ∨ x.eaSaved = true ∨ x.ino.status = .delta ∨ x.ino.status = .saved ∨ x.ino.status = .inodeOnly := by
                rcases c2 with h | h | h <;> simp [h]
              rw [if_pos hcond, if_pos hdn]
              refine ⟨_, o.ownerPerm x (o.date x z1), rfl, ?_, ?_⟩
              · have := (b1.upd (o.date x)).upd (o.ownerPerm x)
                rw [op_attr] at this
                exact this
              · intro E' F'
                have := c1 E' F'
                rw [op_attr] at this
                exact this
            · obtain ⟨c1, c2⟩ := h4.kept hdn
              subst c1
              by_cases hcond : x.fsa = .full ∨ x.eaSaved = true ∨ x.ino.status = .delta ∨ x.ino.status = .saved ∨ x.ino.status = .inodeOnly
              · rw [if_pos hcond, if_neg hdn]
                refine ⟨_, z1, rfl, ?_, c2⟩
                have := b1.upd (o.date z1)
                have hdd : o.date z1 { z1 with eas := E, fsas := F } = { z1 with eas := E, fsas := F } := by unfold RsOpts.date; split <;> rfl
                rw [hdd] at this
                exact this
              · rw [if_neg hcond]
                exact ⟨_, z1, rfl, b1, c2⟩
          obtain ⟨s4, z4, rfl, d1, d2⟩ := e3
          dsimp only
          -- extended attributes again
          by_cases hb : eaD = true
          · rw [if_pos hb]
            obtain ⟨hb1, hb2⟩ := a3 hb
            rw [if_neg hb1] at a2
            have := ea_node (y := y) (a := ae) he hb2 d1 (Or.inr a2)
            cases hr : s4.overEa o (.node x) x y p ae with
            | ok v =>
              obtain ⟨s5, bb⟩ := v
              rw [hr] at this
              obtain ⟨E2, g1, g2⟩ := this
              show (_ ∨ _)
              refine Or.inr ⟨h1, h2, j1, { z4 with eas := E2, fsas := F }, ?_, d2 E2 F, ?_, b2, h5⟩
              · split
                · exact g1.congr (flagFs _)
                · exact g1
              · rw [if_neg hb1]; exact g2
            | error v =>
              obtain ⟨er, t⟩ := v
              rw [hr] at this
              rcases this with ⟨rfl, g2⟩ | rfl
              · show (_ ∨ _)
                refine Or.inr ⟨h1, h2, j1, { z4 with eas := E, fsas := F }, ?_, d2 E F, ?_, b2, h5⟩
                · split
                  · exact d1.congr (flagFs _)
                  · exact d1
                · rw [if_neg hb1]; exact a2
              · exact Or.inl rfl
          · rw [if_neg hb]
            refine Or.inr ⟨h1, h2, j1, { z4 with eas := E, fsas := F }, ?_, d2 E F, a2, b2, h5⟩
            show Sole (if _ then _ else _) _ _ _
            split
            · exact d1.congr (flagFs _)
            · exact d1
where
  op_attr {o : RsOpts} {x z : Obj} {E F : Bytes} : o.ownerPerm x (o.date x { z with eas := E, fsas := F }) = { o.ownerPerm x (o.date x z) with eas := E, fsas := F } := by
    unfold RsOpts.ownerPerm RsOpts.date
    simp only
    split <;> split <;> split <;> rfl

theorem prims_isDir {a b : RsSt} (hp : Prims o e w hard a b) (r : List Bytes) (hr : ¬ w <+: r) (h : a.fs.isDir r = true) : b.fs.isDir r = true := by
  refine hp.inv (I := fun b => b.fs.isDir r = true) ?_ h
  intro c d hi hcd
  cases hcd with
  | make x hh hn hd => exact newObj_isDir hn hi
  | link m k j v hh he hl hi' hn hd => exact put_isDir hn hi
  | remove hh => show (c.fs.remove o.now w).isDir r = true; rw [remove_keeps _ _ _ _ hr]; exact hi
  | update f hk => show (c.fs.upd w f).isDir r = true; rw [upd_isDir]; exact hi
  | record m k q' b he hq' => exact hi
  | forget k => exact hi
  | flag => rw [flag_eq]; exact hi

theorem prims_ids {a b : RsSt} (hp : Prims o e w hard a b) (h : ∀ q i, a.fs.ent q = some (.ino i) → i < a.fs.next) : ∀ q i, b.fs.ent q = some (.ino i) → i < b.fs.next := by
  refine hp.inv (I := fun b => ∀ q i, b.fs.ent q = some (.ino i) → i < b.fs.next) ?_ h
  intro c d hi hcd q i hq
  cases hcd with
  | make x hh hn hd =>
    rcases newObj_names _ _ _ _ _ _ hq with h3 | ⟨-, h3, h4⟩
    · exact (hi q i h3.1).trans_le (newObj_nextLe ..)
    · show i < (c.fs.newObj o w x).next; rw [h4]; omega
  | link m k j v hh he hl hi' hn hd =>
    rcases put_names _ _ _ _ _ _ hq with h3 | ⟨-, h3⟩
    · exact hi q i h3.1
    · rw [h3]; exact hi _ _ hi'
  | remove hh => exact hi q i (remove_names _ _ _ _ _ hq)
  | update f hk => show i < (c.fs.upd w f).next; rw [upd_next]; exact hi q i ((upd_ino_ent _ _ _ _ _).1 hq)
  | record m k q' b he hq' => exact hi q i hq
  | forget k => exact hi q i hq
  | flag => rw [flag_eq] at hq ⊢; exact hi q i hq

theorem prims_labs {a b : RsSt} (hp : Prims o e w hard a b) (hm : ∀ n k, e ≠ .mirage n k) : ∀ k v, b.label k = some v → a.label k = some v := by
  refine hp.inv (I := fun b => ∀ k v, b.label k = some v → a.label k = some v) ?_ (fun _ _ h => h)
  intro c d hi hcd k v hv
  cases hcd with
  | record m k' q' b he hq' => exact absurd he (hm m k')
  | forget k' => exact hi k v (label_forget c k' k v hv)
  | flag => rw [flag_eq] at hv; exact hi k v hv
  | _ => exact hi k v hv

/-- once the entry has been written, what follows is done from there -/
theorem frame_base {s0 : RsSt} {b : Bool} (h : FrameSt (fun q => q = p) s0 s) (hp : s.cdir ++ [e.name] = p) (hd : e.isDir = false) (hm : ∀ n k, e ≠ .mirage n k) (ht : rsTurn o stars s e = .ok (s', b)) :
    FrameSt (fun q => q = p) s' s' := by
  have htd := rsTurn_done ht
  have hst := h.stk.turn htd
  have key : ∀ s1 : RsSt, Prims o e (s.cdir ++ [e.name]) true s s1 → s'.fs = s1.fs → s'.corres = s1.corres → s'.cdir = s1.cdir → FrameSt (fun q => q = p) s' s' := by
    intro s1 h1 hf hc hcd
    have hl : ∀ k, s'.label k = s1.label k := fun k => by unfold RsSt.label; rw [hc]
    refine ⟨⟨fun _ _ => rfl, fun q r hq hr hne => ?_, fun i _ hi => ⟨rfl, hi⟩, fun k v hv => ?_, ?_, Nat.le_refl _⟩, hst, ?_, fun q hq => ?_⟩
    · rw [hf]
      refine prims_isDir h1 r (fun hw => ?_) (h.prot.dirs q r hq hr hne)
      rw [hp, ← hq] at hw
      exact hne (hr.eq_of_length (Nat.le_antisymm hr.length_le hw.length_le))
    · rw [hl] at hv
      exact h.prot.labs k v (prims_labs h1 hm k v hv)
    · rw [hf]; exact prims_ids h1 h.prot.ids
    · unfold DirKinds; rw [hf]
      exact h1.inv (I := DirKinds) (fun _ _ hi hq => hi.prim hq) h.kinds
    · rw [hcd, (prims_frame h1).1]; exact h.free q hq
  cases htd with
  | passed => exact key s .refl rfl rfl rfl
  | failed s1 st h1 => exact key s1 h1 rfl rfl rfl
  | written s1 st h1 => exact key s1 h1 rfl rfl rfl
  | entered s1 st x c f he h1 => rw [he] at hd; cases hd

theorem considered_iff : Considered o p e ↔ (e.isDet && o.notDeleted) = false ∧ (o.cov p e && (!o.onlyDeleted || e.isDir || e.isDet)) = true := by
  unfold Considered
  cases o.notDeleted <;> cases o.onlyDeleted <;> cases o.cov p e <;> cases e.isDet <;> cases e.isDir <;> simp

/-- a turn with an entry that is to be considered -/
theorem turn_write {b : Bool} (hc : Considered o (s.cdir ++ [e.name]) e) (ht : rsTurn o stars s e = .ok (s', b)) :
    match s.write o stars e with
    | .ok (s1, _) => s'.fs = s1.fs
    | .error (er, s1) => er ≠ .bug ∧ s'.fs = s1.fs := by
  obtain ⟨h1, h2⟩ := considered_iff.1 hc
  unfold rsTurn at ht
  rw [if_neg (by simp [h1]), if_pos h2] at ht
  cases hr : s.write o stars e with
  | ok r => rw [hr] at ht; cases ht; rfl
  | error er =>
    obtain ⟨er, s1⟩ := er
    rw [hr] at ht
    cases er <;> first | (cases ht; exact ⟨by simp, rfl⟩) | cases ht

/-- a file where there is nothing -/
theorem new_node (he : LookLaw o.eaOver le) (hl : LookLaw o.fsaOver lf) (hn : s.fs.ent p = none) (hd : s.fs.isDir p.dropLast = true)
    (hids : ∀ q i, s.fs.ent q = some (.ino i) → i < s.fs.next) (hk : x.ino.kind ≠ .dir) (hx : x.ino.status = .saved) (ho : o.onlyDeleted = false) :
    ∃ s1 d z, s.writeNew o (.node x) x p = .ok (s1, d) ∧ Sole s1 p s.fs.next z ∧ z.ino.kind = x.ino.kind ∧ SameContent z x ∧ Stamped o x o.uid o.gid 448 o.now z ∧
      (∀ n, le z.eas n = if x.ino.eaStatus = .full then le x.eas n else none) ∧ ∀ n, lf z.fsas n = if x.fsa = .full then (lf x.fsas n).or (lf o.fsa0 n) else lf o.fsa0 n := by
  have hget : ∀ n, le x.getEa n = if x.ino.eaStatus = .full then le x.eas n else none := by
    intro n; unfold Obj.getEa; split
    · rfl
    · exact he.none n
  have h0 := (sole_new (o := o) (s := s) hk hids hn).congr (s' := ({ s with fs := s.fs.newObj o p x } : RsSt).flag) (flagFs _)
  unfold RsSt.writeNew
  rw [if_pos ⟨Or.inl hx, ho⟩]
  have hmk : s.makeFile o (.node x) x p = .ok { s with fs := s.fs.newObj o p x } := by
    unfold RsSt.makeFile; simp only [create_newObj, hd, if_true]
  rw [hmk]
  simp only [bind, Except.bind, BEntry.isDir, Bool.false_eq_true, if_false]
  generalize ({ s with fs := s.fs.newObj o p x } : RsSt).flag = s0 at h0 ⊢
  have h1 : ∃ E, Sole (if x.eaSaved = true then (s0.setEa o (.node x) x.getEa p).1 else s0) p s.fs.next { o.blank x with eas := E } ∧ ∀ n, le E n = if x.ino.eaStatus = .full then le x.eas n else none := by
    by_cases hs : x.eaSaved = true
    · rw [if_pos hs]
      exact ⟨o.eaOver [] x.getEa, h0.upd (fun y => { y with eas := o.eaOver y.eas x.getEa }), fun n => by rw [he.set, he.none, Option.or_none, hget]⟩
    · rw [if_neg hs]
      refine ⟨[], h0, fun n => ?_⟩
      rw [he.none, if_neg (fun h => hs (by simp [Obj.eaSaved, h]))]
  obtain ⟨E, h1, h1e⟩ := h1
  generalize (if x.eaSaved = true then (s0.setEa o (.node x) x.getEa p).1 else s0) = s1 at h1 ⊢
  have h2 : ∃ F, Sole (if x.fsa = .full then s1.setFsa o x.fsas p else s1) p s.fs.next { o.blank x with eas := E, fsas := F } ∧ ∀ n, lf F n = if x.fsa = .full then (lf x.fsas n).or (lf o.fsa0 n) else lf o.fsa0 n := by
    by_cases hs : x.fsa = .full
    · simp only [hs, if_true]
      exact ⟨o.fsaOver o.fsa0 x.fsas, h1.upd (fun y => { y with fsas := o.fsaOver y.fsas x.fsas }), fun n => by rw [hl.set]⟩
    · simp only [hs, if_false]
      exact ⟨o.fsa0, h1, fun n => rfl⟩
  obtain ⟨F, h2, h2f⟩ := h2
  generalize (if x.fsa = .full then s1.setFsa o x.fsas p else s1) = s2 at h2 ⊢
  rw [setDate_ok h2.ne]
  dsimp only
  have h3 := (h2.upd (o.date x)).upd (o.ownerPerm x)
  rw [over_node.op_attr] at h3
  change Sole (({ s2 with fs := s2.fs.upd p (o.date x) } : RsSt).setOwner o x p) p s.fs.next _ at h3
  generalize (({ s2 with fs := s2.fs.upd p (o.date x) } : RsSt).setOwner o x p) = s3 at h3 ⊢
  have hz : ∀ E F, ({ o.ownerPerm x (o.date x (o.blank x)) with eas := E, fsas := F } : Obj).ino.kind = x.ino.kind ∧ SameContent { o.ownerPerm x (o.date x (o.blank x)) with eas := E, fsas := F } x ∧
      Stamped o x o.uid o.gid 448 o.now { o.ownerPerm x (o.date x (o.blank x)) with eas := E, fsas := F } := by
    intro E F
    refine ⟨?_, ?_, ?_⟩
    · show (o.ownerPerm x (o.date x (o.blank x))).ino.kind = _
      rw [ownerPerm_kind, date_kind]; rfl
    · exact content_owner o x (o.blank x) x ⟨fun _ => ⟨rfl, rfl⟩, fun _ => rfl, fun _ => ⟨rfl, rfl⟩⟩
    · have := stamped o x (o.blank x)
      exact ⟨this.uid, this.gid, this.perm, this.mtime⟩
  by_cases hs : x.eaSaved = true
  · simp only [hs, if_true]
    refine ⟨_, _, _, rfl, h3.upd (fun y => { y with eas := o.eaOver y.eas x.getEa }), (hz _ F).1, (hz _ F).2.1, (hz _ F).2.2, fun n => ?_, h2f⟩
    dsimp only
    rw [he.set, h1e, hget]
    split
    · cases le x.eas n <;> rfl
    · rfl
  · simp only [hs]
    exact ⟨_, _, _, rfl, h3, (hz E F).1, (hz E F).2.1, (hz E F).2.2, h1e, h2f⟩

end Dar
