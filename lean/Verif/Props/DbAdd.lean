import Verif.Lemmas.DbTree
/- Property theorems C53 (adding archives to a database). -/
namespace Dar

/-- A new database is well-formed. -/
theorem C53_new (v : Nat) (c : CryptoAlgo) : (newDatabase v c).Ok :=
  ⟨by simp [newDatabase], rfl, by simp [newDatabase, DTree.sub], by simp [newDatabase, DTree.sub, DTree.EachL]⟩

/-- **C53**: adding an archive appends it to the list of archives and, for every path, records after what was recorded before, and at the number of the new
archive, exactly what the archive tells of that path: the state of the inode it holds, the deletion, or its absence if it was there before; the other paths get
no record, nothing already recorded changes. -/
theorem C53_add (db db' : Database) (a : ArchIn) (chemin basename : Bytes) (hdb : db.Ok) (hn : (a.root.map Entry.label).Nodup) (hd : Entry.DistinctL a.root)
    (h : db.addArchive a chemin basename = .ok db') :
    db'.Ok ∧ db'.coord = db.coord ++ [⟨chemin, basename, a.rootMod, a.crypto, a.pass, a.cryptoSize⟩] ∧ basename ≠ [] ∧
    db'.version = db.version ∧ db'.crypto = db.crypto ∧ db'.options = db.options ∧ db'.darPath = db.darPath ∧
    ∀ x p,
      let old := recordsAt db.files.sub x p
      let del := deletionDate a.rootMod db'.files.sub x p
      recordsAt db'.files.sub x p =
        (appended old.1 db.coord.length ((recordData del old.1 (a.told x p)).map (StatP.checked (chainCrc old.1))),
         appended old.2 db.coord.length (recordEa del old.1 old.2 (a.told x p))) := by
  obtain ⟨h1, h2, h3, h4⟩ := hdb
  have hnum : 0 < db.coord.length := List.length_pos_iff.mpr h1
  unfold Database.addArchive at h
  by_cases hb : basename = []
  · rw [if_pos hb] at h; cases h
  rw [if_neg hb] at h
  obtain ⟨t1, hu, h⟩ := bind_ok h
  obtain ⟨t2, hf, h⟩ := bind_ok h
  injection h with h
  cases hfiles : db.files with
  | node name dir m c l =>
  rw [hfiles] at hu h2 h3 h4
  simp only [DTree.isDir, DTree.sub] at h2 h3 h4
  subst h2
  unfold updateRoot at hu
  obtain ⟨l1, hu, ht⟩ := bind_ok hu
  injection ht with ht
  have hmid : DTree.EachL (Mid db.coord.length) l := eachL_mono (fun d m c hm => mid_of_old d m c hnum hm) l h4
  obtain ⟨u1, u2, u3⟩ := upd_list hnum a.stars a.root hmid h3 hn hd hu
  have key : ∃ l2, t2 = .node name true m c l2 ∧ (l2.map DTree.name).Nodup ∧ DTree.EachL (RecordsOk db.coord.length) l2 ∧ ∀ x p,
      let old := recordsAt l x p
      let del := deletionDate a.rootMod l2 x p
      recordsAt l2 x p = (appended old.1 db.coord.length ((recordData del old.1 (a.told x p)).map (StatP.checked (chainCrc old.1))),
         appended old.2 db.coord.length (recordEa del old.1 old.2 (a.told x p))) := by
    by_cases hgt : db.coord.length > 1
    · rw [if_pos hgt, ← ht] at hf
      obtain ⟨l2, e, f1, f2, f3⟩ := fin_root hnum u1 u2 hf
      refine ⟨l2, e, f1, f2, fun x p => ?_⟩
      have hF := f3 x p
      have hU := u3 x p
      have hold : ∃ d, RecordsOk (db.coord.length - 1) d (recordsAt l x p).1 (recordsAt l x p).2 := by
        rcases recordsAt_each p l x h4 with h | h
        · rw [h]; exact ⟨false, (mid_nil _).toRecordsOk⟩
        · exact h
      obtain ⟨d, hold⟩ := hold
      obtain ⟨r1, r2⟩ := both_phases hold hnum _ hU hF
      exact Prod.ext r1 r2
    · rw [if_neg hgt, ← ht] at hf
      injection hf with hf
      refine ⟨l1, hf.symm, u1, ?_, fun x p => ?_⟩
      · exact eachL_mono (fun d m c hm => hm.toRecordsOk) l1 u2
      · have hU := u3 x p
        have hold : recordsAt l x p = ([], []) := by
          rcases recordsAt_each p l x h4 with h | ⟨d, h⟩
          · exact h
          · have : db.coord.length - 1 = 0 := by omega
            rw [this] at h
            have e1 : (recordsAt l x p).1 = [] := by
              cases hc : (recordsAt l x p).1 with
              | nil => rfl
              | cons q m => have := h.keys q (by rw [hc]; simp); omega
            have e2 : (recordsAt l x p).2 = [] := by
              cases hc : (recordsAt l x p).2 with
              | nil => rfl
              | cons q m => have := h.keysEa q (by rw [hc]; simp); omega
            exact Prod.ext e1 e2
        rw [hold] at hU ⊢
        dsimp only
        have e1 := upd_data (r := ([], [])) rfl (by simp) hU (deletionDate a.rootMod l1 x p)
        have e2 := upd_ea (r := ([], [])) (by simp) hU (deletionDate a.rootMod l1 x p)
        refine Prod.ext ?_ ?_
        · rcases e1 with ⟨s, k1, -, k2⟩ | ⟨k1, k2⟩
          · change recordData _ [] _ = _ at k1
            dsimp only [ArchIn.told]
            rw [k1]; exact k2
          · change recordData _ [] _ = _ at k1
            dsimp only [ArchIn.told]
            rw [k1]; exact k2
        · rcases e2 with ⟨s, k1, -, k2⟩ | ⟨k1, k2⟩
          · change recordEa _ [] [] _ = _ at k1
            dsimp only [ArchIn.told]
            rw [k1]; exact k2
          · change recordEa _ [] [] _ = _ at k1
            dsimp only [ArchIn.told]
            rw [k1]; exact k2
  obtain ⟨l2, e, f1, f2, f3⟩ := key
  subst e
  subst h
  refine ⟨⟨by simp, rfl, f1, ?_⟩, rfl, hb, rfl, rfl, rfl, rfl, f3⟩
  simpa [DTree.sub] using f2

/-! ### A sequence of additions -/

/-- the recorded states -/
def states {α : Type} (et : α → Etat) (m : SMap α) : List (Nat × Etat) := m.map (fun q => (q.1, et q.2))

theorem replay_snoc (h : List (Nat × Etat)) (p : Nat × Etat) : replay (h ++ [p]) = (replay h).step p := by
  unfold replay; rw [List.foldl_append]; rfl

theorem step_ne_unseen (s : FState) (p : Nat × Etat) : s.step p ≠ .unseen := by
  obtain ⟨n, e⟩ := p
  cases e <;> cases s <;> simp [FState.step]

theorem replay_unseen (h : List (Nat × Etat)) : replay h = .unseen ↔ h = [] := by
  induction h using List.reverseRecOn with
  | nil => simp [replay]
  | append_singleton h p _ => rw [replay_snoc]; simp [step_ne_unseen]

theorem chainCrc_snoc (m : SMap StatP) (q : Nat × StatP) : chainCrc (m ++ [q]) = chainStep (chainCrc m) q.2 := by
  unfold chainCrc; rw [List.foldl_append]; rfl

theorem next_missing (n : Nat) (del : DateT) (m : SMap StatP) :
    (replay (states StatP.present (appended m n (missingRecord del m))), chainCrc (appended m n (missingRecord del m))) =
      (if replay (states StatP.present m) = .unseen then .unseen else .gone, none) := by
  unfold missingRecord
  cases m using List.reverseRecOn with
  | nil => rfl
  | append_singleton m q =>
    obtain ⟨k, s⟩ := q
    simp only [List.getLast?_append, List.getLast?_singleton, Option.or_some, Option.some_or]
    have hne : ¬ replay (states StatP.present (m ++ [(k, s)])) = .unseen := by rw [replay_unseen]; simp [states]
    rw [if_neg hne]
    by_cases hs : s.present = .removed ∨ s.present = .absent
    · rw [if_pos hs]
      have e1 : appended (m ++ [(k, s)]) n none = m ++ [(k, s)] := by simp [appended]
      rw [e1, chainCrc_snoc]
      have e2 : replay (states StatP.present (m ++ [(k, s)])) = .gone := by
        unfold states; rw [List.map_append, List.map_singleton, replay_snoc]
        rcases hs with hs | hs <;> simp [FState.step, hs]
      rw [e2]
      rcases hs with hs | hs <;> simp [chainStep, hs]
    · rw [if_neg hs]
      have e1 : ∀ r, appended (m ++ [(k, s)]) n (some r) = (m ++ [(k, s)]) ++ [(n, r)] := fun r => rfl
      rw [e1, chainCrc_snoc]
      unfold states
      rw [List.map_append, List.map_singleton, replay_snoc]
      rfl

theorem found_nil : ¬ foundThere [] := by
  rintro ⟨set, r, h, hr⟩
  have : getData [] ⟨0, .s⟩ false = .ok ([], .notFound) := rfl
  rw [this] at h
  injection h with h; injection h with h1 h2
  subst h2
  rcases hr with h | h <;> cases h

theorem next_told (n : Nat) (del : DateT) (m : SMap StatP) (t : Told) :
    (replay (states StatP.present (appended m n ((recordData del m t).map (StatP.checked (chainCrc m))))),
      chainCrc (appended m n ((recordData del m t).map (StatP.checked (chainCrc m))))) =
      t.next n (replay (states StatP.present m), chainCrc m) := by
  cases t with
  | nothing =>
    simp only [recordData, Told.next]
    rw [missing_checked]
    exact next_missing n del m
  | deleted d =>
    simp only [recordData, Told.next]
    by_cases hf : foundThere m
    · rw [if_pos hf]
      have hne : ¬ replay (states StatP.present m) = .unseen := by
        rw [replay_unseen]
        intro h
        have : m = [] := by simpa [states] using h
        subst this
        exact found_nil hf
      rw [if_neg hne]
      have e1 : appended m n ((some (⟨d, .removed, none, none⟩ : StatP)).map (StatP.checked (chainCrc m))) = m ++ [(n, ⟨d, .removed, none, none⟩)] := by
        simp [appended, StatP.checked]
      rw [e1, chainCrc_snoc]
      unfold states
      rw [List.map_append, List.map_singleton, replay_snoc]
      rfl
    · rw [if_neg hf, missing_checked]
      exact next_missing n del m
  | inode i st f =>
    simp only [recordData, Told.next, Option.map_some]
    have e1 : ∀ r : StatP, appended m n (some r) = m ++ [(n, r)] := fun r => rfl
    rw [e1, chainCrc_snoc]
    unfold states
    rw [List.map_append, List.map_singleton, replay_snoc]
    unfold StatP.checked
    dsimp only
    split_ifs
    · rfl
    · rfl

theorem nextEa_missing (n : Nat) (del : DateT) (d : SMap StatP) (m : SMap Stat) :
    replay (states Stat.present (appended m n (missingEa del d m))) = if replay (states Stat.present m) = .unseen then .unseen else .gone := by
  unfold missingEa
  cases m using List.reverseRecOn with
  | nil => rfl
  | append_singleton m q =>
    obtain ⟨k, s⟩ := q
    simp only [List.getLast?_append, List.getLast?_singleton, Option.or_some, Option.some_or]
    have hne : ¬ replay (states Stat.present (m ++ [(k, s)])) = .unseen := by rw [replay_unseen]; simp [states]
    rw [if_neg hne]
    by_cases hs : s.present = .removed ∨ s.present = .absent
    · rw [if_pos hs]
      have e1 : appended (m ++ [(k, s)]) n none = m ++ [(k, s)] := by simp [appended]
      rw [e1]
      unfold states; rw [List.map_append, List.map_singleton, replay_snoc]
      rcases hs with hs | hs <;> simp [FState.step, hs]
    · rw [if_neg hs]
      have e1 : ∀ r, appended (m ++ [(k, s)]) n (some r) = (m ++ [(k, s)]) ++ [(n, r)] := fun r => rfl
      rw [e1]
      unfold states
      rw [List.map_append, List.map_singleton, replay_snoc]
      rfl

theorem nextEa_told (n : Nat) (del : DateT) (d : SMap StatP) (m : SMap Stat) (t : Told) :
    replay (states Stat.present (appended m n (recordEa del d m t))) = t.nextEa n (replay (states Stat.present m)) := by
  have hnil : ¬ foundThereEa [] := by
    rintro ⟨set, r, h, hr⟩
    have : getEA [] ⟨0, .s⟩ false = .ok (0, .notFound) := rfl
    rw [this] at h
    injection h with h; injection h with h1 h2
    subst h2
    rcases hr with h | h <;> cases h
  have rem : ∀ dd : DateT, replay (states Stat.present (appended m n (open Classical in if foundThereEa m then some ⟨dd, .removed⟩ else missingEa del d m))) =
      if replay (states Stat.present m) = .unseen then .unseen else .gone := by
    intro dd
    by_cases hf : foundThereEa m
    · rw [if_pos hf]
      have hne : ¬ replay (states Stat.present m) = .unseen := by
        rw [replay_unseen]
        intro h
        have : m = [] := by simpa [states] using h
        subst this
        exact hnil hf
      rw [if_neg hne]
      show replay (states _ (m ++ [(n, _)])) = _
      unfold states
      rw [List.map_append, List.map_singleton, replay_snoc]
      rfl
    · rw [if_neg hf]
      exact nextEa_missing n del d m
  have add : ∀ r : Stat, replay (states Stat.present (appended m n (some r))) = (replay (states Stat.present m)).step (n, r.present) := by
    intro r
    show replay (states _ (m ++ [(n, _)])) = _
    unfold states
    rw [List.map_append, List.map_singleton, replay_snoc]
  cases t with
  | nothing => exact nextEa_missing n del d m
  | deleted dd => exact rem dd
  | inode i st f =>
    simp only [recordEa, Told.nextEa]
    cases i.ea with
    | none => exact nextEa_missing n del d m
    | part => exact add _
    | fake => exact add _
    | full => exact add _
    | removed => exact rem _

theorem history_from (l : List (ArchIn × Bytes × Bytes)) : ∀ (db db' : Database), db.Ok →
    (∀ q ∈ l, (q.1.root.map Entry.label).Nodup ∧ Entry.DistinctL q.1.root) → db.addAll l = .ok db' →
    db'.Ok ∧ db'.coord.length = db.coord.length + l.length ∧ ∀ x p,
      (replay (states StatP.present (recordsAt db'.files.sub x p).1), chainCrc (recordsAt db'.files.sub x p).1) =
        toldFrom db.coord.length x p (l.map Prod.fst) (replay (states StatP.present (recordsAt db.files.sub x p).1), chainCrc (recordsAt db.files.sub x p).1) ∧
      replay (states Stat.present (recordsAt db'.files.sub x p).2) =
        toldEaFrom db.coord.length x p (l.map Prod.fst) (replay (states Stat.present (recordsAt db.files.sub x p).2)) := by
  induction l with
  | nil =>
    intro db db' hdb _ h
    injection h with h; subst h
    exact ⟨hdb, rfl, fun x p => ⟨rfl, rfl⟩⟩
  | cons q l ih =>
    obtain ⟨a, chemin, basename⟩ := q
    intro db db' hdb hd h
    rw [Database.addAll] at h
    obtain ⟨db1, h1, h2⟩ := bind_ok h
    obtain ⟨d1, d2⟩ := hd _ List.mem_cons_self
    obtain ⟨k1, k2, -, -, -, -, -, k3⟩ := C53_add db db1 a chemin basename hdb d1 d2 h1
    obtain ⟨i1, i2, i3⟩ := ih db1 db' k1 (fun q hq => hd q (List.mem_cons_of_mem _ hq)) h2
    have hlen : db1.coord.length = db.coord.length + 1 := by rw [k2]; simp
    refine ⟨i1, by rw [i2, hlen, List.length_cons]; omega, fun x p => ?_⟩
    obtain ⟨j1, j2⟩ := i3 x p
    have k := k3 x p
    dsimp only at k
    rw [hlen] at j1 j2
    simp only [List.map_cons, toldFrom, toldEaFrom]
    rw [j1, j2, k]
    exact ⟨by rw [next_told], by rw [nextEa_told]⟩

/-- **C53**: in a database made by adding archives one after the other, what is recorded for a path tells the same as the archives themselves, taken in order:
state of the file and checksum of its data, and state of its EA. -/
theorem C53_history (v : Nat) (c : CryptoAlgo) (l : List (ArchIn × Bytes × Bytes)) (db : Database)
    (hd : ∀ q ∈ l, (q.1.root.map Entry.label).Nodup ∧ Entry.DistinctL q.1.root) (h : (newDatabase v c).addAll l = .ok db) (x : Bytes) (p : List Bytes) :
    (replay (states StatP.present (recordsAt db.files.sub x p).1), chainCrc (recordsAt db.files.sub x p).1) =
      toldFrom 1 x p (l.map Prod.fst) (.unseen, none) ∧
    replay (states Stat.present (recordsAt db.files.sub x p).2) = toldEaFrom 1 x p (l.map Prod.fst) .unseen := by
  obtain ⟨-, -, h3⟩ := history_from l _ db (C53_new v c) hd h
  obtain ⟨h4, h5⟩ := h3 x p
  have : recordsAt (newDatabase v c).files.sub x p = ([], []) := recordsAt_empty x p
  rw [this] at h4 h5
  exact ⟨h4, h5⟩

end Dar
