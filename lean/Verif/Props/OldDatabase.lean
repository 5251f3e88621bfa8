import Verif.Spec.OldDatabase
import Verif.Props.DbStorage
/- C31: databases of the older formats are read as what they hold. -/
namespace Dar

theorem odate (v : Nat) (d : DateT) (hd : d.Canonical) (hu : v ≤ 3 → d.uni = .s) :
    ∃ b, dateBytes v d = .ok b ∧ ReadsAs (dateRead (fun _ => true) (db2arch v)) b d := by
  unfold dateBytes db2arch
  by_cases h : v ≤ 3
  · rw [if_pos h, if_neg (by omega)]
    refine ⟨_, rfl, ?_⟩
    unfold dateRead
    rw [if_pos (by decide)]
    refine ReadsAs.bind (a := TimeUnit.s) (e1 := []) (ReadsAs.pure _) ?_
    refine ReadsAs.bind_pure (getInt_putInt d.val) ?_
    rw [if_neg (by decide)]
    obtain ⟨x, u⟩ := d
    have := hu h
    simp only at this
    subst this
    have hred : DateT.reduce ⟨x, .s⟩ = ⟨x, .s⟩ := by
      by_cases hx : x = 0
      · subst hx; rfl
      · simp [DateT.reduce, hx]
    funext rest
    show (Except.ok (dateBuild _ x 0 .s, rest) : Res _) = _
    simp only [dateBuild, dateBuildSec, hred]
    rfl
  · rw [if_neg h, if_pos (by omega)]
    exact C22_storage d hd ⟨9, 0⟩ (by simp [ArchVer.lt])

theorem ostat (v : Nat) (s : Stat) (hd : s.date.Canonical) (hu : v ≤ 3 → s.date.uni = .s) :
    ∃ b, statBytes v s = .ok b ∧ ReadsAs (statRead (fun _ => true) v) b s := by
  obtain ⟨b, h1, h2⟩ := odate v s.date hd hu
  refine ⟨b ++ [s.present.char], by simp only [statBytes, h1, Except.map], ?_⟩
  unfold statRead
  refine ReadsAs.bind h2 ?_
  refine ReadsAs.bind_pure (ReadsAs.readByte _) ?_
  rw [charEtat_char]
  rfl

theorem ostatP (v : Nat) (hv : 0 < v) (hv7 : v ≤ 7) (s : StatP) (h : s.Stored) (hu : v ≤ 3 → s.date.uni = .s) (h5 : v < 5 → s.base = none ∧ s.result = none) :
    ∃ b, statPBytes v s = .ok b ∧ ReadsAs (statPRead (fun _ => true) v) b s := by
  obtain ⟨d, p, ba, re⟩ := s
  obtain ⟨hd, hb, hr⟩ := h
  simp only at hd hb hr hu h5
  obtain ⟨b, h1, h2⟩ := ostat v ⟨d, p⟩ hd hu
  refine ⟨_, by unfold statPBytes; simp only; rw [h1]; rfl, ?_⟩
  unfold statPRead
  refine ReadsAs.bind h2 ?_
  rw [if_neg (by omega)]
  by_cases hlt : v < 5
  · rw [if_pos hlt, if_pos hlt]
    obtain ⟨rfl, rfl⟩ := h5 hlt
    exact ReadsAs.pure _
  · rw [if_neg hlt, if_neg hlt, List.append_assoc]
    refine ReadsAs.bind (ReadsAs.readByte _) ?_
    have ho : ∀ (o : Option Crc), (∀ c ∈ o, c.Stored) → ∀ b, b = o.isSome → ReadsAs (optCrc b) (optBytes o) o := by
      intro o h b hbb
      subst hbb
      cases o with
      | none => exact ReadsAs.pure none
      | some c => exact ReadsAs.bind_pure (crc_storage c (h c rfl)) rfl
    refine ReadsAs.bind (ho ba hb _ ?_) (ReadsAs.bind_pure (ho re hr _ ?_) rfl)
    · cases ba <;> cases re <;> simp <;> decide
    · cases ba <;> cases re <;> simp <;> decide

mutual
theorem otree (v : Nat) (hv : 0 < v) (hv7 : v ≤ 7) (d : Nat) (t : DTree) (h : t.Stored d) (ho : t.Holds v) :
    ∃ b, treeBytes v t = .ok b ∧ ReadsAs (dtreeRead (fun _ => true) v d) b t := by
  match t, d with
  | .node _ _ _ _ _, 0 => simp [DTree.Stored] at h
  | .node name dir mods chgs sub, d + 1 =>
    rw [DTree.Stored] at h
    rw [DTree.Holds] at ho
    obtain ⟨h1, h2, h3, h4, h5, h6, h7⟩ := h
    obtain ⟨o1, o2, o3⟩ := ho
    obtain ⟨a, ha, ra⟩ := map_storage (statPBytes v) (statPRead (fun _ => true) v) mods h2 (fun p hp => (h4 p hp).1)
      (fun p hp => ostatP v hv hv7 _ (h4 p hp).2 (o1 p hp).1 (o1 p hp).2)
    obtain ⟨b, hb, rb⟩ := map_storage (statBytes v) (statRead (fun _ => true) v) chgs h3 (fun p hp => (h5 p hp).1) (fun p hp => ostat v _ (h5 p hp).2 (o2 p hp))
    obtain ⟨c, hc, rc⟩ := otrees v hv hv7 d sub h7 o3
    refine ⟨_, by rw [treeBytes, ha]; change (dumpMap (statBytes v) chgs >>= _) = _; rw [hb]; change (treesBytes v sub >>= _) = _; rw [hc]; rfl, ?_⟩
    rw [dtreeRead, List.append_assoc, List.append_assoc, List.append_assoc]
    refine ReadsAs.bind (ReadsAs.readByte _) ?_
    cases dir with
    | false =>
      simp only [Bool.false_eq_true, if_false]
      have := h6 rfl
      subst this
      rw [if_pos trivial]
      exact ReadsAs.bind (getStr_putStr _ h1) (ReadsAs.bind ra (by rw [List.append_nil]; exact ReadsAs.bind_pure rb rfl))
    | true =>
      simp only [if_true]
      rw [if_neg (by decide)]
      exact ReadsAs.bind (getStr_putStr _ h1) (ReadsAs.bind ra (ReadsAs.bind rb (ReadsAs.bind (getInt_putInt _) (ReadsAs.bind_pure rc rfl))))
theorem otrees (v : Nat) (hv : 0 < v) (hv7 : v ≤ 7) (d : Nat) (l : List DTree) (h : DTree.StoredList d l) (ho : DTree.HoldsL v l) :
    ∃ b, treesBytes v l = .ok b ∧ ReadsAs (readList (dtreeRead (fun _ => true) v d) l.length) b l := by
  match l with
  | [] => exact ⟨[], rfl, ReadsAs.pure []⟩
  | t :: l =>
    rw [DTree.StoredList] at h
    rw [DTree.HoldsL] at ho
    obtain ⟨x, hx, rx⟩ := otree v hv hv7 d t h.1 ho.1
    obtain ⟨y, hy, ry⟩ := otrees v hv hv7 d l h.2 ho.2
    refine ⟨x ++ y, by rw [treesBytes, hx, hy]; rfl, ?_⟩
    simp only [List.length_cons, readList]
    exact ReadsAs.bind rx (ReadsAs.bind_pure ry rfl)
end

theorem oarch (v : Nat) (cr : CryptoAlgo) (a : ArchData) (h : a.Stored cr) (ho : a.Holds v) :
    ∃ b, archBytes v a = .ok b ∧ ReadsAs (archDataRead (fun _ => true) v) b a := by
  obtain ⟨ch, ba, rm, c, pa, cs⟩ := a
  obtain ⟨h1, h2, h3, h4, _, h6, h7⟩ := h
  obtain ⟨o1, o2, o3⟩ := ho
  simp only at h1 h2 h3 h4 h6 h7 o1 o2 o3
  obtain ⟨d, hd, rd⟩ : ∃ d, (if v < 3 then .ok [] else dateBytes v rm) = .ok d ∧
      ReadsAs (if v ≥ 3 then dateRead (fun _ => true) (db2arch v) else pure ⟨0, .s⟩) d rm := by
    by_cases hv : v < 3
    · rw [if_pos hv, if_neg (by omega), o1 hv]
      exact ⟨[], rfl, ReadsAs.pure _⟩
    · rw [if_neg hv, if_pos (by omega)]
      exact odate v rm h3 o2
  refine ⟨_, by unfold archBytes; simp only; rw [hd]; rfl, ?_⟩
  unfold archDataRead
  simp only [List.append_assoc]
  refine ReadsAs.bind (getStr_putStr _ h1) (ReadsAs.bind (getStr_putStr _ h2) (ReadsAs.bind rd ?_))
  by_cases hv : v < 7
  · have hc := o3 hv
    subst hc
    obtain ⟨rfl, rfl⟩ := h4 rfl
    rw [if_pos hv, if_neg (by omega)]
    refine ReadsAs.bind (a := CryptoAlgo.none) (e1 := []) (ReadsAs.pure _) ?_
    exact ReadsAs.pure _
  · rw [if_neg hv, if_pos (by omega)]
    refine ReadsAs.bind (a := c) ?_ ?_
    · refine ReadsAs.bind_pure (ReadsAs.readByte _) ?_
      rw [charCrypto_char]; rfl
    · by_cases hc : c = .none
      · subst hc
        obtain ⟨rfl, rfl⟩ := h4 rfl
        exact ReadsAs.pure _
      · rw [if_neg hc, if_neg hc]
        refine ReadsAs.bind (getInt_putInt _) ?_
        rw [if_neg (by omega)]
        refine ReadsAs.bind (ReadsAs.readExact _ _ rfl) ?_
        exact ReadsAs.bind_pure (getInt_putInt _) (by rw [if_neg (by omega)])

/-- **C31**: a database of any of the versions 2 to 7 of the format is read as what it holds. -/
theorem C31_versions (db : Database) (depth : Nat) (hv : 2 ≤ db.version ∧ db.version ≤ 7)
    (hc : db.coord ≠ []) (ha : ∀ a ∈ db.coord, a.Stored db.crypto ∧ a.Holds db.version) (ho : ∀ s ∈ db.options, (0 : UInt8) ∉ s) (hp : (0 : UInt8) ∉ db.darPath)
    (hr : ∃ m c s, db.files = .node pseudoRoot true m c s) (hf : db.files.Stored depth) (hh : db.files.Holds db.version) :
    ∃ b, dbBytes db.version db = .ok b ∧ ReadsAs (dbRead (fun _ => true) db.version db.crypto depth) b db := by
  obtain ⟨v, cr, coord, opts, dp, files⟩ := db
  simp only at hv hc ha ho hp hr hf hh
  obtain ⟨a, h1, r1⟩ := dumpAll_storage (archBytes v) (archDataRead (fun _ => true) v) coord (fun a h => oarch v cr a (ha a h).1 (ha a h).2)
  obtain ⟨t, h2, r2⟩ := otree v (by omega) hv.2 depth files hf hh
  refine ⟨_, by unfold dbBytes; simp only; rw [h1, h2]; rfl, ?_⟩
  unfold dbRead
  simp only [List.append_assoc]
  refine ReadsAs.bind (getInt_putInt _) (ReadsAs.bind r1 ?_)
  rw [if_neg (by simpa using hc)]
  refine ReadsAs.bind (getVec_putVec _ ho) (ReadsAs.bind (getStr_putStr _ hp) (ReadsAs.bind_pure r2 ?_))
  obtain ⟨m, c, s, rfl⟩ := hr
  rfl

/-- a database of version 2 with one archive and one file -/
example : ∃ b, dbBytes 2 ⟨2, .none, [⟨[97], [98], ⟨0, .s⟩, .none, [], 0⟩], [], [47], .node pseudoRoot true [] []
    [.node [102] false [(1, ⟨⟨77, .s⟩, .saved, none, none⟩)] [(1, ⟨⟨78, .s⟩, .removed⟩)] []]⟩ = .ok b ∧
    dbRead (fun _ => true) 2 .none 3 b = .ok (⟨2, .none, [⟨[97], [98], ⟨0, .s⟩, .none, [], 0⟩], [], [47], .node pseudoRoot true [] []
    [.node [102] false [(1, ⟨⟨77, .s⟩, .saved, none, none⟩)] [(1, ⟨⟨78, .s⟩, .removed⟩)] []]⟩, []) := by
  have hd : ∀ n, DateT.Canonical ⟨n, .s⟩ := by intro n; simp [DateT.Canonical]
  obtain ⟨b, h1, h2⟩ := C31_versions ⟨2, .none, [⟨[97], [98], ⟨0, .s⟩, .none, [], 0⟩], [], [47], .node pseudoRoot true [] []
    [.node [102] false [(1, ⟨⟨77, .s⟩, .saved, none, none⟩)] [(1, ⟨⟨78, .s⟩, .removed⟩)] []]⟩ 3 ⟨le_refl _, by decide⟩ (by simp) (by
      intro a h
      simp only [List.mem_singleton] at h
      subst h
      exact ⟨⟨by simp, by simp, hd 0, by simp, by simp, by simp, by simp⟩, ⟨fun _ => rfl, fun _ => rfl, fun _ => rfl⟩⟩) (by simp) (by simp) ⟨_, _, _, rfl⟩
    (by simp [DTree.Stored, DTree.StoredList, SMap.Sorted, pseudoRoot, StatP.Stored, hd])
    (by simp [DTree.Holds, DTree.HoldsL])
  exact ⟨b, h1, by have := h2 []; rwa [List.append_nil] at this⟩

theorem stat7 : statBytes 7 = Stat.dump := by
  funext s; unfold statBytes dateBytes Stat.dump; rw [if_neg (by omega)]; rfl
theorem statP7 : statPBytes 7 = StatP.dump := by
  funext s
  unfold statPBytes StatP.dump
  rw [stat7]
  obtain ⟨d, p, ba, re⟩ := s
  cases h : Stat.dump ⟨d, p⟩ with
  | error e => simp only [h]; rfl
  | ok x => simp only [h]; cases ba <;> cases re <;> simp [Except.map, bind, Except.bind, optBytes] <;> decide
mutual
theorem tree7 (t : DTree) : treeBytes 7 t = t.dump := by
  match t with
  | .node n d m c s => rw [treeBytes, DTree.dump, stat7, statP7, trees7 s]
theorem trees7 (l : List DTree) : treesBytes 7 l = DTree.dumpList l := by
  match l with
  | [] => rfl
  | t :: l => rw [treesBytes, DTree.dumpList, tree7 t, trees7 l]
end
theorem arch7 (cr : CryptoAlgo) (a : ArchData) (b : Bytes) (h : a.dump cr = .ok b) : archBytes 7 a = .ok b := by
  unfold ArchData.dump at h
  unfold archBytes dateBytes
  rw [if_neg (by omega), if_neg (by omega)]
  cases hd : a.rootMod.dump with
  | error e => rw [hd] at h; cases h
  | ok d =>
    rw [hd] at h
    change (if _ then _ else _) = _ at h
    by_cases hc : a.crypto ≠ .none ∧ cr = .none
    · rw [if_pos hc] at h; cases h
    · rw [if_neg hc] at h
      change Except.ok _ = _
      rw [if_neg (by omega), ← h]
      by_cases hn : a.crypto = .none <;> simp [hn]
theorem archs7 (cr : CryptoAlgo) (l : List ArchData) : ∀ b, dumpAll (ArchData.dump cr) l = .ok b → dumpAll (archBytes 7) l = .ok b := by
  induction l with
  | nil => intro b h; exact h
  | cons a l ih =>
    intro b h
    unfold dumpAll at h ⊢
    cases ha : a.dump cr with
    | error e => rw [ha] at h; cases h
    | ok x =>
      rw [ha] at h
      cases hl : dumpAll (ArchData.dump cr) l with
      | error e => rw [hl] at h; cases h
      | ok y =>
        rw [hl] at h
        rw [arch7 cr a x ha, ih y hl]
        exact h

/-- **C31**: what the program writes is the format of version 7. -/
theorem C31_current (db : Database) (b : Bytes) (h : db.dump = .ok b) : dbBytes 7 db = .ok b := by
  unfold Database.dump at h
  unfold dbBytes
  rw [tree7]
  cases ha : dumpAll (ArchData.dump db.crypto) db.coord with
  | error e => rw [ha] at h; cases h
  | ok x => rw [ha] at h; rw [archs7 _ _ _ ha]; exact h

end Dar
