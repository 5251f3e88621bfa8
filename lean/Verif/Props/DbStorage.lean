import Verif.Lemmas.Database
import Verif.Props.Datetime
import Verif.Props.Checksum
/- Property theorems C31 (the database round-trips to disk). -/
namespace Dar

theorem getStr_putStr (s : Bytes) (h : (0 : UInt8) ∉ s) : ReadsAs getStr (putStr s) s := by
  intro rest
  induction s with
  | nil => rfl
  | cons b s ih =>
    simp only [List.mem_cons, not_or] at h
    have := ih h.2
    simp only [putStr, List.cons_append, getStr] at this ⊢
    rw [if_neg (Ne.symm h.1), this]

theorem getVec_putVec (l : List Bytes) (h : ∀ s ∈ l, (0 : UInt8) ∉ s) : ReadsAs getVec (putVec l) l := by
  unfold getVec putVec
  refine ReadsAs.bind (getInt_putInt _) ?_
  rw [← List.flatMap_def]
  exact ReadsAs.readList putStr l (fun s hs => getStr_putStr s (h s hs))

theorem getNum_putNum (n : Nat) (h : n < 65536) : ReadsAs getNum (putNum n) n := by
  unfold getNum
  refine ReadsAs.bind_pure (ReadsAs.readExact (putNum n) 2 rfl) ?_
  simp only [putNum, List.getD_cons_zero, List.getD_cons_succ, UInt8.toNat_ofNat']
  congr 1
  omega

theorem ReadsAs.lift {α : Type} (r : Res α) (a : α) (h : r = .ok a) : ReadsAs (Reader.lift r) [] a := by
  intro rest; rw [h]; rfl

theorem charEtat_char (e : Etat) : charEtat e.char = .ok e := by cases e <;> decide
theorem charCrypto_char (e : CryptoAlgo) : charCrypto e.char = .ok e := by cases e <;> decide

theorem stat_storage (s : Stat) (hd : s.date.Canonical) : ∃ b, s.dump = .ok b ∧ ReadsAs (statRead (fun _ => true) 7) b s := by
  obtain ⟨b, h1, h2⟩ := C22_storage s.date hd ⟨9, 0⟩ (by simp [ArchVer.lt])
  refine ⟨b ++ [s.present.char], by simp only [Stat.dump, h1, bind, Except.bind], ?_⟩
  unfold statRead
  refine ReadsAs.bind h2 ?_
  refine ReadsAs.bind_pure (ReadsAs.readByte _) ?_
  rw [charEtat_char]
  rfl

/-- A checksum as it comes out of create_crc_from_file. -/
def Crc.Stored (c : Crc) : Prop := c.st.ptr = 0 ∧ c.impl = crcImplFor c.st.cyc.length

theorem crc_storage (c : Crc) (h : c.Stored) : ReadsAs (crcRead false) c.dump c := by
  obtain ⟨impl, ⟨cyc, ptr⟩⟩ := c
  obtain ⟨h1, h2⟩ := h
  simp only at h1 h2
  subst h1 h2
  unfold crcRead Crc.dump
  simp only [Bool.false_eq_true, if_false]
  refine ReadsAs.bind (getInt_putInt _) ?_
  unfold crcImplFor
  split_ifs with hl
  · intro rest
    simp [crcNRead]
  · exact ReadsAs.bind_pure (ReadsAs.readExact _ _ rfl) rfl

def StatP.Stored (s : StatP) : Prop := s.date.Canonical ∧ (∀ c ∈ s.base, c.Stored) ∧ (∀ c ∈ s.result, c.Stored)

theorem statP_storage (s : StatP) (h : s.Stored) : ∃ b, s.dump = .ok b ∧ ReadsAs (statPRead (fun _ => true) 7) b s := by
  obtain ⟨d, p, ba, re⟩ := s
  obtain ⟨hd, hb, hr⟩ := h
  obtain ⟨b, h1, h2⟩ := stat_storage ⟨d, p⟩ hd
  refine ⟨_, by unfold StatP.dump; simp only; rw [h1]; rfl, ?_⟩
  unfold statPRead
  rw [List.append_assoc, List.append_assoc]
  refine ReadsAs.bind h2 ?_
  rw [if_neg (by omega), if_neg (by omega)]
  refine ReadsAs.bind (ReadsAs.readByte _) ?_
  have ho : ∀ (o : Option Crc), (∀ c ∈ o, c.Stored) → ∀ b, b = o.isSome → ReadsAs (optCrc b) (match o with | none => [] | some c => c.dump) o := by
    intro o h b hbb
    subst hbb
    cases o with
    | none => exact ReadsAs.pure none
    | some c => exact ReadsAs.bind_pure (crc_storage c (h c rfl)) rfl
  refine ReadsAs.bind (ho ba hb _ ?_) (ReadsAs.bind_pure (ho re hr _ ?_) rfl)
  · cases ba <;> cases re <;> simp <;> decide
  · cases ba <;> cases re <;> simp <;> decide

theorem dumpAll_storage {α : Type} (f : α → Res Bytes) (r : Reader α) (l : List α) (h : ∀ a ∈ l, ∃ b, f a = .ok b ∧ ReadsAs r b a) :
    ∃ b, dumpAll f l = .ok b ∧ ReadsAs (readList r l.length) b l := by
  induction l with
  | nil => exact ⟨[], rfl, ReadsAs.pure []⟩
  | cons a l ih =>
    obtain ⟨x, hx, rx⟩ := h a (List.mem_cons_self ..)
    obtain ⟨y, hy, ry⟩ := ih (fun a ha => h a (List.mem_cons_of_mem _ ha))
    refine ⟨x ++ y, by simp only [dumpAll, hx, hy]; rfl, ?_⟩
    simp only [List.length_cons, readList]
    exact ReadsAs.bind rx (ReadsAs.bind_pure ry rfl)

theorem foldl_put {α : Type} (l : SMap α) (h : l.Sorted) : l.foldl (fun m p => SMap.put m p.1 p.2) [] = l := by
  have gen : ∀ (l acc : SMap α), (acc ++ l).Sorted → l.foldl (fun m p => SMap.put m p.1 p.2) acc = acc ++ l := by
    intro l
    induction l with
    | nil => intro acc _; simp
    | cons p l ih =>
      intro acc hs
      have e : SMap.put acc p.1 p.2 = acc ++ [p] := by
        have hlt : ∀ q ∈ acc, q.1 < p.1 := fun q hq => (List.pairwise_append.mp hs).2.2 q hq p (List.mem_cons_self ..)
        clear hs ih
        induction acc with
        | nil => rfl
        | cons q acc ih2 =>
          obtain ⟨k, v⟩ := q
          have := hlt (k, v) (List.mem_cons_self ..)
          simp only at this
          simp only [SMap.put, List.cons_append]
          rw [if_neg (by omega), if_neg (by omega), ih2 (fun q hq => hlt q (List.mem_cons_of_mem _ hq))]
      simp only [List.foldl_cons]
      rw [e, ih (acc ++ [p]) (by rw [List.append_assoc]; exact hs), List.append_assoc]
      rfl
  simpa using gen l [] h

theorem map_storage {α : Type} (f : α → Res Bytes) (r : Reader α) (m : SMap α) (hs : m.Sorted) (hn : ∀ p ∈ m, p.1 < 65536)
    (h : ∀ p ∈ m, ∃ b, f p.2 = .ok b ∧ ReadsAs r b p.2) : ∃ b, dumpMap f m = .ok b ∧ ReadsAs (readMap r) b m := by
  obtain ⟨b, h1, h2⟩ := dumpAll_storage (fun p => do let x ← f p.2; .ok (putNum p.1 ++ x)) (do let k ← getNum; let v ← r; pure (k, v)) m (by
    intro p hp
    obtain ⟨x, hx, rx⟩ := h p hp
    exact ⟨putNum p.1 ++ x, by rw [hx]; rfl, ReadsAs.bind (getNum_putNum _ (hn p hp)) (ReadsAs.bind_pure rx rfl)⟩)
  refine ⟨putInt m.length ++ b, by unfold dumpMap; rw [h1]; rfl, ?_⟩
  unfold readMap
  refine ReadsAs.bind (getInt_putInt _) (ReadsAs.bind_pure h2 ?_)
  rw [foldl_put m hs]

mutual
/-- What a tree of the database looks like: names without NUL, at most 65535 archives, no child in a file; and a bound of
its depth. -/
def DTree.Stored (depth : Nat) (t : DTree) : Prop :=
  match t, depth with
  | .node _ _ _ _ _, 0 => False
  | .node name dir mods chgs sub, d + 1 => (0 : UInt8) ∉ name ∧ mods.Sorted ∧ chgs.Sorted ∧ (∀ p ∈ mods, p.1 < 65536 ∧ p.2.Stored) ∧
      (∀ p ∈ chgs, p.1 < 65536 ∧ p.2.date.Canonical) ∧ (dir = false → sub = []) ∧ DTree.StoredList d sub
def DTree.StoredList (depth : Nat) (l : List DTree) : Prop :=
  match l with
  | [] => True
  | t :: l => t.Stored depth ∧ DTree.StoredList depth l
end

mutual
theorem dtree_storage (d : Nat) (t : DTree) (h : t.Stored d) : ∃ b, t.dump = .ok b ∧ ReadsAs (dtreeRead (fun _ => true) 7 d) b t := by
  match t, d with
  | .node _ _ _ _ _, 0 => simp [DTree.Stored] at h
  | .node name dir mods chgs sub, d + 1 =>
    rw [DTree.Stored] at h
    obtain ⟨h1, h2, h3, h4, h5, h6, h7⟩ := h
    obtain ⟨a, ha, ra⟩ := map_storage StatP.dump (statPRead (fun _ => true) 7) mods h2 (fun p hp => (h4 p hp).1) (fun p hp => statP_storage _ (h4 p hp).2)
    obtain ⟨b, hb, rb⟩ := map_storage Stat.dump (statRead (fun _ => true) 7) chgs h3 (fun p hp => (h5 p hp).1) (fun p hp => stat_storage _ (h5 p hp).2)
    obtain ⟨c, hc, rc⟩ := dtree_storageList d sub h7
    refine ⟨_, by rw [DTree.dump, ha]; change (dumpMap Stat.dump chgs >>= _) = _; rw [hb]; change (DTree.dumpList sub >>= _) = _; rw [hc]; rfl, ?_⟩
    rw [dtreeRead, List.append_assoc, List.append_assoc, List.append_assoc]
    refine ReadsAs.bind (ReadsAs.readByte _) ?_
    cases dir with
    | false =>
      simp only [Bool.false_eq_true, if_false]
      have := h6 rfl
      subst this
      rw [if_pos trivial]
      exact ReadsAs.bind (getStr_putStr _ h1) (ReadsAs.bind ra (by rw [List.append_nil]; exact ReadsAs.bind_pure rb rfl))
    | true =>
      simp only [if_true]
      rw [if_neg (by decide)]
      exact ReadsAs.bind (getStr_putStr _ h1) (ReadsAs.bind ra (ReadsAs.bind rb (ReadsAs.bind (getInt_putInt _) (ReadsAs.bind_pure rc rfl))))
theorem dtree_storageList (d : Nat) (l : List DTree) (h : DTree.StoredList d l) :
    ∃ b, DTree.dumpList l = .ok b ∧ ReadsAs (readList (dtreeRead (fun _ => true) 7 d) l.length) b l := by
  match l with
  | [] => exact ⟨[], rfl, ReadsAs.pure []⟩
  | t :: l =>
    rw [DTree.StoredList] at h
    obtain ⟨x, hx, rx⟩ := dtree_storage d t h.1
    obtain ⟨y, hy, ry⟩ := dtree_storageList d l h.2
    refine ⟨x ++ y, by rw [DTree.dumpList, hx, hy]; rfl, ?_⟩
    simp only [List.length_cons, readList]
    exact ReadsAs.bind rx (ReadsAs.bind_pure ry rfl)
end

/-- An archive record as the database keeps it: the key data are there only with a cipher. -/
def ArchData.Stored (dbCrypto : CryptoAlgo) (a : ArchData) : Prop :=
  (0 : UInt8) ∉ a.chemin ∧ (0 : UInt8) ∉ a.basename ∧ a.rootMod.Canonical ∧ (a.crypto = .none → a.pass = [] ∧ a.cryptoSize = 0) ∧
  (a.crypto ≠ .none → dbCrypto ≠ .none) ∧ a.pass.length < 2 ^ 32 ∧ a.cryptoSize < 2 ^ 32

theorem archData_storage (cr : CryptoAlgo) (a : ArchData) (h : a.Stored cr) :
    ∃ b, a.dump cr = .ok b ∧ ReadsAs (archDataRead (fun _ => true) 7) b a := by
  obtain ⟨ch, ba, rm, c, pa, cs⟩ := a
  obtain ⟨h1, h2, h3, h4, h5, h6, h7⟩ := h
  simp only at h1 h2 h3 h4 h5 h6 h7
  obtain ⟨d, hd, rd⟩ := C22_storage rm h3 ⟨9, 0⟩ (by simp [ArchVer.lt])
  refine ⟨_, by unfold ArchData.dump; simp only; rw [hd]; simp only [bind, Except.bind]; rw [if_neg (fun hh => h5 hh.1 hh.2)], ?_⟩
  unfold archDataRead
  simp only [List.append_assoc]
  refine ReadsAs.bind (getStr_putStr _ h1) (ReadsAs.bind (getStr_putStr _ h2) ?_)
  rw [if_pos (by omega)]
  refine ReadsAs.bind rd ?_
  rw [if_pos (by omega)]
  refine ReadsAs.bind (a := c) ?_ ?_
  · refine ReadsAs.bind_pure (ReadsAs.readByte _) ?_
    rw [charCrypto_char]; rfl
  · by_cases hc : c = .none
    · subst hc
      obtain ⟨rfl, rfl⟩ := h4 rfl
      exact ReadsAs.pure _
    · rw [if_neg hc, if_pos hc]
      refine ReadsAs.bind (getInt_putInt _) ?_
      rw [if_neg (by omega)]
      refine ReadsAs.bind (ReadsAs.readExact _ _ rfl) ?_
      exact ReadsAs.bind_pure (getInt_putInt _) (by rw [if_neg (by omega)])

/-- **C31**: a database written by the current version and read back is the same database. -/
theorem C31_round_trip (db : Database) (depth : Nat) (hv : db.version = 7)
    (hc : db.coord ≠ []) (ha : ∀ a ∈ db.coord, a.Stored db.crypto) (ho : ∀ s ∈ db.options, (0 : UInt8) ∉ s) (hp : (0 : UInt8) ∉ db.darPath)
    (hr : ∃ m c s, db.files = .node pseudoRoot true m c s) (hf : db.files.Stored depth) :
    ∃ b, db.dump = .ok b ∧ ReadsAs (dbRead (fun _ => true) db.version db.crypto depth) b db := by
  obtain ⟨v, cr, coord, opts, dp, files⟩ := db
  simp only at hv hc ha ho hp hr hf
  subst hv
  obtain ⟨a, h1, r1⟩ := dumpAll_storage (ArchData.dump cr) (archDataRead (fun _ => true) 7) coord (fun a h => archData_storage cr a (ha a h))
  obtain ⟨t, h2, r2⟩ := dtree_storage depth files hf
  refine ⟨_, by unfold Database.dump; simp only; rw [h1, h2]; rfl, ?_⟩
  unfold dbRead
  simp only [List.append_assoc]
  refine ReadsAs.bind (getInt_putInt _) (ReadsAs.bind r1 ?_)
  rw [if_neg (by simpa using hc)]
  refine ReadsAs.bind (getVec_putVec _ ho) (ReadsAs.bind (getStr_putStr _ hp) (ReadsAs.bind_pure r2 ?_))
  obtain ⟨m, c, s, rfl⟩ := hr
  rfl

/-- a database with one archive and one file -/
def c31db (v : Nat) : Database := ⟨v, .none, [⟨[97], [98], ⟨0, .s⟩, .none, [], 0⟩], [[45, 118]], [47], .node pseudoRoot true [] []
  [.node [102] false [(1, ⟨⟨0, .s⟩, .saved, none, some ⟨.n, ⟨[1, 2], 0⟩⟩⟩)] [(1, ⟨⟨0, .s⟩, .removed⟩)] []]⟩

/-- it meets the hypotheses of C31_round_trip -/
example : ∃ b, (c31db 7).dump = .ok b ∧ ReadsAs (dbRead (fun _ => true) 7 .none 3) b (c31db 7) := by
  have hd : DateT.Canonical ⟨0, .s⟩ := by simp [DateT.Canonical]
  refine C31_round_trip (c31db 7) 3 rfl (by simp [c31db]) ?_ (by simp [c31db]) (by simp [c31db]) ⟨_, _, _, rfl⟩ ?_
  · intro a h
    simp only [c31db, List.mem_singleton] at h
    subst h
    exact ⟨by simp, by simp, hd, by simp, by simp, by simp, by simp⟩
  · simp [c31db, DTree.Stored, DTree.StoredList, SMap.Sorted, pseudoRoot, StatP.Stored, hd, Crc.Stored, crcImplFor, INFININT_MODE_START]

/-- **C31**, a defect: a database of an older format which is read then written keeps its old version number in the
header while its content is written in the current format; it can no longer be read. -/
theorem C31_upgrade_counterexample : ∃ b0 db b, dbRead (fun _ => true) 6 .none 3 b0 = .ok (db, []) ∧ db.version = 6 ∧ db.dump = .ok b ∧
    ∃ e, dbRead (fun _ => true) db.version db.crypto 3 b = .error e := by
  refine ⟨putInt 1 ++ (putStr [97] ++ (putStr [98] ++ ([115] ++ putInt 0)) ++ (putVec [] ++ (putStr [] ++ ([100] ++ (putStr pseudoRoot ++ (putInt 0 ++ (putInt 0 ++ putInt 0))))))),
    ⟨6, .none, [⟨[97], [98], ⟨0, .s⟩, .none, [], 0⟩], [], [], .node pseudoRoot true [] [] []⟩, _, ?_, rfl, rfl, ?_⟩
  · rfl
  · exact ⟨_, rfl⟩

end Dar
