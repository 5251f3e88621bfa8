import Verif.Spec.Catalogue
import Verif.Props.Headers
namespace Dar

/-! ### pieces -/

theorem sig_decode (letter : UInt8) (st : SavedStatus) (h : 97 ≤ letter.toNat ∧ letter.toNat ≤ 122) : sigDecode (sigByte letter st) = some (letter, st) := by
  have h1 : (sigByte letter st).toNat = st.code * 32 + letter.toNat % 32 := by
    unfold sigByte
    have : st.code * 32 + letter.toNat % 32 < 256 := by cases st <;> simp only [SavedStatus.code] <;> omega
    simp [UInt8.toNat_ofNat', Nat.mod_eq_of_lt this]
  have h2 : UInt8.ofNat ((sigByte letter st).toNat % 32 + 96) = letter := by
    rw [h1]
    have : (st.code * 32 + letter.toNat % 32) % 32 + 96 = letter.toNat := by omega
    rw [this]; exact UInt8.ofNat_toNat
  have h3 : (sigByte letter st).toNat / 32 = st.code := by rw [h1]; omega
  unfold sigDecode
  dsimp only
  rw [h2, h3, if_pos (by constructor <;> (rw [UInt8.le_iff_toNat_le]; simp only [UInt8.reduceToNat]; omega))]
  cases st <;> rfl

theorem ea_flag (e : EaStatus) (f : FsaSaved) : eaOfFlag (e.flag ||| f.flag) = some e := by cases e <;> cases f <;> decide
theorem fsa_flag (e : EaStatus) (f : FsaSaved) : fsaOfFlag (e.flag ||| f.flag) = some f := by cases e <;> cases f <;> decide
theorem charMagic_char (m : SigMagic) : charMagic m.char = .ok m := by cases m <;> decide

theorem ReadsAs.readRaw (b : UInt8) : ReadsAs readRaw [b] b := fun _ => rfl
theorem ReadsAs.readOr0 (b : UInt8) : ReadsAs readOr0 [b] b := fun _ => rfl
theorem ReadsAs.orRange {α : Type} (o : Option α) (a : α) (h : o = some a) : ReadsAs (orRange o) [] a := by subst h; exact ReadsAs.pure a
theorem ReadsAs.opt_yes {α : Type} {b : Bool} {r : Reader α} {e : Bytes} {a : α} (hb : b = true) (h : ReadsAs r e a) : ReadsAs (optRead b r) e (some a) := by
  unfold optRead
  rw [if_pos hb]
  exact h.bind_pure rfl
theorem ReadsAs.opt_no {α : Type} {b : Bool} {r : Reader α} (hb : b = false) : ReadsAs (optRead b r) [] none := by
  unfold optRead
  rw [if_neg (by simp [hb])]
  exact ReadsAs.pure _
theorem ReadsAs.orRange_bind {α β : Type} {o : Option α} {a : α} {f : α → Reader β} {e : Bytes} {b : β} (h : o = some a) (hf : ReadsAs (f a) e b) :
    ReadsAs (Dar.orRange o >>= f) e b := (ReadsAs.orRange o a h).bind hf

theorem date_part (d : DateT) (hd : d.Canonical) (ver : ArchVer) (hv : ver.lt ⟨9, 0⟩ = false) : ∃ b, d.dump = .ok b ∧ ReadsAs (dateRead (fun _ => true) ver) b d :=
  C22_storage d hd ver hv

/-- the EA part -/
theorem ea_part (small : Bool) (i : InodeB) (h : i.ea = .full → small = false → i.eaOffset.isSome ∧ storedOpt i.eaCrc) :
    ∃ b1 b2 b3, i.eaBytes small = .ok (b1 ++ b2 ++ b3) ∧ ReadsAs (optRead (i.ea = .full) getInt) b1 (i.kept small).eaSize ∧
      ReadsAs (optRead (i.ea = .full && !small) getInt) b2 (i.kept small).eaOffset ∧
      ReadsAs (optRead (i.ea = .full && !small) (crcRead false)) b3 (i.kept small).eaCrc := by
  unfold InodeB.eaBytes InodeB.kept
  by_cases hf : i.ea = .full
  · cases small with
    | true =>
      refine ⟨putInt (i.eaSize.getD 0), [], [], by simp [hf], ?_, ?_, ?_⟩
      · simp only [hf, if_true]; exact ReadsAs.opt_yes (by simp) (getInt_putInt _)
      · simp only [hf]; exact ReadsAs.opt_no (by simp)
      · simp only [hf]; exact ReadsAs.opt_no (by simp)
    | false =>
      obtain ⟨h1, c, h2, h3⟩ := h hf rfl
      obtain ⟨o, ho⟩ := Option.isSome_iff_exists.1 h1
      refine ⟨putInt (i.eaSize.getD 0), putInt o, c.dump, by simp [hf, ho, h2, need]; rfl, ?_, ?_, ?_⟩
      · simp only [hf, if_true]; exact ReadsAs.opt_yes (by simp) (getInt_putInt _)
      · simp only [hf, ho]; exact ReadsAs.opt_yes (by simp) (getInt_putInt _)
      · simp only [hf, h2]; exact ReadsAs.opt_yes (by simp) (crc_storage c h3)
  · refine ⟨[], [], [], by simp [hf], ?_, ?_, ?_⟩ <;> (simp only [hf, false_and, if_false]; exact ReadsAs.opt_no (by simp))

/-- the FSA part -/
theorem fsa_part (small : Bool) (i : InodeB) (h : i.Writable small) :
    ∃ b1 b2 b3 b4, i.fsaBytes small = .ok (b1 ++ b2 ++ b3 ++ b4) ∧ ReadsAs (optRead (i.fsa ≠ .none) getInt) b1 (i.kept small).fsaFamilies ∧
      ReadsAs (optRead (i.fsa = .full) getInt) b2 (i.kept small).fsaSize ∧
      ReadsAs (optRead (i.fsa = .full && !small) getInt) b3 (i.kept small).fsaOffset ∧
      ReadsAs (optRead (i.fsa = .full && !small) (crcRead false)) b4 (i.kept small).fsaCrc := by
  have h1 := h.fsa
  have h2 := h.fsaFull
  clear h
  unfold InodeB.fsaBytes InodeB.kept
  cases hf : i.fsa with
  | none =>
    refine ⟨[], [], [], [], by simp, ?_, ?_, ?_, ?_⟩ <;> (simp only [reduceCtorEq, ne_eq, not_true_eq_false, false_and, if_false]; exact ReadsAs.opt_no (by simp))
  | part =>
    obtain ⟨fam, hfam⟩ := Option.isSome_iff_exists.1 (h1 (by rw [hf]; simp))
    refine ⟨putInt fam, [], [], [], by simp [hfam, need, Except.map], ?_, ?_, ?_, ?_⟩
    · simp only [hfam]; exact ReadsAs.opt_yes (by simp) (getInt_putInt _)
    all_goals (simp only [reduceCtorEq, false_and, if_false]; exact ReadsAs.opt_no (by simp))
  | full =>
    obtain ⟨fam, hfam⟩ := Option.isSome_iff_exists.1 (h1 (by rw [hf]; simp))
    obtain ⟨h3, h4⟩ := h2 hf
    obtain ⟨sz, hsz⟩ := Option.isSome_iff_exists.1 h3
    cases small with
    | true =>
      refine ⟨putInt fam, putInt sz, [], [], by simp [hfam, hsz, need]; rfl, ?_, ?_, ?_, ?_⟩
      · simp only [hfam]; exact ReadsAs.opt_yes (by simp) (getInt_putInt _)
      · simp only [hsz]; exact ReadsAs.opt_yes (by simp) (getInt_putInt _)
      all_goals exact ReadsAs.opt_no (by simp)
    | false =>
      obtain ⟨h5, c, h6, h7⟩ := h4 rfl
      obtain ⟨o, ho⟩ := Option.isSome_iff_exists.1 h5
      refine ⟨putInt fam, putInt sz, putInt o, c.dump, by simp [hfam, hsz, ho, h6, need]; rfl, ?_, ?_, ?_, ?_⟩
      · simp only [hfam]; exact ReadsAs.opt_yes (by simp) (getInt_putInt _)
      · simp only [hsz]; exact ReadsAs.opt_yes (by simp) (getInt_putInt _)
      · simp only [ho]; exact ReadsAs.opt_yes (by simp) (getInt_putInt _)
      · simp only [h6]; exact ReadsAs.opt_yes (by simp) (crc_storage c h7)

theorem inode_storage (small : Bool) (i : InodeB) (h : i.Writable small) (ver : ArchVer) (hv : ver.lt ⟨9, 0⟩ = false) :
    ∃ b, i.dump small = .ok b ∧ b ≠ [] ∧ ReadsAs (inodeRead (fun _ => true) ver small) b (i.kept small) := by
  obtain ⟨a, ha, ra⟩ := date_part _ h.atime ver hv
  obtain ⟨m, hm, rm⟩ := date_part _ h.mtime ver hv
  obtain ⟨c, hc, rc⟩ := date_part _ h.ctime ver hv
  obtain ⟨e1, e2, e3, he, re1, re2, re3⟩ := ea_part small i h.ea
  obtain ⟨f1, f2, f3, f4, hf, rf1, rf2, rf3, rf4⟩ := fsa_part small i h
  refine ⟨[i.ea.flag ||| i.fsa.flag] ++ putInt i.uid ++ putInt i.gid ++ putNum i.perm ++ a ++ m ++ c ++ (e1 ++ e2 ++ e3) ++ (f1 ++ f2 ++ f3 ++ f4), ?_, by simp, ?_⟩
  · unfold InodeB.dump
    rw [ha, hm, hc, he, hf]; rfl
  · unfold inodeRead
    have hk : (i.kept small).ea = i.ea ∧ (i.kept small).fsa = i.fsa := ⟨rfl, rfl⟩
    simp only [List.append_assoc]
    refine (ReadsAs.readRaw _).bind ?_
    refine ReadsAs.orRange_bind (ea_flag _ _) ?_
    refine (getInt_putInt _).bind ?_
    refine (getInt_putInt _).bind ?_
    refine (getNum_putNum _ h.perm).bind ?_
    refine ra.bind ?_
    refine rm.bind ?_
    refine rc.bind ?_
    refine re1.bind ?_
    refine re2.bind ?_
    refine re3.bind ?_
    refine ReadsAs.orRange_bind (fsa_flag _ _) ?_
    refine rf1.bind ?_
    refine rf2.bind ?_
    refine rf3.bind ?_
    exact rf4.bind_pure rfl

theorem dsig_storage (d : DSig) (h : storedOpt d.result) : ∃ b, d.dump = .ok b ∧ ReadsAs dsigRead b d.kept := by
  obtain ⟨c, hc, hs⟩ := h
  refine ⟨[d.magic.char] ++ putInt d.size ++ (if d.size ≠ 0 then putInt d.offset else []) ++ c.dump, by unfold DSig.dump; rw [hc]; rfl, ?_⟩
  unfold dsigRead DSig.kept
  simp only [List.append_assoc]
  refine (ReadsAs.readRaw _).bind ?_
  refine ReadsAs.lift_bind (charMagic_char _) ?_
  refine (getInt_putInt _).bind ?_
  refine ReadsAs.bind (a := if d.size = 0 then 0 else d.offset) ?_ ?_
  · by_cases hz : d.size = 0
    · simp only [hz, ne_eq, not_true_eq_false, if_false, if_true]; exact ReadsAs.pure _
    · simp only [hz, ne_eq, not_false_eq_true, if_false, if_true]; exact getInt_putInt _
  · rw [hc]; exact (crc_storage c hs).bind_pure rfl

theorem sigPart_storage (f : FileB) (h : ∀ d, f.sig = some d → storedOpt d.result) :
    ∃ b, f.sigBytes = .ok b ∧ ReadsAs (optRead f.sig.isSome dsigRead) b (f.sig.map DSig.kept) := by
  unfold FileB.sigBytes
  cases hs : f.sig with
  | none => exact ⟨[], rfl, ReadsAs.opt_no rfl⟩
  | some d =>
    obtain ⟨b, h1, h2⟩ := dsig_storage d (h d hs)
    exact ⟨b, h1, ReadsAs.opt_yes rfl h2⟩

theorem flags_bits (f : FileB) (h : f.stWrite = 0 ∨ f.stWrite = 1) :
    (decide (f.flags &&& 4 ≠ 0)) = f.sig.isSome ∧ (f.flags &&& 251) = f.stWrite ||| (if f.dirty then 2 else 0) ∧
    (f.flags &&& 251) &&& 253 = f.stWrite ∧ decide ((f.flags &&& 251) &&& 2 ≠ 0) = f.dirty := by
  unfold FileB.flags
  cases f.sig.isSome <;> cases f.dirty <;> rcases h with h | h <;> rw [h] <;> decide

theorem basePart (f : FileB) (st : SavedStatus) (h : st = .delta → f.sig.isSome ∧ storedOpt f.base) :
    ∃ b, f.baseBytes st = .ok b ∧ ReadsAs (optRead (f.sig.isSome && st = .delta) (crcRead false)) b (if st = .delta then f.base else none) := by
  unfold FileB.baseBytes
  by_cases hd : st = .delta
  · obtain ⟨h1, c, h2, h3⟩ := h hd
    refine ⟨c.dump, by rw [if_pos hd, h2]; rfl, ?_⟩
    rw [if_pos hd, h2]
    exact ReadsAs.opt_yes (by rw [h1, hd]; rfl) (crc_storage c h3)
  · exact ⟨[], if_neg hd, by rw [if_neg hd]; exact ReadsAs.opt_no (by simp [hd])⟩

theorem fileFlags_storage (f : FileB) (st : SavedStatus) (hb : f.stWrite = 0 ∨ f.stWrite = 1) (b : Bytes)
    (h : ReadsAs (optRead (f.sig.isSome && st = .delta) (crcRead false)) b (if st = .delta then f.base else none)) :
    ReadsAs (fileFlags st) ([f.flags, f.algo.char] ++ b) (f.flags &&& 251, f.algo, f.sig.isSome, if st = .delta then f.base else none) := by
  unfold fileFlags
  show ReadsAs _ ([f.flags] ++ ([f.algo.char] ++ b)) _
  refine (ReadsAs.readOr0 _).bind ?_
  refine (ReadsAs.readRaw _).bind ?_
  refine ReadsAs.lift_bind (charCompr_char _) ?_
  rw [(flags_bits f hb).1]
  exact h.bind_pure rfl

theorem file_storage (small : Bool) (st : SavedStatus) (dalgo : Compr) (f : FileB) (h : f.Writable small st) :
    ∃ b, f.dump small st = .ok b ∧ ReadsAs (fileRead small st dalgo) b (f.kept small st dalgo) := by
  obtain ⟨b, hb, rb⟩ := basePart f st h.base
  have rf := fileFlags_storage f st h.hole b rb
  obtain ⟨x1, x2, x3, x4⟩ := flags_bits f h.hole
  unfold FileB.dump fileRead
  rw [hb]
  cases small with
  | true =>
    have hd := h.dirty rfl
    have x2' : f.flags &&& 251 = f.stWrite := by rw [x2, hd]; rcases h.hole with h | h <;> rw [h] <;> decide
    cases hs : st.hasData with
    | true =>
      refine ⟨putInt f.size ++ ([f.flags, f.algo.char] ++ b), by simp only [if_true]; rfl, ?_⟩
      refine (getInt_putInt _).bind ?_
      simp only [if_true]
      refine rf.bind_pure ?_
      have : (f.kept true st dalgo) = ⟨f.size, 0, 0, f.flags &&& 251, f.flags &&& 251, false, f.algo, if st = .delta then f.base else none, none, if f.sig.isSome then some DSig.pending else none⟩ := by
        unfold FileB.kept
        rw [hs, x2']
        cases f.sig <;> rfl
      rw [this]
    | false =>
      refine ⟨putInt f.size ++ [f.flags], by simp only [if_true]; rfl, ?_⟩
      refine (getInt_putInt _).bind ?_
      simp only [if_true, Bool.false_eq_true, if_false]
      refine (ReadsAs.readOr0 _).bind_pure ?_
      have : (f.kept true st dalgo) = ⟨f.size, 0, 0, f.flags &&& 251, f.flags &&& 251, false, dalgo, none, none, if f.flags &&& 4 ≠ 0 then some DSig.pending else none⟩ := by
        unfold FileB.kept
        rw [hs, x2']
        have : (if f.flags &&& 4 ≠ 0 then some DSig.pending else none) = if f.sig.isSome then some DSig.pending else none := by
          rw [← x1]; simp only [decide_eq_true_eq]
        rw [this]
        cases f.sig <;> rfl
      rw [this]
  | false =>
    obtain ⟨g, hg, rg⟩ := sigPart_storage f (h.sig rfl)
    cases hs : st.hasData with
    | true =>
      obtain ⟨c, hc, hcs⟩ := h.check hs rfl
      refine ⟨putInt f.size ++ (putInt f.offset ++ putInt f.storage ++ [f.flags, f.algo.char] ++ b) ++ c.dump ++ g, ?_, ?_⟩
      · unfold FileB.checkBytes
        rw [hs, hc, hg]; rfl
      · simp only [List.append_assoc]
        refine (getInt_putInt _).bind ?_
        simp only [Bool.false_eq_true, if_false, if_true]
        refine (getInt_putInt _).bind ?_
        refine (getInt_putInt _).bind ?_
        rw [← List.append_assoc]
        refine rf.bind ?_
        refine (crc_storage c hcs).bind ?_
        refine rg.bind_pure ?_
        have : (f.kept false st dalgo) = ⟨f.size, f.offset, f.storage, (f.flags &&& 251) &&& 253, (f.flags &&& 251) &&& 253, decide ((f.flags &&& 251) &&& 2 ≠ 0), f.algo, if st = .delta then f.base else none, some c, f.sig.map DSig.kept⟩ := by
          unfold FileB.kept
          rw [hs, x3, x4, ← hc]
        rw [this]
    | false =>
      refine ⟨putInt f.size ++ [f.flags] ++ [] ++ g, ?_, ?_⟩
      · unfold FileB.checkBytes
        rw [hs, hg]; rfl
      · simp only [List.append_assoc]
        refine (getInt_putInt _).bind ?_
        simp only [Bool.false_eq_true, if_false]
        refine (ReadsAs.readOr0 _).bind ?_
        rw [List.nil_append, x1]
        refine rg.bind_pure ?_
        have : (f.kept false st dalgo) = ⟨f.size, 0, 0, f.flags &&& 251, 0, false, dalgo, none, none, f.sig.map DSig.kept⟩ := by
          unfold FileB.kept
          rw [hs, x2]
        rw [this]

theorem special_storage (small : Bool) (st : SavedStatus) (dalgo : Compr) (s : Special) (h : s.Writable small st) :
    ∃ b r, s.dump small st = .ok b ∧ specialRead small st dalgo s.letter = some r ∧ ReadsAs r b (s.kept small st dalgo) := by
  cases s with
  | file f =>
    obtain ⟨b, h1, h2⟩ := file_storage small st dalgo f h
    exact ⟨b, _, h1, rfl, h2.bind_pure rfl⟩
  | door f =>
    obtain ⟨b, h1, h2⟩ := file_storage small st dalgo f h
    exact ⟨b, _, h1, rfl, h2.bind_pure rfl⟩
  | link t =>
    refine ⟨_, _, rfl, rfl, ?_⟩
    unfold Special.kept
    by_cases hs : st = .saved
    · simp only [if_pos hs]; exact (getStr_putStr t h).bind_pure rfl
    · simp only [if_neg hs]; exact ReadsAs.pure _
  | chardev a b =>
    refine ⟨_, _, rfl, rfl, ?_⟩
    unfold Special.kept deviceRead
    by_cases hs : st = .saved
    · simp only [if_pos hs]; exact (getNum_putNum _ h.1).bind ((getNum_putNum _ h.2).bind_pure rfl)
    · simp only [if_neg hs]; exact ReadsAs.pure _
  | blockdev a b =>
    refine ⟨_, _, rfl, rfl, ?_⟩
    unfold Special.kept deviceRead
    by_cases hs : st = .saved
    · simp only [if_pos hs]; exact (getNum_putNum _ h.1).bind ((getNum_putNum _ h.2).bind_pure rfl)
    · simp only [if_neg hs]; exact ReadsAs.pure _
  | pipe => exact ⟨_, _, rfl, rfl, ReadsAs.pure _⟩
  | socket => exact ⟨_, _, rfl, rfl, ReadsAs.pure _⟩

theorem letter_ok (s : Special) : 97 ≤ s.letter.toNat ∧ s.letter.toNat ≤ 122 := by cases s <;> (simp only [Special.letter]; decide)

theorem ReadsAs.sigRead (letter : UInt8) (st : SavedStatus) (h : 97 ≤ letter.toNat ∧ letter.toNat ≤ 122) : ReadsAs sigRead [sigByte letter st] (some (letter, st)) := by
  intro rest
  show Except.ok (sigDecode (sigByte letter st), rest) = _
  rw [sig_decode letter st h]

/-- an inode, in the catalogue or in-line -/
theorem node_storage (small : Bool) (dalgo : Compr) (n : Node) (h : n.Writable small) (ver : ArchVer) (hv : ver.lt ⟨9, 0⟩ = false) (c : Corres) :
    ∃ b, n.dump small = .ok b ∧ b ≠ [] ∧
      ∀ fuel, ReadsAs (entryRead (fun _ => true) ver small dalgo (fuel + 1) c) b (.entry (.node (n.kept small dalgo)), c) := by
  obtain ⟨bi, h1, _, r1⟩ := inode_storage small n.inode h.inode ver hv
  obtain ⟨bs, sp, h2, h3, r2⟩ := special_storage small n.status dalgo n.special h.special
  refine ⟨nommeBytes n.special.letter n.status n.name ++ bi ++ bs, by unfold Node.dump; rw [h1, h2]; rfl, by simp [nommeBytes], ?_⟩
  intro fuel
  unfold entryRead nommeBytes
  simp only [List.append_assoc]
  refine (ReadsAs.sigRead _ _ (letter_ok _)).bind ?_
  simp only [h3]
  refine ReadsAs.bind_pure (a := n.kept small dalgo) ?_ rfl
  unfold nodeRead
  refine (getStr_putStr _ h.name).bind ?_
  refine r1.bind ?_
  exact r2.bind_pure rfl

theorem starTable_in (stars : Nat → Star) (dalgo : Compr) (ks : List Nat) (k : Nat) (h : k ∈ ks) : ∃ n, (starTable stars dalgo ks).find k = some n := by
  unfold Corres.find starTable
  induction ks with
  | nil => cases h
  | cons a ks ih =>
    simp only [List.map_cons, List.lookup_cons]
    by_cases hk : k = a
    · simp [hk]
    · have : (k == a) = false := by simp [hk]
      rw [this]
      exact ih (by rcases List.mem_cons.1 h with h | h; exact absurd h hk; exact h)
theorem starTable_out (stars : Nat → Star) (dalgo : Compr) (ks : List Nat) (k : Nat) (h : k ∉ ks) : (starTable stars dalgo ks).find k = none := by
  unfold Corres.find starTable
  induction ks with
  | nil => rfl
  | cons a ks ih =>
    simp only [List.map_cons, List.lookup_cons]
    have : (k == a) = false := by simp; intro hh; exact h (by simp [hh])
    rw [this]
    exact ih (fun hh => h (List.mem_cons_of_mem _ hh))

theorem eod_reads (ver : ArchVer) (small : Bool) (dalgo : Compr) (c : Corres) (fuel : Nat) :
    ReadsAs (entryRead (fun _ => true) ver small dalgo (fuel + 1) c) eodBytes (.eod, c) := by
  unfold entryRead eodBytes
  exact (ReadsAs.sigRead 122 .saved (by decide)).bind_pure rfl

theorem mirage_storage (stars : Nat → Star) (dalgo : Compr) (seen : List Nat) (name : Bytes) (k : Nat) (hn : (0 : UInt8) ∉ name)
    (hw : (stars k).node.Writable false) (ver : ArchVer) (hv : ver.lt ⟨9, 0⟩ = false) :
    ∃ b, mirageDump stars false seen name k = .ok (b, Entry.labels stars seen (.mirage name k)) ∧ b ≠ [] ∧ ∀ fuel, 2 * b.length ≤ fuel →
      ReadsAs (entryRead (fun _ => true) ver false dalgo fuel (starTable stars dalgo seen)) b
        (.entry (Entry.kept stars dalgo (.mirage name k)), starTable stars dalgo (Entry.labels stars seen (.mirage name k))) := by
  unfold mirageDump Entry.labels Entry.kept
  by_cases hr : (stars k).refs > 1 ∨ (stars k).keep = true
  · simp only [if_pos hr]
    by_cases hs : k ∈ seen
    · simp only [if_pos hs]
      refine ⟨_, rfl, by simp [nommeBytes], ?_⟩
      intro fuel hf
      obtain ⟨fuel, rfl⟩ : ∃ m, fuel = m + 1 := ⟨fuel - 1, by simp [nommeBytes] at hf; omega⟩
      unfold entryRead nommeBytes
      simp only [List.append_assoc]
      refine (ReadsAs.sigRead 109 .saved (by decide)).bind ?_
      show ReadsAs (do let name ← getStr; _) _ _
      refine (getStr_putStr _ hn).bind ?_
      refine (getInt_putInt _).bind ?_
      refine (ReadsAs.readRaw _).bind_pure ?_
      simp only [if_true]
      obtain ⟨n, hfind⟩ := starTable_in stars dalgo seen k hs
      unfold mirageAlone
      rw [hfind]
      rfl
    · simp only [if_neg hs]
      obtain ⟨b, h1, h2, h3⟩ := node_storage false dalgo (stars k).node hw ver hv (starTable stars dalgo seen)
      refine ⟨nommeBytes 109 .saved name ++ putInt k ++ [62] ++ b, by rw [h1]; rfl, by simp [nommeBytes], ?_⟩
      intro fuel hf
      obtain ⟨fuel, rfl⟩ : ∃ m, fuel = m + 2 := ⟨fuel - 2, by simp [nommeBytes] at hf; omega⟩
      unfold entryRead nommeBytes
      simp only [List.append_assoc]
      refine (ReadsAs.sigRead 109 .saved (by decide)).bind ?_
      show ReadsAs (do let name ← getStr; _) _ _
      refine (getStr_putStr _ hn).bind ?_
      refine (getInt_putInt _).bind ?_
      refine (ReadsAs.readRaw _).bind ?_
      rw [if_neg (by decide), if_pos rfl]
      refine (h3 fuel).bind_pure ?_
      show Reader.lift (mirageBind name k _ _) = _
      unfold mirageBind
      simp only [starTable_out stars dalgo seen k hs]
      rfl
  · simp only [if_neg hr]
    obtain ⟨b, h1, h2, h3⟩ := node_storage false dalgo { (stars k).node with name := name } ⟨hn, hw.inode, hw.special⟩ ver hv (starTable stars dalgo seen)
    refine ⟨b, by rw [h1]; rfl, h2, ?_⟩
    intro fuel hf
    obtain ⟨fuel, rfl⟩ : ∃ m, fuel = m + 1 := ⟨fuel - 1, by have := List.length_pos_iff.2 h2; omega⟩
    exact h3 fuel

theorem entries_cons (stars : Nat → Star) (dalgo : Compr) (ver : ArchVer) (seen : List Nat) (e : Entry) (l : List Entry)
    (h1 : ∃ b, Entry.dump stars false seen e = .ok (b, Entry.labels stars seen e) ∧ b ≠ [] ∧ ∀ fuel, 2 * b.length ≤ fuel →
      ReadsAs (entryRead (fun _ => true) ver false dalgo fuel (starTable stars dalgo seen)) b
        (.entry (Entry.kept stars dalgo e), starTable stars dalgo (Entry.labels stars seen e)))
    (h2 : ∃ b, Entry.dumpList stars (Entry.labels stars seen e) l = .ok (b, Entry.labelsList stars (Entry.labels stars seen e) l) ∧
      ∀ fuel, 2 * b.length + 2 ≤ fuel →
      ReadsAs (entriesRead (fun _ => true) ver false dalgo fuel (starTable stars dalgo (Entry.labels stars seen e))) (b ++ eodBytes)
        (Entry.keptList stars dalgo l, starTable stars dalgo (Entry.labelsList stars (Entry.labels stars seen e) l))) :
    ∃ b, (do let (b, seen) ← Entry.dump stars false seen e
             let (bs, seen) ← Entry.dumpList stars seen l
             Except.ok (b ++ bs, seen) : Res (Bytes × List Nat)) = .ok (b, Entry.labelsList stars (Entry.labels stars seen e) l) ∧
      ∀ fuel, 2 * b.length + 2 ≤ fuel →
      ReadsAs (entriesRead (fun _ => true) ver false dalgo fuel (starTable stars dalgo seen)) (b ++ eodBytes)
        (Entry.kept stars dalgo e :: Entry.keptList stars dalgo l, starTable stars dalgo (Entry.labelsList stars (Entry.labels stars seen e) l)) := by
  obtain ⟨b, a1, a2, a3⟩ := h1
  obtain ⟨bs, c1, c2⟩ := h2
  refine ⟨b ++ bs, ?_, ?_⟩
  · rw [a1]
    show (do let (bs, seen) ← Entry.dumpList stars (Entry.labels stars seen e) l; Except.ok (b ++ bs, seen) : Res (Bytes × List Nat)) = _
    rw [c1]
    rfl
  · intro fuel hf
    have hb : 0 < b.length := List.length_pos_iff.2 a2
    rw [List.length_append] at hf
    obtain ⟨fuel, rfl⟩ : ∃ m, fuel = m + 1 := ⟨fuel - 1, by omega⟩
    unfold entriesRead
    rw [List.append_assoc]
    refine (a3 fuel (by omega)).bind ?_
    exact (c2 fuel (by omega)).bind_pure rfl

mutual
theorem entry_storage (stars : Nat → Star) (dalgo : Compr) (ver : ArchVer) (hv : ver.lt ⟨9, 0⟩ = false) (seen : List Nat) (e : Entry)
    (h : Entry.Writable stars e) :
    ∃ b, Entry.dump stars false seen e = .ok (b, Entry.labels stars seen e) ∧ b ≠ [] ∧ ∀ fuel, 2 * b.length ≤ fuel →
      ReadsAs (entryRead (fun _ => true) ver false dalgo fuel (starTable stars dalgo seen)) b
        (.entry (Entry.kept stars dalgo e), starTable stars dalgo (Entry.labels stars seen e)) := by
  match e with
  | .node n =>
    obtain ⟨b, h1, h2, h3⟩ := node_storage false dalgo n (by unfold Entry.Writable at h; exact h) ver hv (starTable stars dalgo seen)
    refine ⟨b, by unfold Entry.dump; rw [h1]; unfold Entry.labels; rfl, h2, ?_⟩
    intro fuel hf
    obtain ⟨fuel, rfl⟩ : ∃ m, fuel = m + 1 := ⟨fuel - 1, by have := List.length_pos_iff.2 h2; omega⟩
    unfold Entry.kept Entry.labels
    exact h3 fuel
  | .dir name st i l =>
    unfold Entry.Writable at h
    obtain ⟨bi, h1, h2, r1⟩ := inode_storage false i h.2.1 ver hv
    obtain ⟨bl, h3, r2⟩ := entries_storage stars dalgo ver hv seen l h.2.2
    refine ⟨nommeBytes 100 st name ++ bi ++ bl ++ eodBytes, ?_, by simp [nommeBytes], ?_⟩
    · unfold Entry.dump
      rw [h1]
      simp only [Bool.false_eq_true, if_false]
      rw [h3]
      unfold Entry.labels
      rfl
    · intro fuel hf
      have hl : 0 < bi.length := List.length_pos_iff.2 h2
      obtain ⟨fuel, rfl⟩ : ∃ m, fuel = m + 1 := ⟨fuel - 1, by simp [nommeBytes] at hf; omega⟩
      unfold entryRead nommeBytes Entry.kept Entry.labels
      simp only [List.append_assoc]
      refine (ReadsAs.sigRead 100 st (by decide)).bind ?_
      show ReadsAs (do let name ← getStr; _) _ _
      refine (getStr_putStr _ h.1).bind ?_
      refine r1.bind ?_
      refine (r2 fuel ?_).bind_pure rfl
      simp [nommeBytes, eodBytes] at hf
      omega
  | .detruit name s d =>
    unfold Entry.Writable at h
    obtain ⟨bd, h1, r1⟩ := date_part d h.2 ver hv
    refine ⟨nommeBytes 120 .saved name ++ [s] ++ bd, by unfold Entry.dump; rw [h1]; unfold Entry.labels; rfl, by simp [nommeBytes], ?_⟩
    intro fuel hf
    obtain ⟨fuel, rfl⟩ : ∃ m, fuel = m + 1 := ⟨fuel - 1, by simp [nommeBytes] at hf; omega⟩
    unfold entryRead nommeBytes Entry.kept Entry.labels
    simp only [List.append_assoc]
    refine (ReadsAs.sigRead 120 .saved (by decide)).bind ?_
    show ReadsAs (detruitRead (fun _ => true) ver .saved (starTable stars dalgo seen)) _ _
    unfold detruitRead
    rw [if_neg (by simp)]
    refine (getStr_putStr _ h.1).bind ?_
    refine (ReadsAs.readByte _).bind ?_
    exact r1.bind_pure rfl
  | .mirage name k =>
    unfold Entry.Writable at h
    unfold Entry.dump
    exact mirage_storage stars dalgo seen name k h.1 h.2 ver hv
  | .ignored name => exact absurd h (by unfold Entry.Writable; exact id)
theorem entries_storage (stars : Nat → Star) (dalgo : Compr) (ver : ArchVer) (hv : ver.lt ⟨9, 0⟩ = false) (seen : List Nat) (l : List Entry)
    (h : Entry.WritableList stars l) :
    ∃ b, Entry.dumpList stars seen l = .ok (b, Entry.labelsList stars seen l) ∧ ∀ fuel, 2 * b.length + 2 ≤ fuel →
      ReadsAs (entriesRead (fun _ => true) ver false dalgo fuel (starTable stars dalgo seen)) (b ++ eodBytes)
        (Entry.keptList stars dalgo l, starTable stars dalgo (Entry.labelsList stars seen l)) := by
  match l with
  | [] =>
    refine ⟨[], by unfold Entry.dumpList Entry.labelsList; rfl, ?_⟩
    intro fuel hf
    obtain ⟨fuel, rfl⟩ : ∃ m, fuel = m + 2 := ⟨fuel - 2, by omega⟩
    unfold entriesRead Entry.keptList Entry.labelsList
    exact (eod_reads ver false dalgo _ fuel).bind_pure rfl
  | .ignored name :: l =>
    have := entries_storage stars dalgo ver hv seen l (by simpa only [Entry.WritableList] using h)
    simpa only [Entry.dumpList, Entry.labelsList, Entry.labels, Entry.keptList] using this
  | .node n :: l =>
    unfold Entry.WritableList at h
    unfold Entry.dumpList Entry.labelsList Entry.keptList
    exact entries_cons stars dalgo ver seen _ _ (entry_storage stars dalgo ver hv seen _ h.1) (entries_storage stars dalgo ver hv _ l h.2)
  | .dir name st i ch :: l =>
    unfold Entry.WritableList at h
    unfold Entry.dumpList Entry.labelsList Entry.keptList
    exact entries_cons stars dalgo ver seen _ _ (entry_storage stars dalgo ver hv seen _ h.1) (entries_storage stars dalgo ver hv _ l h.2)
  | .detruit name s d :: l =>
    unfold Entry.WritableList at h
    unfold Entry.dumpList Entry.labelsList Entry.keptList
    exact entries_cons stars dalgo ver seen _ _ (entry_storage stars dalgo ver hv seen _ h.1) (entries_storage stars dalgo ver hv _ l h.2)
  | .mirage name k :: l =>
    unfold Entry.WritableList at h
    unfold Entry.dumpList Entry.labelsList Entry.keptList
    exact entries_cons stars dalgo ver seen _ _ (entry_storage stars dalgo ver hv seen _ h.1) (entries_storage stars dalgo ver hv _ l h.2)
end

end Dar
