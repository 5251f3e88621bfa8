import Verif.Props.Catalogue
import Verif.Props.Paths
namespace Dar

/-! ### truncation -/

/-- Weaker than `StreamSafe`: when something remains after the value, more data after it does not change the value. -/
def WSafe {α : Type} (r : Reader α) : Prop :=
  ∀ s v rest, r s = .ok (v, rest) → rest ≠ [] → s ≠ [] ∧ ∀ t, r (s ++ t) = .ok (v, rest ++ t)

theorem WSafe.pure {α : Type} (a : α) : WSafe (Pure.pure a : Reader α) := by
  intro s v rest h hr
  rw [pure_run] at h
  injection h with h
  injection h with h1 h2
  subst h1; subst h2
  exact ⟨hr, fun t => rfl⟩
theorem WSafe.fail {α : Type} (e : Err) : WSafe (Reader.fail e : Reader α) := by intro s v rest h; cases h
theorem WSafe.lift {α : Type} (r : Res α) : WSafe (Reader.lift r) := by
  intro s v rest h hr
  unfold Reader.lift at h ⊢
  cases r with
  | error e => cases h
  | ok a =>
    injection h with h
    injection h with h1 h2
    subst h1; subst h2
    exact ⟨hr, fun t => rfl⟩
theorem WSafe.bind {α β : Type} {r : Reader α} {f : α → Reader β} (h1 : WSafe r) (h2 : ∀ a, WSafe (f a)) : WSafe (r >>= f) := by
  intro s v rest h hr
  rw [bind_run] at h
  cases hs : r s with
  | error e => rw [hs] at h; cases h
  | ok x =>
    obtain ⟨a, s1⟩ := x
    rw [hs] at h
    obtain ⟨k1, k2⟩ := h2 a s1 v rest h hr
    obtain ⟨k3, k4⟩ := h1 s a s1 hs k1
    refine ⟨k3, fun t => ?_⟩
    rw [bind_run, k4 t]
    exact k2 t
theorem WSafe.ite {α : Type} {c : Prop} [Decidable c] {r1 r2 : Reader α} (h1 : WSafe r1) (h2 : WSafe r2) : WSafe (if c then r1 else r2) := by
  split <;> assumption
theorem WSafe.of_safe {α : Type} {r : Reader α} (h : StreamSafe r) (w : Bytes) (v0 : α) (hw : r w = .ok (v0, [])) : WSafe r := by
  intro s v rest h1 hr
  refine ⟨?_, fun t => h s v rest t h1⟩
  intro hs
  subst hs
  have := h [] v rest w h1
  rw [List.nil_append, hw] at this
  injection this with this
  injection this with _ h3
  exact hr (by simpa using (List.append_eq_nil_iff.1 h3.symm).1)
theorem WSafe.getInt : WSafe getInt := WSafe.of_safe getInt_safe (putInt 0) 0 (by simpa using getInt_putInt 0 [])
theorem WSafe.readByte : WSafe readByte := WSafe.of_safe StreamSafe.readByte [0] 0 rfl
theorem WSafe.readExact (n : Nat) : WSafe (readExact n) :=
  WSafe.of_safe (StreamSafe.readExact n) (List.replicate n 0) (List.replicate n 0) (by unfold Dar.readExact; simp)
theorem WSafe.getNum : WSafe getNum := WSafe.bind (WSafe.readExact 2) fun _ => WSafe.pure _
theorem getStr_safe : StreamSafe getStr := by
  intro s
  induction s with
  | nil => intro v rest t h; cases h
  | cons b s ih =>
    intro v rest t h
    rw [List.cons_append]
    unfold getStr at h ⊢
    by_cases hb : b = 0
    · rw [if_pos hb] at h ⊢
      injection h with h
      injection h with h1 h2
      subst h1; subst h2
      rfl
    · rw [if_neg hb] at h ⊢
      cases hs : getStr s with
      | error e => rw [hs] at h; cases h
      | ok x =>
        obtain ⟨l, r⟩ := x
        rw [hs] at h
        injection h with h
        injection h with h1 h2
        subst h1; subst h2
        rw [ih l r t hs]
theorem WSafe.getStr : WSafe getStr := WSafe.of_safe getStr_safe [0] [] rfl
theorem crcNRead_safe (n : Nat) : StreamSafe (crcNRead n) := by
  intro s v rest t h
  unfold crcNRead at h ⊢
  by_cases hn : n ≤ s.length
  · rw [if_pos hn] at h
    rw [if_pos (by rw [List.length_append]; omega), List.take_append_of_le_length hn, List.drop_append_of_le_length hn]
    injection h with h
    injection h with h1 h2
    subst h1; subst h2
    rfl
  · rw [if_neg hn] at h; cases h
theorem crcRead_safe : StreamSafe (crcRead false) := by
  unfold crcRead
  simp only [Bool.false_eq_true, if_false]
  exact StreamSafe.bind getInt_safe fun n => StreamSafe.ite (crcNRead_safe n) (StreamSafe.bind (StreamSafe.readExact n) fun _ => StreamSafe.pure _)
theorem WSafe.crcRead : WSafe (crcRead false) :=
  WSafe.of_safe crcRead_safe (⟨.n, ⟨[0], 0⟩⟩ : Crc).dump ⟨.n, ⟨[0], 0⟩⟩ (by
    have := crc_storage ⟨.n, ⟨[0], 0⟩⟩ ⟨rfl, by simp [crcImplFor, INFININT_MODE_START]⟩ []
    simpa using this)
theorem WSafe.readRaw : WSafe readRaw := by
  intro s v rest h hr
  cases s with
  | nil => cases h
  | cons b s =>
    injection h with h
    injection h with h1 h2
    subst h1; subst h2
    exact ⟨by simp, fun t => rfl⟩
theorem WSafe.readOr0 : WSafe readOr0 := by
  intro s v rest h hr
  cases s with
  | nil =>
    injection h with h
    injection h with h1 h2
    exact absurd h2.symm hr
  | cons b s =>
    injection h with h
    injection h with h1 h2
    subst h1; subst h2
    exact ⟨by simp, fun t => rfl⟩
theorem WSafe.sigRead : WSafe sigRead := by
  intro s v rest h hr
  cases s with
  | nil =>
    injection h with h
    injection h with h1 h2
    exact absurd h2.symm hr
  | cons b s =>
    injection h with h
    injection h with h1 h2
    subst h1; subst h2
    exact ⟨by simp, fun t => rfl⟩
theorem WSafe.opt {α : Type} {r : Reader α} (b : Bool) (h : WSafe r) : WSafe (optRead b r) := by
  unfold optRead
  exact WSafe.ite (WSafe.bind h fun _ => WSafe.pure _) (WSafe.pure _)
theorem WSafe.orRange {α : Type} (o : Option α) : WSafe (orRange o) := by
  cases o with
  | none => exact WSafe.fail _
  | some a => exact WSafe.pure a
theorem WSafe.dateRead (fits : Nat → Bool) (ver : ArchVer) : WSafe (dateRead fits ver) := by
  unfold Dar.dateRead
  refine WSafe.bind (WSafe.ite (WSafe.pure _) (WSafe.bind WSafe.readByte fun c => ?_)) fun u => WSafe.bind WSafe.getInt fun _ =>
    WSafe.bind (WSafe.ite WSafe.getInt (WSafe.pure _)) fun _ => WSafe.pure _
  split
  · exact WSafe.fail _
  · exact WSafe.pure _
theorem WSafe.inodeRead (fits : Nat → Bool) (ver : ArchVer) (small : Bool) : WSafe (inodeRead fits ver small) := by
  unfold Dar.inodeRead
  exact WSafe.bind WSafe.readRaw fun _ => WSafe.bind (WSafe.orRange _) fun _ => WSafe.bind WSafe.getInt fun _ => WSafe.bind WSafe.getInt fun _ =>
    WSafe.bind WSafe.getNum fun _ => WSafe.bind (WSafe.dateRead _ _) fun _ => WSafe.bind (WSafe.dateRead _ _) fun _ => WSafe.bind (WSafe.dateRead _ _) fun _ =>
    WSafe.bind (WSafe.opt _ WSafe.getInt) fun _ => WSafe.bind (WSafe.opt _ WSafe.getInt) fun _ => WSafe.bind (WSafe.opt _ WSafe.crcRead) fun _ =>
    WSafe.bind (WSafe.orRange _) fun _ => WSafe.bind (WSafe.opt _ WSafe.getInt) fun _ => WSafe.bind (WSafe.opt _ WSafe.getInt) fun _ =>
    WSafe.bind (WSafe.opt _ WSafe.getInt) fun _ => WSafe.bind (WSafe.opt _ WSafe.crcRead) fun _ => WSafe.pure _
theorem WSafe.dsigRead : WSafe dsigRead := by
  unfold Dar.dsigRead
  exact WSafe.bind WSafe.readRaw fun _ => WSafe.bind (WSafe.lift _) fun _ => WSafe.bind WSafe.getInt fun _ =>
    WSafe.bind (WSafe.ite WSafe.getInt (WSafe.pure _)) fun _ => WSafe.bind WSafe.crcRead fun _ => WSafe.pure _
theorem WSafe.fileFlags (st : SavedStatus) : WSafe (fileFlags st) := by
  unfold Dar.fileFlags
  exact WSafe.bind WSafe.readOr0 fun _ => WSafe.bind WSafe.readRaw fun _ => WSafe.bind (WSafe.lift _) fun _ => WSafe.bind (WSafe.opt _ WSafe.crcRead) fun _ => WSafe.pure _
theorem WSafe.fileRead (small : Bool) (st : SavedStatus) (dalgo : Compr) : WSafe (fileRead small st dalgo) := by
  unfold Dar.fileRead
  refine WSafe.bind WSafe.getInt fun _ => WSafe.ite (WSafe.ite ?_ ?_) (WSafe.ite ?_ ?_)
  · exact WSafe.bind (WSafe.fileFlags st) fun _ => WSafe.pure _
  · exact WSafe.bind WSafe.readOr0 fun _ => WSafe.pure _
  · exact WSafe.bind WSafe.getInt fun _ => WSafe.bind WSafe.getInt fun _ => WSafe.bind (WSafe.fileFlags st) fun _ => WSafe.bind WSafe.crcRead fun _ =>
      WSafe.bind (WSafe.opt _ WSafe.dsigRead) fun _ => WSafe.pure _
  · exact WSafe.bind WSafe.readOr0 fun _ => WSafe.bind (WSafe.opt _ WSafe.dsigRead) fun _ => WSafe.pure _
theorem WSafe.deviceRead (st : SavedStatus) (k : Nat → Nat → Special) : WSafe (deviceRead st k) := by
  unfold Dar.deviceRead
  exact WSafe.ite (WSafe.bind WSafe.getNum fun _ => WSafe.bind WSafe.getNum fun _ => WSafe.pure _) (WSafe.pure _)
theorem specialRead_wsafe (small : Bool) (st : SavedStatus) (dalgo : Compr) (letter : UInt8) (r : Reader Special)
    (h : specialRead small st dalgo letter = some r) : WSafe r := by
  unfold specialRead at h
  split at h
  · injection h with h; subst h; exact WSafe.bind (WSafe.fileRead _ _ _) fun _ => WSafe.pure _
  split at h
  · injection h with h; subst h; exact WSafe.bind (WSafe.fileRead _ _ _) fun _ => WSafe.pure _
  split at h
  · injection h with h; subst h; exact WSafe.ite (WSafe.bind WSafe.getStr fun _ => WSafe.pure _) (WSafe.pure _)
  split at h
  · injection h with h; subst h; exact WSafe.deviceRead _ _
  split at h
  · injection h with h; subst h; exact WSafe.deviceRead _ _
  split at h
  · injection h with h; subst h; exact WSafe.pure _
  split at h
  · injection h with h; subst h; exact WSafe.pure _
  · cases h
theorem nodeRead_wsafe (fits : Nat → Bool) (ver : ArchVer) (small : Bool) (st : SavedStatus) (r : Reader Special) (h : WSafe r) : WSafe (nodeRead fits ver small st r) := by
  unfold nodeRead
  exact WSafe.bind WSafe.getStr fun _ => WSafe.bind (WSafe.inodeRead _ _ _) fun _ => WSafe.bind h fun _ => WSafe.pure _
theorem WSafe.oldMirageRead (fits : Nat → Bool) (ver : ArchVer) (small : Bool) (st : SavedStatus) (dalgo : Compr) (letter : UInt8) (c : Corres) :
    WSafe (oldMirageRead fits ver small st dalgo letter c) := by
  unfold Dar.oldMirageRead
  refine WSafe.ite ?_ ?_
  · exact WSafe.bind WSafe.getStr fun _ => WSafe.bind WSafe.getInt fun _ => WSafe.lift _
  · exact WSafe.bind (nodeRead_wsafe _ _ _ _ _ (WSafe.bind (WSafe.fileRead _ _ _) fun _ => WSafe.pure _)) fun _ => WSafe.bind WSafe.getInt fun _ => WSafe.lift _
theorem WSafe.detruitRead (fits : Nat → Bool) (ver : ArchVer) (st : SavedStatus) (c : Corres) : WSafe (detruitRead fits ver st c) := by
  unfold Dar.detruitRead
  exact WSafe.ite (WSafe.fail _) (WSafe.bind WSafe.getStr fun _ => WSafe.bind WSafe.readByte fun _ => WSafe.bind (WSafe.dateRead _ _) fun _ => WSafe.pure _)

theorem entries_wsafe (fits : Nat → Bool) (ver : ArchVer) (small : Bool) (dalgo : Compr) (fuel : Nat) :
    (∀ c, WSafe (entryRead fits ver small dalgo fuel c)) ∧ ∀ c, WSafe (entriesRead fits ver small dalgo fuel c) := by
  induction fuel with
  | zero =>
    constructor <;> intro c
    · unfold entryRead; exact WSafe.fail _
    · unfold entriesRead; exact WSafe.fail _
  | succ fuel ih =>
    constructor <;> intro c
    · unfold entryRead
      refine WSafe.bind WSafe.sigRead fun sg => ?_
      cases sg with
      | none => exact WSafe.fail _
      | some x =>
        obtain ⟨letter, st⟩ := x
        dsimp only
        cases hs : specialRead small st dalgo letter with
        | some sp => exact WSafe.bind (nodeRead_wsafe _ _ _ _ _ (specialRead_wsafe _ _ _ _ _ hs)) fun _ => WSafe.pure _
        | none =>
          refine WSafe.ite ?_ (WSafe.ite ?_ (WSafe.ite ?_ (WSafe.ite ?_ (WSafe.ite ?_ (WSafe.fail _)))))
          · exact WSafe.bind WSafe.getStr fun _ => WSafe.bind (WSafe.inodeRead _ _ _) fun _ => WSafe.bind (ih.2 c) fun _ => WSafe.pure _
          · exact WSafe.bind WSafe.getStr fun _ => WSafe.bind WSafe.getInt fun _ => WSafe.bind WSafe.readRaw fun _ =>
              WSafe.ite (WSafe.lift _) (WSafe.ite (WSafe.bind (ih.1 c) fun _ => WSafe.lift _) (WSafe.fail _))
          · exact WSafe.oldMirageRead _ _ _ _ _ _ _
          · exact WSafe.ite (WSafe.fail _) (WSafe.pure _)
          · exact WSafe.detruitRead _ _ _ _
    · unfold entriesRead
      refine WSafe.bind (ih.1 c) fun x => ?_
      obtain ⟨it, c'⟩ := x
      cases it with
      | eod => exact WSafe.pure _
      | entry e => exact WSafe.bind (ih.2 c') fun _ => WSafe.pure _

theorem catReadBody_wsafe (fits : Nat → Bool) (ver : ArchVer) (dalgo : Compr) (fuel : Nat) : WSafe (catReadBody fits ver dalgo fuel) := by
  unfold catReadBody inPlaceRead rootSig
  refine WSafe.bind (WSafe.readExact _) fun _ => WSafe.bind (WSafe.bind WSafe.getStr fun _ => WSafe.bind (WSafe.lift _) fun _ => WSafe.ite (WSafe.fail _) (WSafe.pure _)) fun _ =>
    WSafe.bind (WSafe.bind WSafe.sigRead fun sg => ?_) fun _ => WSafe.bind WSafe.getStr fun _ => WSafe.bind (WSafe.inodeRead _ _ _) fun _ =>
    WSafe.bind ((entries_wsafe fits ver false dalgo fuel).2 _) fun _ => WSafe.pure _
  cases sg with
  | none => exact WSafe.fail _
  | some x => exact WSafe.ite (WSafe.fail _) (WSafe.pure _)

/-! ### checksum -/

theorem catCrc_eq (b : Bytes) : catCrc b = .ok ⟨.n, ⟨crcSpec 4 b, b.length % 4⟩⟩ := by
  have := C07_chunking 4 (by omega) .n [(0, b)]
  simp only [List.foldlM_cons, List.foldlM_nil, bind_pure, List.flatMap_cons, List.flatMap_nil, List.append_nil] at this
  exact this
theorem crcMatch_ok (w : Nat) (hw : w < INFININT_MODE_START) (b rest : Bytes) (p q : Nat) :
    crcMatch (.ok ⟨.n, ⟨crcSpec w b, p⟩⟩) ((⟨.n, ⟨crcSpec w b, q⟩⟩ : Crc).dump ++ rest) = .ok ((), rest) := by
  have h := crc_storage ⟨.n, ⟨crcSpec w b, 0⟩⟩ ⟨rfl, by simp [crcSpec, crcImplFor, hw]⟩ rest
  unfold crcMatch
  have hd : (⟨.n, ⟨crcSpec w b, q⟩⟩ : Crc).dump = (⟨.n, ⟨crcSpec w b, 0⟩⟩ : Crc).dump := rfl
  rw [hd, h]
  have he : (⟨.n, ⟨crcSpec w b, 0⟩⟩ : Crc).eqv ⟨.n, ⟨crcSpec w b, p⟩⟩ = .ok true := by
    unfold Crc.eqv
    simp only [ne_eq, not_true_eq_false, if_false]
    rw [(tCompare_iff _ _).2 rfl]
  simp only [he]
theorem crcMatch_bad (w : Nat) (hw : w < INFININT_MODE_START) (b b' rest : Bytes) (p q : Nat) (hne : crcSpec w b' ≠ crcSpec w b) :
    crcMatch (.ok ⟨.n, ⟨crcSpec w b', p⟩⟩) ((⟨.n, ⟨crcSpec w b, q⟩⟩ : Crc).dump ++ rest) = .error .range := by
  have h := crc_storage ⟨.n, ⟨crcSpec w b, 0⟩⟩ ⟨rfl, by simp [crcSpec, crcImplFor, hw]⟩ rest
  unfold crcMatch
  have hd : (⟨.n, ⟨crcSpec w b, q⟩⟩ : Crc).dump = (⟨.n, ⟨crcSpec w b, 0⟩⟩ : Crc).dump := rfl
  rw [hd, h]
  have he : (⟨.n, ⟨crcSpec w b, 0⟩⟩ : Crc).eqv ⟨.n, ⟨crcSpec w b', p⟩⟩ = .ok false := by
    unfold Crc.eqv
    simp only [ne_eq, not_true_eq_false, if_false]
    rw [if_neg (by simp [crcSpec])]
    cases hc : tCompare (crcSpec w b) (crcSpec w b') with
    | false => rfl
    | true => exact absurd ((tCompare_iff _ _).1 hc).symm hne
  simp only [he]

theorem take_front (b k : Bytes) : (b ++ k).take ((b ++ k).length - k.length) = b := by
  rw [List.length_append, Nat.add_sub_cancel, List.take_left']
  rfl

/-! ### the catalogue -/

/-- What a catalogue remembers: the tree without the entries to ignore, and the table of hard linked inodes. -/
def Cat.kept (stars : Nat → Star) (dalgo : Compr) (c : Cat) : Cat := { c with inode := c.inode.kept false, children := Entry.keptList stars dalgo c.children }
/-- A catalogue that can be stored: a label of the right size, an absolute path (or "." when there is none) as the location of the root of the backup,
and entries that are all writable. -/
structure Cat.Writable (stars : Nat → Star) (c : Cat) : Prop where
  label : c.label.length = LABEL_SIZE
  place : (c.inPlace = ⟨[pDot], true, false⟩) ∨ (c.inPlace.relative = false ∧ c.inPlace.undisclosed = false ∧ normalForm false c.inPlace.dirs ∧ ¬ loneUrl c.inPlace)
  placeStr : (0 : UInt8) ∉ c.inPlace.display
  tree : Entry.Writable stars (.dir c.name c.status c.inode c.children)

theorem inPlace_storage (p : PathT) (h0 : (0 : UInt8) ∉ p.display)
    (h : (p = ⟨[pDot], true, false⟩) ∨ (p.relative = false ∧ p.undisclosed = false ∧ normalForm false p.dirs ∧ ¬ loneUrl p)) :
    ReadsAs inPlaceRead (putStr p.display) p := by
  have hp : pathOf p.display false = .ok p := by
    rcases h with h | ⟨h1, h2, h3, h4⟩
    · rw [h]; decide
    · exact C25_display_parse p (by rw [h1]; exact h3) h2 h4
  unfold inPlaceRead
  refine (getStr_putStr _ h0).bind_pure ?_
  rw [hp]
  show (do let p ← Reader.lift (.ok p); if p.relative = true ∧ p.display ≠ pDot then Reader.fail .range else pure p : Reader PathT) = _
  show (if p.relative = true ∧ p.display ≠ pDot then Reader.fail .range else pure p : Reader PathT) = _
  rw [if_neg]
  rintro ⟨h5, h6⟩
  rcases h with h | ⟨h1, _⟩
  · rw [h] at h6; exact h6 (by decide)
  · rw [h1] at h5; cases h5

theorem catBody_storage (stars : Nat → Star) (c : Cat) (hw : c.Writable stars) (dalgo : Compr) (ver : ArchVer) (hv : ver.lt ⟨9, 0⟩ = false) :
    ∃ b, c.body stars = .ok b ∧ ∀ fuel, 2 * b.length ≤ fuel → ReadsAs (catReadBody (fun _ => true) ver dalgo fuel) b
      (c.kept stars dalgo, starTable stars dalgo (Entry.labelsList stars [] c.children)) := by
  have ht := hw.tree
  unfold Entry.Writable at ht
  obtain ⟨bi, h1, h2, r1⟩ := inode_storage false c.inode ht.2.1 ver hv
  obtain ⟨bl, h3, r2⟩ := entries_storage stars dalgo ver hv [] c.children ht.2.2
  refine ⟨c.label ++ putStr c.inPlace.display ++ (nommeBytes 100 c.status c.name ++ bi ++ bl ++ eodBytes), ?_, ?_⟩
  · unfold Cat.body Entry.dump
    rw [h1]
    simp only [Bool.false_eq_true, if_false]
    rw [h3]
    rfl
  · intro fuel hf
    unfold catReadBody nommeBytes
    simp only [List.append_assoc]
    refine (ReadsAs.readExact _ _ hw.label).bind ?_
    refine (inPlace_storage _ hw.placeStr hw.place).bind ?_
    refine ReadsAs.bind (a := c.status) ?_ ?_
    · unfold rootSig
      exact (ReadsAs.sigRead 100 c.status (by decide)).bind_pure rfl
    refine (getStr_putStr _ ht.1).bind ?_
    refine r1.bind ?_
    refine (r2 fuel ?_).bind_pure rfl
    simp only [List.length_append, nommeBytes, eodBytes, List.length_singleton] at hf
    omega

/-- Whatever is in the catalogue — any tree of files, directories, links, devices, deletion records and hard links — it can be written, and reading
what was written gives the same entries in the same order, and the same hard linked inodes, whatever follows in the archive. -/
theorem C32_round_trip (stars : Nat → Star) (c : Cat) (hw : c.Writable stars) (dalgo : Compr) (ver : ArchVer) (hv : ver.lt ⟨9, 0⟩ = false) :
    ∃ b, c.dump stars = .ok b ∧ ∀ fuel, 2 * b.length ≤ fuel → ReadsAs (catRead (fun _ => true) ver dalgo fuel) b
      (c.kept stars dalgo, starTable stars dalgo (Entry.labelsList stars [] c.children)) := by
  obtain ⟨b, h1, r1⟩ := catBody_storage stars c hw dalgo ver hv
  refine ⟨b ++ (⟨.n, ⟨crcSpec 4 b, b.length % 4⟩⟩ : Crc).dump, ?_, ?_⟩
  · unfold Cat.dump
    rw [h1]
    show Except.bind (catCrc b) _ = _
    rw [catCrc_eq]
    rfl
  · intro fuel hf rest
    rw [List.length_append] at hf
    unfold catRead
    rw [List.append_assoc, r1 fuel (by omega)]
    dsimp only
    rw [take_front, catCrc_eq, crcMatch_ok 4 (by decide)]

/-- A truncated catalogue is never accepted. -/
theorem C32_truncated (stars : Nat → Star) (c : Cat) (hw : c.Writable stars) (dalgo : Compr) (ver : ArchVer) (hv : ver.lt ⟨9, 0⟩ = false)
    (b p q : Bytes) (hb : c.dump stars = .ok b) (hpq : b = p ++ q) (hq : q ≠ []) (fuel : Nat) (hf : 2 * b.length ≤ fuel) :
    ∃ e, catRead (fun _ => true) ver dalgo fuel p = .error e := by
  cases hp : catRead (fun _ => true) ver dalgo fuel p with
  | error e => exact ⟨e, rfl⟩
  | ok x =>
    exfalso
    obtain ⟨body, h1, r1⟩ := catBody_storage stars c hw dalgo ver hv
    have hb' : b = body ++ (⟨.n, ⟨crcSpec 4 body, body.length % 4⟩⟩ : Crc).dump := by
      unfold Cat.dump at hb
      rw [h1] at hb
      have : (Except.ok (body ++ (⟨.n, ⟨crcSpec 4 body, body.length % 4⟩⟩ : Crc).dump) : Res Bytes) = .ok b := by
        rw [← hb]
        show _ = Except.bind (catCrc body) _
        rw [catCrc_eq]
        rfl
      exact (Except.ok.inj this).symm
    unfold catRead at hp
    cases hr : catReadBody (fun _ => true) ver dalgo fuel p with
    | error e => rw [hr] at hp; cases hp
    | ok y =>
      obtain ⟨r, s'⟩ := y
      rw [hr] at hp
      dsimp only at hp
      cases hk : crcRead false s' with
      | error e => unfold crcMatch at hp; rw [hk] at hp; cases hp
      | ok z =>
        obtain ⟨rd, s''⟩ := z
        have hs' : s' ≠ [] := by
          rintro rfl
          have h0 : crcRead false [] = .error .range := rfl
          rw [h0] at hk
          cases hk
        have := (catReadBody_wsafe _ ver dalgo fuel p r s' hr hs').2 q
        rw [← hpq, hb', r1 fuel (by rw [hb', List.length_append] at hf; omega)] at this
        have he : (⟨.n, ⟨crcSpec 4 body, body.length % 4⟩⟩ : Crc).dump = s' ++ q := (Prod.mk.inj (Except.ok.inj this)).2
        have hst := crc_storage ⟨.n, ⟨crcSpec 4 body, 0⟩⟩ ⟨rfl, by simp [crcSpec, crcImplFor, INFININT_MODE_START]⟩
        obtain ⟨e, he'⟩ := strict_prefix_error (crcRead false) crcRead_safe _ _ hst s' q he hq
        rw [hk] at he'
        cases he'

/-- A catalogue damaged within four consecutive bytes is never taken for another catalogue of the same length: if the damaged part can still be
decoded up to the same place, the reading fails. -/
theorem C32_damaged (stars : Nat → Star) (c : Cat) (dalgo : Compr) (ver : ArchVer) (b b' k rest : Bytes) (fuel start : Nat)
    (hb : c.body stars = .ok b) (hd : c.dump stars = .ok (b ++ k)) (hl : b'.length = b.length) (hne : b' ≠ b)
    (hin : ∀ i, b'.getD i 0 ≠ b.getD i 0 → start ≤ i ∧ i < start + 4) (r : Cat × Corres)
    (hr : catReadBody (fun _ => true) ver dalgo fuel (b' ++ (k ++ rest)) = .ok (r, k ++ rest)) :
    catRead (fun _ => true) ver dalgo fuel (b' ++ (k ++ rest)) = .error .range := by
  have hk : k = (⟨.n, ⟨crcSpec 4 b, b.length % 4⟩⟩ : Crc).dump := by
    unfold Cat.dump at hd
    rw [hb] at hd
    have he : (Except.ok (b ++ (⟨.n, ⟨crcSpec 4 b, b.length % 4⟩⟩ : Crc).dump) : Res Bytes) = .ok (b ++ k) := by
      rw [← hd]
      show _ = Except.bind (catCrc b) _
      rw [catCrc_eq]
      rfl
    exact (List.append_cancel_left (Except.ok.inj he)).symm
  unfold catRead
  rw [hr]
  dsimp only
  rw [take_front, catCrc_eq, hk, crcMatch_bad 4 (by decide) b b' rest _ _ (C08_detects_window 4 b' b hl start hin hne)]

/-! ### the in-line copy of an entry -/

/-- what the in-line copy of an entry remembers (the in-line copy of a directory has no children) -/
def Entry.keptInline (dalgo : Compr) : Entry → Entry
  | .node n => .node (n.kept true dalgo)
  | .dir name st i _ => .dir name st (i.kept true) []
  | e => e
def Entry.WritableInline : Entry → Prop
  | .node n => n.Writable true
  | .dir name _ i _ => (0 : UInt8) ∉ name ∧ i.Writable true
  | .detruit name _ d => (0 : UInt8) ∉ name ∧ d.Canonical
  | _ => False

theorem inline_storage (stars : Nat → Star) (dalgo : Compr) (ver : ArchVer) (hv : ver.lt ⟨9, 0⟩ = false) (seen : List Nat) (e : Entry) (h : e.WritableInline)
    (c : Corres) : ∃ b, Entry.dump stars true seen e = .ok (b, seen) ∧ ∀ fuel, 3 ≤ fuel →
      ReadsAs (entryRead (fun _ => true) ver true dalgo fuel c) b (.entry (e.keptInline dalgo), c) := by
  match e with
  | .node n =>
    obtain ⟨b, h1, h2, h3⟩ := node_storage true dalgo n h ver hv c
    refine ⟨b, by unfold Entry.dump; rw [h1]; rfl, ?_⟩
    intro fuel hf
    obtain ⟨fuel, rfl⟩ : ∃ m, fuel = m + 1 := ⟨fuel - 1, by omega⟩
    exact h3 fuel
  | .dir name st i l =>
    obtain ⟨bi, h1, h2, r1⟩ := inode_storage true i h.2 ver hv
    refine ⟨nommeBytes 100 st name ++ bi ++ [] ++ eodBytes, by unfold Entry.dump; rw [h1]; rfl, ?_⟩
    intro fuel hf
    obtain ⟨fuel, rfl⟩ : ∃ m, fuel = m + 3 := ⟨fuel - 3, by omega⟩
    unfold entryRead nommeBytes
    simp only [List.append_assoc]
    refine (ReadsAs.sigRead 100 st (by decide)).bind ?_
    show ReadsAs (do let name ← getStr; _) _ _
    refine (getStr_putStr _ h.1).bind ?_
    refine r1.bind ?_
    refine ReadsAs.bind_pure (a := ([], c)) ?_ rfl
    unfold entriesRead
    exact (eod_reads ver true dalgo _ fuel).bind_pure rfl
  | .detruit name s d =>
    obtain ⟨bd, h1, r1⟩ := date_part d h.2 ver hv
    refine ⟨nommeBytes 120 .saved name ++ [s] ++ bd, by unfold Entry.dump; rw [h1]; rfl, ?_⟩
    intro fuel hf
    obtain ⟨fuel, rfl⟩ : ∃ m, fuel = m + 1 := ⟨fuel - 1, by omega⟩
    unfold entryRead nommeBytes
    simp only [List.append_assoc]
    refine (ReadsAs.sigRead 120 .saved (by decide)).bind ?_
    show ReadsAs (detruitRead (fun _ => true) ver .saved c) _ _
    unfold detruitRead
    rw [if_neg (by simp)]
    refine (getStr_putStr _ h.1).bind ?_
    refine (ReadsAs.readByte _).bind ?_
    exact r1.bind_pure rfl
  | .mirage _ _ => exact h.elim
  | .ignored _ => exact h.elim

/-- The in-line copy of an entry (used when the archive is read sequentially) is read back with the same name, type, status, owner, permissions, dates,
attributes status and size as the entry written. -/
theorem C32_inline (stars : Nat → Star) (dalgo : Compr) (ver : ArchVer) (hv : ver.lt ⟨9, 0⟩ = false) (seen : List Nat) (e : Entry) (h : e.WritableInline)
    (c : Corres) : ∃ b, Entry.dumpInline stars seen e = .ok b ∧ ∀ fuel, 3 ≤ fuel →
      ReadsAs (entryReadInline (fun _ => true) ver dalgo fuel c) b (.entry (e.keptInline dalgo), c) := by
  obtain ⟨b, h1, r1⟩ := inline_storage stars dalgo ver hv seen e h c
  refine ⟨b ++ (⟨.n, ⟨crcSpec 2 b, b.length % 2⟩⟩ : Crc).dump, ?_, ?_⟩
  · unfold Entry.dumpInline
    rw [h1]
    show Except.bind (headerCrc b) _ = _
    rw [headerCrc_eq]
    rfl
  · intro fuel hf rest
    unfold entryReadInline
    rw [List.append_assoc, r1 fuel hf]
    dsimp only
    rw [take_front, headerCrc_eq, crcMatch_ok 2 (by decide)]

/-! ### a concrete case -/

def exDate : DateT := ⟨1700000000, .s⟩
def exCrc : Crc := ⟨.n, ⟨[1, 2, 3], 0⟩⟩
def exInode : InodeB := ⟨1000, 100, 420, exDate, ⟨1700000000123, .ns⟩, exDate, .full, some 12, some 4000, some exCrc, .part, some 1, none, none, none⟩
def exFile : FileB := ⟨10, 1234, 7, 0, 1, true, .gzip, none, some exCrc, some ⟨.rkBlake2, 30, 2000, some exCrc⟩⟩
/-- inode 7 has two names, inode 8 has one and is not kept as a hard link -/
def exStars (k : Nat) : Star := ⟨⟨[120], .saved, exInode, .link [116]⟩, if k = 7 then 2 else 1, false⟩
/-- a directory holding a file, a removed entry, an ignored entry and a subdirectory, with hard links in both directories -/
def exCat : Cat := ⟨List.replicate 10 5, ⟨[[97], [98]], false, false⟩, .saved, exInode, [114], [
  .node ⟨[102], .saved, exInode, .file exFile⟩, .mirage [109] 7, .detruit [100] 102 exDate, .ignored [105],
  .dir [115] .notSaved exInode [.mirage [110] 7, .mirage [111] 8, .node ⟨[112], .notSaved, exInode, .chardev 4 5⟩]]⟩

theorem exInode_writable (small : Bool) : exInode.Writable small :=
  ⟨by decide, trivial, by simp [exInode, DateT.Canonical], trivial, fun _ _ => ⟨rfl, exCrc, rfl, rfl, rfl⟩, fun _ => rfl, (by intro h; cases h)⟩
theorem exCat_writable : exCat.Writable exStars := by
  refine ⟨rfl, .inr ⟨rfl, rfl, ?_, by simp [loneUrl, exCat]⟩, by decide, ?_⟩
  · right; left
    exact ⟨by simp [exCat], 0, [[97], [98]], by simp [exCat], by simp [isName]⟩
  · have hf : exFile.Writable false .saved :=
      ⟨.inr rfl, (by intro h; cases h), (by intro h; cases h), fun _ _ => ⟨exCrc, rfl, rfl, rfl⟩,
        (by intro _ d h; cases h; exact ⟨exCrc, rfl, rfl, rfl⟩)⟩
    have hi := exInode_writable false
    have hl : (exStars 7).node.Writable false := ⟨by simp [exStars], hi, by simp [exStars, Special.Writable]⟩
    have hl8 : (exStars 8).node.Writable false := hl
    simp only [exCat, Entry.Writable, Entry.WritableList, hl, hl8, hi]
    refine ⟨by decide, trivial, ⟨by simp, hi, hf⟩, ⟨by simp, trivial⟩, ⟨by simp, trivial⟩, ⟨by simp, trivial, ⟨by simp, trivial⟩, ⟨by simp, trivial⟩, ⟨by simp, hi, by simp [Special.Writable]⟩, trivial⟩, trivial⟩

/-- it meets the hypotheses; the two names of inode 7 are read back as hard links to one inode, the single name of inode 8 as a plain inode -/
example : ∃ b, exCat.dump exStars = .ok b ∧ ∀ fuel, 2 * b.length ≤ fuel → ReadsAs (catRead (fun _ => true) ⟨12, 0⟩ .none fuel) b
    (exCat.kept exStars .none, [(7, (exStars 7).node.kept false .none)]) := by
  have h := C32_round_trip exStars exCat exCat_writable .none ⟨12, 0⟩ (by decide)
  have hl : Entry.labelsList exStars [] exCat.children = [7] := by simp [exCat, exStars, Entry.labelsList, Entry.labels]
  rw [hl] at h
  exact h

end Dar
