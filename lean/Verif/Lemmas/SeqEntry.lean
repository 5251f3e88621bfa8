import Verif.Spec.SeqRead
import Verif.Props.CatalogueFile
/- The reading of the in-line copy of an entry, in the context of sequential reading. -/
namespace Dar

/-- the hard linked inodes read in line -/
def linkTable (stars : Nat → Star) (dalgo : Compr) (ks : List Nat) : Corres := ks.map fun k => (k, (stars k).node.kept true dalgo)

theorem linkTable_in (stars : Nat → Star) (dalgo : Compr) (ks : List Nat) (k : Nat) (h : k ∈ ks) :
    (linkTable stars dalgo ks).find k = some ((stars k).node.kept true dalgo) := by
  unfold Corres.find linkTable
  induction ks with
  | nil => cases h
  | cons a ks ih =>
    simp only [List.map_cons, List.lookup_cons]
    by_cases hk : k = a
    · simp [hk]
    · have : (k == a) = false := by simp [hk]
      rw [this]
      exact ih (by rcases List.mem_cons.1 h with h | h; exact absurd h hk; exact h)
theorem linkTable_out (stars : Nat → Star) (dalgo : Compr) (ks : List Nat) (k : Nat) (h : k ∉ ks) : (linkTable stars dalgo ks).find k = none := by
  unfold Corres.find linkTable
  induction ks with
  | nil => rfl
  | cons a ks ih =>
    simp only [List.map_cons, List.lookup_cons]
    have : (k == a) = false := by simp; intro hh; exact h (by simp [hh])
    rw [this]
    exact ih (fun hh => h (List.mem_cons_of_mem _ hh))

theorem shared_iff (stars : Nat → Star) (k : Nat) : shared stars k = true ↔ ((stars k).refs > 1 ∨ (stars k).keep = true) := by
  unfold shared; simp

theorem mirage_inline (stars : Nat → Star) (dalgo : Compr) (wrote : List Nat) (name : Bytes) (k : Nat) (hn : (0 : UInt8) ∉ name)
    (hw : (stars k).node.Writable true) (ver : ArchVer) (hv : ver.lt ⟨9, 0⟩ = false) :
    ∃ b, mirageDump stars true wrote name k = .ok (b, wrote) ∧ ∀ fuel, 3 ≤ fuel →
      ReadsAs (entryRead (fun _ => true) ver true dalgo fuel (linkTable stars dalgo wrote)) b
        (.entry (Entry.inline stars dalgo (.mirage name k)), linkTable stars dalgo (wroteAfter stars wrote (.mirage name k))) := by
  unfold mirageDump Entry.inline wroteAfter
  by_cases hr : (stars k).refs > 1 ∨ (stars k).keep = true
  · simp only [if_pos hr, if_pos ((shared_iff stars k).2 hr)]
    by_cases hs : k ∈ wrote
    · simp only [if_pos hs]
      refine ⟨_, rfl, ?_⟩
      intro fuel hf
      obtain ⟨fuel, rfl⟩ : ∃ m, fuel = m + 1 := ⟨fuel - 1, by omega⟩
      unfold entryRead nommeBytes
      simp only [List.append_assoc]
      refine (ReadsAs.sigRead 109 .saved (by decide)).bind ?_
      show ReadsAs (do let name ← getStr; _) _ _
      refine (getStr_putStr _ hn).bind ?_
      refine (getInt_putInt _).bind ?_
      refine (ReadsAs.readRaw _).bind_pure ?_
      simp only [if_true]
      unfold mirageAlone
      rw [linkTable_in stars dalgo wrote k hs]
      rfl
    · simp only [if_neg hs, if_true]
      obtain ⟨b, h1, h2, h3⟩ := node_storage true dalgo (stars k).node hw ver hv (linkTable stars dalgo wrote)
      refine ⟨nommeBytes 109 .saved name ++ putInt k ++ [62] ++ b, by rw [h1]; rfl, ?_⟩
      intro fuel hf
      obtain ⟨fuel, rfl⟩ : ∃ m, fuel = m + 2 := ⟨fuel - 2, by omega⟩
      unfold entryRead nommeBytes
      simp only [List.append_assoc]
      refine (ReadsAs.sigRead 109 .saved (by decide)).bind ?_
      show ReadsAs (do let name ← getStr; _) _ _
      refine (getStr_putStr _ hn).bind ?_
      refine (getInt_putInt _).bind ?_
      refine (ReadsAs.readRaw _).bind ?_
      rw [if_neg (by decide), if_pos rfl]
      refine (h3 fuel).bind_pure ?_
      show Reader.lift (mirageBind name k _ _) = _
      unfold mirageBind
      simp only [linkTable_out stars dalgo wrote k hs]
      rfl
  · simp only [if_neg hr, if_neg (fun h => hr ((shared_iff stars k).1 h))]
    obtain ⟨b, h1, h2, h3⟩ := node_storage true dalgo { (stars k).node with name := name } ⟨hn, hw.inode, hw.special⟩ ver hv (linkTable stars dalgo wrote)
    refine ⟨b, by rw [h1]; rfl, ?_⟩
    intro fuel hf
    obtain ⟨fuel, rfl⟩ : ∃ m, fuel = m + 1 := ⟨fuel - 1, by omega⟩
    exact h3 fuel

theorem crc_inline (fits : Nat → Bool) (ver : ArchVer) (dalgo : Compr) (fuel : Nat) (c c' : Corres) (it : Item) (b : Bytes)
    (r : ReadsAs (entryRead fits ver true dalgo fuel c) b (it, c')) :
    ReadsAs (entryReadInline fits ver dalgo fuel c) (b ++ (⟨.n, ⟨crcSpec 2 b, b.length % 2⟩⟩ : Crc).dump) (it, c') := by
  intro rest
  unfold entryReadInline
  rw [List.append_assoc, r]
  dsimp only
  rw [take_front, headerCrc_eq, crcMatch_ok 2 (by decide)]

theorem entry_inline (stars : Nat → Star) (dalgo : Compr) (ver : ArchVer) (hv : ver.lt ⟨9, 0⟩ = false) (wrote : List Nat) (e : Entry)
    (h : e.InlineOk stars) : ∃ b, Entry.dumpInline stars wrote e = .ok b ∧ ∀ fuel, 3 ≤ fuel →
      ReadsAs (entryReadInline (fun _ => true) ver dalgo fuel (linkTable stars dalgo wrote)) b
        (.entry (e.inline stars dalgo), linkTable stars dalgo (wroteAfter stars wrote e)) := by
  have key : ∃ b, Entry.dump stars true wrote e = .ok (b, wrote) ∧ ∀ fuel, 3 ≤ fuel →
      ReadsAs (entryRead (fun _ => true) ver true dalgo fuel (linkTable stars dalgo wrote)) b
        (.entry (e.inline stars dalgo), linkTable stars dalgo (wroteAfter stars wrote e)) := by
    match e, h with
    | .node n, h => exact inline_storage stars dalgo ver hv wrote (.node n) h _
    | .dir n st i ch, h => exact inline_storage stars dalgo ver hv wrote (.dir n st i ch) h _
    | .mirage n k, h =>
      obtain ⟨b, h1, h2⟩ := mirage_inline stars dalgo wrote n k h.1 h.2 ver hv
      exact ⟨b, by unfold Entry.dump; exact h1, h2⟩
  obtain ⟨b, h1, h2⟩ := key
  refine ⟨b ++ (⟨.n, ⟨crcSpec 2 b, b.length % 2⟩⟩ : Crc).dump, ?_, fun fuel hf => crc_inline _ _ _ _ _ _ _ _ (h2 fuel hf)⟩
  unfold Entry.dumpInline
  rw [h1]
  show Except.bind (headerCrc b) _ = _
  rw [headerCrc_eq]
  rfl

theorem eodInline_reads (dalgo : Compr) (ver : ArchVer) (c : Corres) : ∃ b, eodInline = .ok b ∧ ∀ fuel, 3 ≤ fuel →
    ReadsAs (entryReadInline (fun _ => true) ver dalgo fuel c) b (.eod, c) := by
  refine ⟨eodBytes ++ (⟨.n, ⟨crcSpec 2 eodBytes, eodBytes.length % 2⟩⟩ : Crc).dump, ?_, fun fuel hf => ?_⟩
  · unfold eodInline
    rw [headerCrc_eq]
    rfl
  · obtain ⟨fuel, rfl⟩ : ∃ m, fuel = m + 1 := ⟨fuel - 1, by omega⟩
    exact crc_inline _ _ _ _ _ _ _ _ (eod_reads ver true dalgo c fuel)

theorem seqEntry_of (env : SeqEnv) (c c' : Corres) (it : Item) (d r : Bytes)
    (h : entryReadInline env.fits env.ver env.dalgo env.fuel c d = .ok ((it, c'), r)) :
    seqEntry env [] c d = .ok (some (it, c'), r) := by
  unfold seqEntry
  have hs : ∀ r', sigRead d ≠ .ok (none, r') := by
    intro r' hs
    unfold entryReadInline at h
    cases hf : env.fuel with
    | zero => rw [hf] at h; unfold entryRead at h; exact absurd h (by rintro ⟨⟩)
    | succ n =>
      rw [hf] at h
      unfold entryRead at h
      rw [bind_run, hs] at h
      exact absurd h (by rintro ⟨⟩)
  split
  · next r' hh => exact absurd hh (hs r')
  · rw [h]
    match it with
    | .eod => rfl
    | .entry (.mirage n k) => dsimp only; rw [if_neg (by simp)]
    | .entry (.node _) => rfl
    | .entry (.dir _ _ _ _) => rfl
    | .entry (.detruit _ _ _) => rfl
    | .entry (.ignored _) => rfl

end Dar
