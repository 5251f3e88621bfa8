import Verif.Lemmas.Layers3
import Verif.Props.Marks
/- C48: the layers of an archive put together. -/
namespace Dar

section
attribute [local instance] escNormal

/-- The settings of an archive the program may build: a header it can write; a lawful codec with blocks of at least 100 bytes, or
no compression; no weak scrambling; a lawful cipher; the random numbers of the two padding buffers (the program draws less than
51200). -/
structure ArcOk (env : ArcEnv) (h : Hdr) (p1 p2 : Pad) : Prop where
  hdr : h.Writable
  compr : h.base.algo = .none ∨ (100 ≤ h.base.comprBs ∧ (env.codecs h.base.algo).Lawful h.base.comprBs)
  scr : h.base.sym ≠ .scrambling
  block : 0 < env.block
  block' : env.block < 2 ^ 32
  law : env.cipher.Lawful env.block
  grow : ∀ k, k ≤ env.block → k ≤ env.cipher.encSize k
  r1 : RndOk p1.rnd
  r2 : RndOk p2.rnd
  s1 : p1.rand + 1 ≤ 2 ^ 31
  s2 : p2.rand + 1 + env.block ≤ 2 ^ 31

/-- The compression in use. -/
def arcZ (env : ArcEnv) (h : HdrBase) : Option (Codec × Nat) := if h.algo = .none then none else some (env.codecs h.algo, h.comprBs)

private theorem arcCodec_eq {env : ArcEnv} {h : Hdr} {p1 p2 : Pad} (hk : ArcOk env h p1 p2) (off : Nat) :
    arcCodec env.codecs { h.base with initialOffset := off } = .ok (arcZ env h.base) ∧ arcCodec env.codecs h.base = .ok (arcZ env h.base) ∧ ZOk (arcZ env h.base) := by
  unfold arcCodec arcZ
  rcases hk.compr with h1 | ⟨h1, h2⟩
  · simp only [if_pos h1]
    exact ⟨trivial, trivial, fun c B hh => by cases hh⟩
  · by_cases h3 : h.base.algo = .none
    · simp only [if_pos h3]
      exact ⟨trivial, trivial, fun c B hh => by cases hh⟩
    · simp only [if_neg h3, if_neg (show ¬ h.base.comprBs = 0 by omega)]
      refine ⟨trivial, trivial, fun c B hh => ?_⟩
      cases hh
      exact ⟨h1, h2⟩

private theorem writable_off {h : Hdr} (hw : h.Writable) (off : Nat) : ({ h with base := { h.base with initialOffset := off } } : Hdr).Writable :=
  ⟨⟨hw.wb.ver, hw.wb.known, hw.wb.line, hw.wb.layout, hw.wb.ref, hw.wb.ciph, hw.wb.nokdf, hw.wb.kdf⟩, hw.wr, hw.wo⟩

private theorem header_ok {h : Hdr} (hw : h.Writable) (off : Nat) : ∃ hb, ({ h with base := { h.base with initialOffset := off } } : Hdr).write = .ok hb ∧ hb ≠ [] ∧
    (off ≠ 0 → ∀ goOn total rest, hdrRead goOn total HdrBase.empty (hb ++ rest) = .ok ({ h with base := { h.base with initialOffset := off } }, rest)) := by
  have hw' := writable_off hw off
  obtain ⟨hb, e, _⟩ := C24_header _ hw' (fun _ => true) HdrBase.empty rfl
  refine ⟨hb, e, ?_, ?_⟩
  · unfold Hdr.write at e
    cases h1 : ({ h with base := { h.base with initialOffset := off } } : Hdr).body with
    | error x => rw [h1] at e; cases e
    | ok b =>
      rw [h1] at e
      simp only [bind, Except.bind] at e
      cases h2 : headerCrc b with
      | error x => rw [h2] at e; cases e
      | ok c =>
        rw [h2] at e
        cases e
        unfold Crc.dump
        simp [putInt_ne_nil]
  · intro ho goOn total rest
    obtain ⟨hb', e', h2⟩ := C24_header _ hw' goOn HdrBase.empty rfl
    rw [e] at e'
    cases e'
    rw [h2, if_neg ho]

private theorem encBlocks_le {c : Cipher} {B : Nat} (hB : 0 < B) (hc : c.Lawful B) (hg : ∀ k, k ≤ B → k ≤ c.encSize k) (d : Bytes) : ∀ n, d.length ≤ (encBlocks c B n d).length := by
  induction hl : d.length using Nat.strong_induction_on generalizing d with
  | _ m ih =>
    intro n
    by_cases hd : d = []
    · subst hd; simp at hl; omega
    · have hpos := List.length_pos_iff.mpr hd
      rw [encBlocks, dif_neg (by rintro (h | h); exacts [hd h, by omega]), List.length_append,
        hc.size n (d.take B) (by intro h; rw [← List.length_eq_zero_iff, List.length_take] at h; omega) (by rw [List.length_take]; omega)]
      have h1 := ih (d.drop B).length (by rw [List.length_drop]; omega) (d.drop B) rfl (n + 1)
      have h2 := hg (d.take B).length (by rw [List.length_take]; omega)
      rw [List.length_drop] at h1
      rw [List.length_take] at h2 ⊢
      omega

private theorem pad_ok {p : Pad} (hr : RndOk p.rnd) (modulo offset : Nat) (h0 : elPadSize p.rand modulo offset ≠ 0) (hmax : elPadSize p.rand modulo offset ≤ 2 ^ 31) :
    ∃ b, p.bytes modulo offset = .ok b ∧ b.length = elPadSize p.rand modulo offset ∧ ∀ q pre, (termDump q).length < 2 ^ 31 →
      termRead ⟨pre ++ termDump q ++ b, 0⟩ true false 0 = .ok (q, pre.length) := by
  generalize hn : elPadSize p.rand modulo offset = n at *
  obtain ⟨b, h1, h2, _⟩ := elDump_spec n n p.r p.rnd hr h0 (le_trans hmax (by decide)) (le_refl _)
  refine ⟨b, ?_, h2, ?_⟩
  · unfold Pad.bytes elMake
    rw [hn]
    have hm : 2 ^ 31 ≤ elMax := by decide
    have hm' : ¬ n > elMax := by omega
    simp only [if_neg h0, if_neg hm']
    exact h1
  · intro q pre hq
    obtain ⟨b', e1, _, e2⟩ := C41_locate_elastic q pre [] hq n n p.r p.rnd hr h0 hmax (le_refl _) 0
    rw [h1] at e1
    cases e1
    exact e2

/-- Closing, then opening, the layer under the marks. -/
private theorem close_spec {env : ArcEnv} {h : Hdr} {p1 p2 : Pad} (hk : ArcOk env h p1 p2) {hb : Bytes} (hbn : hb ≠ []) {b : Bot} {X : Bytes} {start : Nat}
    (hi : BotInv env h.base hb b (X ++ termDump start)) (hs : start ≤ X.length) :
    ∃ F pad, b.close p2 = .ok ⟨F, F.length⟩ ∧ F ≠ [] ∧ arcContent env { h.base with initialOffset := hb.length } F = .ok (X ++ termDump start ++ pad) ∧
      (F.length < 2 ^ 64 → termRead ⟨X ++ termDump start ++ pad, 0⟩ (decide (h.base.sym ≠ .none)) false 0 = .ok (start, X.length)) := by
  cases b with
  | plain f =>
    obtain ⟨h1, rfl⟩ := hi
    refine ⟨X ++ termDump start, [], rfl, ?_, ?_, ?_⟩
    · obtain ⟨c, t, e, _⟩ := termDump_head start
      rw [e]; simp
    · unfold arcContent
      simp only [if_pos h1, List.append_nil]
    · intro hF
      rw [List.append_nil, h1]
      exact C41_locate start X (termDump_length_small _ (by rw [List.length_append] at hF; omega)) 0 false
  | crypt t =>
    obtain ⟨h1, t0, l, e1, e2, e3⟩ := hi
    obtain ⟨u0, u, d1, d2, d3, d4, d5⟩ := C18_write env.cipher env.block hb.length hk.block none hb l
    rw [e1] at d1
    cases d1
    rw [e2] at d2
    cases d2
    rw [e3] at d4
    have ha := C19_aligned p2.rand env.block (t.pos % env.block) hk.block (by have := hk.s2; omega)
    have hsz : elPadSize p2.rand env.block (t.pos % env.block) ≤ 2 ^ 31 := by
      have hs2 := hk.s2
      unfold elPadSize
      simp only [if_pos hk.block]
      have hle : (p2.rand + 1) / env.block * env.block ≤ p2.rand + 1 := Nat.div_mul_le_self _ _
      have e1 : u32 (p2.rand + 1) = p2.rand + 1 := by unfold u32; omega
      rw [e1]
      have e2 : u32 ((p2.rand + 1) / env.block * env.block) = (p2.rand + 1) / env.block * env.block := by unfold u32; omega
      rw [e2]
      have e3 : u32 ((p2.rand + 1) / env.block * env.block + (env.block - t.pos % env.block % env.block)) ≤
          (p2.rand + 1) / env.block * env.block + (env.block - t.pos % env.block % env.block) := by unfold u32; exact Nat.mod_le _ _
      omega
    obtain ⟨pad, k1, k2, k3⟩ := pad_ok hk.r2 env.block (t.pos % env.block) (by omega) hsz
    obtain ⟨v0, v, f1, f2, f3, f4, f5⟩ := C18_write env.cipher env.block hb.length hk.block none hb (l ++ [pad])
    rw [e1] at f1
    cases f1
    have hw := troWrites_snoc l pad _ _ f2 _ e2
    have hfl : (l ++ [pad]).flatten = X ++ termDump start ++ pad := by simp [e3]
    rw [hfl] at f3
    refine ⟨hb ++ encBlocks env.cipher env.block 0 (X ++ termDump start ++ pad), pad, ?_, by simp [hbn], ?_, ?_⟩
    · unfold Bot.close
      simp only [d5, k1, hw, Except.map, f3]
    · unfold arcContent
      have hlen : (X ++ termDump start ++ pad).length % env.block = 0 := by
        rw [List.length_append, k2, ← d4]
        have := ha.1
        rwa [Nat.mod_add_mod] at this
      obtain ⟨t1, t2, t3, t4, a, g1, g2, g3, g4, g5⟩ := C18_whole env.cipher env.block hk.block hk.block' hk.law hb (X ++ termDump start ++ pad) hlen 0
      have hbl : hb.length ≠ 0 := by simpa using hbn
      simp only [if_neg h1, if_neg hk.scr, if_neg hbl, g1, g2, g4, g3, g5, Except.map]
    · intro hF
      have hle := encBlocks_le hk.block hk.law hk.grow (X ++ termDump start ++ pad) 0
      simp only [List.length_append] at hF hle
      rw [decide_eq_true h1]
      exact k3 start X (termDump_length_small _ (by omega))

private theorem create_spec {env : ArcEnv} {h : Hdr} {p1 p2 : Pad} (hk : ArcOk env h p1 p2) :
    ∃ hb P s, hb ≠ [] ∧ arcCreate env h p1 = .ok (s, hb.length) ∧ LowInv env h.base hb P s [] ∧ CompIdle (arcZ env h.base) s.comp := by
  obtain ⟨hb, e1, hbn, _⟩ := header_ok hk.hdr 0
  obtain ⟨b, P, e2, h2⟩ : ∃ b P, arcBot env h.base p1 ⟨hb, hb.length⟩ = .ok b ∧ BotInv env h.base hb b P := by
    unfold arcBot
    by_cases hs : h.base.sym = .none
    · rw [if_pos hs]
      exact ⟨_, hb, rfl, hs, rfl⟩
    · rw [if_neg hs, if_neg hk.scr]
      have hs1 := hk.s1
      have hsz : elPadSize p1.rand 0 0 = p1.rand + 1 := by unfold elPadSize u32; simp; omega
      obtain ⟨pad, k1, k2, _⟩ := pad_ok hk.r1 0 0 (by omega) (by omega)
      obtain ⟨u0, u, d1, d2, _⟩ := C18_write env.cipher env.block hb.length hk.block none hb [pad]
      have hw : u0.write pad = .ok u := troWrites_snoc [] pad u0 u d2 u0 rfl
      refine ⟨.crypt u, pad, ?_, hs, u0, [pad], d1, d2, by simp⟩
      simp only [d1, k1, hw, Except.map]
  have hfw : Flat.write ⟨[], 0⟩ hb = ⟨hb, hb.length⟩ := by simpa using flat_write_end [] hb
  have hlow : ∀ c, LowInv env h.base hb P ⟨b, if h.base.tapeMarks then some ⟨[], 0, b.pos⟩ else none, c⟩ [] := by
    intro c
    refine ⟨fun hh => ?_, fun e hh => ?_⟩
    · cases hm : h.base.tapeMarks with
      | true => simp [hm] at hh
      | false => exact ⟨rfl, (fun o ho => by cases ho), by simpa [untilMark] using h2⟩
    · cases hm : h.base.tapeMarks with
      | false => simp [hm] at hh
      | true =>
        simp only [hm, if_true, Option.some.injEq] at hh
        subst hh
        refine ⟨rfl, by simp, by simp, by simp, [], [], [], rfl, by simpa using h2, by simpa using h2.pos hk.block, ⟨rfl, Or.inl rfl, fun o ho => by cases ho⟩, ?_⟩
        simp [encOps, opsMeaning, encStream, encMarks, escData_nil, untilMark]
  obtain ⟨z1, z2, z3⟩ := arcCodec_eq hk 0
  refine ⟨hb, P, ?_⟩
  unfold arcCreate
  simp only [e1, hfw, e2, z2]
  cases hz : arcZ env h.base with
  | none => exact ⟨_, hbn, rfl, hlow none, trivial⟩
  | some cb =>
    obtain ⟨c, B⟩ := cb
    obtain ⟨hB, _⟩ := z3 c B hz
    simp only [bcompNew, if_neg (show ¬ B < 100 by omega), Except.map]
    exact ⟨_, hbn, rfl, hlow _, rfl, rfl, rfl, rfl, rfl, rfl⟩

/-- What a read of an item needs: without compression nothing tells where it ends (the size comes from the catalogue); with
compression it must not be empty (see C20_empty_counterexample: the program does not read empty files). -/
def ReadFits (z : Option (Codec × Nat)) (stored : Bool) (d : Bytes) (ns : List Nat) : Prop :=
  match z, stored with
  | some _, false => d ≠ []
  | _, _ => ns.sum ≤ d.length

/-- Reading at a recorded position. -/
private theorem readAt_spec {env : ArcEnv} {h : Hdr} {p1 p2 : Pad} (hk : ArcOk env h p1 p2) (off : Nat) (P : Bytes) (E0 : List EscOp) (c : Bytes)
    (b : UInt8) (tl : Bytes) (hb : NotPat b) (start term : Nat) (E : List EscOp)
    (hE : E = (if h.base.tapeMarks then E0 ++ [.mark .catalogue, .write c] else E0 ++ [.write c]))
    (hpl : h.base.tapeMarks = true → PlainOps E) (hc : h.base.tapeMarks = true → TailClean (b :: tl))
    (X A B : List EscOp) (hX : CutMark X A B) (hA : h.base.tapeMarks = false → A = []) (stored : Bool) (d : Bytes) (rest : List EscOp)
    (hsplit : E = X ++ .write (itemBytes (arcZ env h.base) stored d) :: rest)
    (hn : h.base.tapeMarks = true → NoPatternIn (untilMark B) (itemBytes (arcZ env h.base) stored d ++ untilMark (rest ++ [.write (b :: tl)])))
    (ns : List Nat) (hf : ReadFits (arcZ env h.base) stored d ns) :
    ArcRd.readAt env ⟨{ h with base := { h.base with initialOffset := off } }, P ++ lowEnc h.base.tapeMarks E ++ b :: tl, start, term⟩
      (P.length + (lowEnc h.base.tapeMarks A).length + (untilMark B).length) stored ns = .ok (plainReads d 0 ns) := by
  obtain ⟨z1, z2, z3⟩ := arcCodec_eq hk off
  unfold ArcRd.readAt
  simp only [z1]
  generalize hzb : itemBytes (arcZ env h.base) stored d = zb at *
  generalize hz : arcZ env h.base = z at *
  cases hm : h.base.tapeMarks with
  | false =>
    simp only [hm, Bool.false_eq_true, if_false, lowEnc] at *
    have hA' := hA trivial
    subst hA'
    have hX' : X = B := by simpa using hX.1
    subst hX'
    have hd := drop_plain P X zb rest (b :: tl) hX.2.2
    rw [← hsplit] at hd
    simp only [untilMark, List.length_nil] at hd ⊢
    rw [hd]
    cases z with
    | none =>
      have hzd : zb = d := by rw [← hzb]; cases stored <;> rfl
      subst hzd
      have hf : ns.sum ≤ zb.length := by cases stored <;> exact hf
      cases stored <;> exact congrArg Except.ok (plainReads_prefix _ _ ns hf)
    | some cb =>
      obtain ⟨c', B'⟩ := cb
      cases stored with
      | true =>
        have hzd : zb = d := by rw [← hzb]; rfl
        subst hzd
        exact congrArg Except.ok (plainReads_prefix _ _ ns hf)
      | false =>
        obtain ⟨hB, hL⟩ := z3 c' B' rfl
        have hzd : zb = zipItem c' B' d := by rw [← hzb]; rfl
        obtain ⟨r, r', q1, q2⟩ := bcReads_item hB hL [] d (untilMark rest ++ b :: tl) hf ns
        simp only [List.nil_append, List.length_nil] at q1
        rw [← hzd] at q1
        simp only [q1, q2, Except.map]
  | true =>
    simp only [hm, if_true, lowEnc] at *
    have hpl' := hpl trivial
    have hct := hc trivial
    have hcm := content_marks P E0 .catalogue c b tl hb hct
    rw [← hE, hsplit] at hcm
    rw [hsplit] at hpl' ⊢
    have hd := drop_marks P X A B zb (rest ++ [.write (b :: tl)]) hX (hn trivial)
    rw [hcm, show X ++ .write zb :: rest ++ [.write (b :: tl)] = X ++ .write zb :: (rest ++ [.write (b :: tl)]) by simp, hd]
    have hpr : PlainOps (rest ++ [.write (b :: tl)]) := by
      obtain ⟨g1, g2⟩ := hpl'
      simp only [List.mem_append, List.mem_cons, not_or] at g1 g2
      refine ⟨?_, ?_⟩
      · simp [g1.2.2]
      · simp [g2.2.2]
    have hreal := opsMeaning_real _ hpr
    have htail : TailOk (zb ++ untilMark (rest ++ [.write (b :: tl)])) (opsMeaning (rest ++ [.write (b :: tl)])).2 := by
      rw [← untilMark_eq]
      exact tailOk_write (b :: tl) (fun x => notPat_partial x tl b hb hct.2) rest zb
    have hrep := rep_open (zb ++ untilMark (rest ++ [.write (b :: tl)])) _ hreal
    have hplain : zb = d → ns.sum ≤ d.length → escReads (escOpen (encStream (zb ++ untilMark (rest ++ [.write (b :: tl)])) (opsMeaning (rest ++ [.write (b :: tl)])).2)) ns = .ok (plainReads d 0 ns) := by
      intro hzd hfit
      rw [escReads_spec ns _ _ _ hrep htail, hzd, plainReads_prefix _ _ ns hfit]
    cases z with
    | none =>
      have hzd : zb = d := by rw [← hzb]; cases stored <;> rfl
      cases stored <;> exact hplain hzd hf
    | some cb =>
      obtain ⟨c', B'⟩ := cb
      cases stored with
      | true =>
        have hzd : zb = d := by rw [← hzb]; rfl
        exact hplain hzd hf
      | false =>
        obtain ⟨hB, hL⟩ := z3 c' B' rfl
        have hzd : zb = zipItem c' B' d := by rw [← hzb]; rfl
        obtain ⟨st', e1, _⟩ := escRead_exact _ (P ++ encOps (X ++ .write zb :: (rest ++ [.write (b :: tl)]))).length _ _ hrep htail
        have hlen : (zb ++ untilMark (rest ++ [.write (b :: tl)])).length ≤ (P ++ encOps (X ++ .write zb :: (rest ++ [.write (b :: tl)]))).length := by
          have h1 : (encStream (zb ++ untilMark (rest ++ [.write (b :: tl)])) (opsMeaning (rest ++ [.write (b :: tl)])).2).length ≤ (P ++ encOps (X ++ .write zb :: (rest ++ [.write (b :: tl)]))).length := by
            rw [← hd, List.length_drop]; omega
          have h2 := escData_le (zb ++ untilMark (rest ++ [.write (b :: tl)]))
          unfold encStream at h1
          rw [List.length_append] at h1
          omega
        rw [List.take_of_length_le hlen] at e1
        obtain ⟨r, r', q1, q2⟩ := bcReads_item hB hL [] d (untilMark (rest ++ [.write (b :: tl)])) hf ns
        simp only [List.nil_append, List.length_nil] at q1
        rw [← hzd] at q1
        simp only [e1, q1, q2, Except.map]

/-- The archive written, and what is found when it is opened. -/
private theorem archive_core (env : ArcEnv) (h : Hdr) (p1 p2 : Pad) (hk : ArcOk env h p1 p2) (ops : List ArcOp) (hm : ArcOp.mark .notASequence ∉ ops)
    (cat : List Bytes) (goOn : Nat → Bool) (z : Option (Codec × Nat)) (hzz : arcZ env h.base = z) (X E : List EscOp)
    (hX : lowOps z h.base.tapeMarks ops ++ (if h.base.tapeMarks then [.mark .catalogue] else []) = X)
    (hE : X ++ [.write (itemBytes z false cat.flatten)] = E) :
    ∃ file ps off P A B b tl, arcWrite env h p1 p2 ops cat = .ok (file, ps) ∧ NotPat b ∧ CutMark X A B ∧ (h.base.tapeMarks = false → A = []) ∧
      (h.base.tapeMarks = true → PlainOps E) ∧
      (∀ pre stored l post, ops = pre ++ .item stored l :: post → ∃ A B, CutMark (lowOps z h.base.tapeMarks pre) A B ∧ (h.base.tapeMarks = false → A = []) ∧
        ps[pre.length]? = some (some (P.length + (lowEnc h.base.tapeMarks A).length + (untilMark B).length))) ∧
      (file.length < 2 ^ 64 → arcOpen env goOn file = .ok ⟨{ h with base := { h.base with initialOffset := off } }, P ++ lowEnc h.base.tapeMarks E ++ b :: tl,
        P.length + (lowEnc h.base.tapeMarks A).length + (untilMark B).length, (P ++ lowEnc h.base.tapeMarks E).length⟩) := by
  obtain ⟨hb, P, s0, hbn, c1, c2, c3⟩ := create_spec hk
  obtain ⟨_, _, hz⟩ := arcCodec_eq hk 0
  rw [hzz] at c3 hz
  obtain ⟨s1, ps, o1, o2, o3, o4⟩ := ops_spec hk.block hz ops s0 [] c2 c3 hm
  rw [List.nil_append] at o2
  -- the mark of the catalogue
  obtain ⟨s2, m1, m2, m3⟩ : ∃ s2, (if s1.esc.isSome then s1.mark .catalogue else s1.sync) = .ok s2 ∧
      LowInv env h.base hb P s2 (lowOps z h.base.tapeMarks ops ++ (if h.base.tapeMarks then [.mark .catalogue] else [])) ∧ CompIdle z s2.comp := by
    rw [o2.isSome]
    cases ht : h.base.tapeMarks with
    | true =>
      rw [ht] at o2
      simpa using mark_spec hk.block o2 o3 ht .catalogue (by decide)
    | false =>
      rw [ht] at o2
      exact ⟨s1, by simpa using sync_idle hk.block o2 o3, by simpa using o2, o3⟩
  obtain ⟨s3, i1, i2, i3⟩ := item_idle hk.block hz m2 m3 false cat
  obtain ⟨A, B, a1, a2, a3⟩ := m2.pos hk.block
  rw [a3] at i1
  generalize hst : P.length + (lowEnc h.base.tapeMarks A).length + (untilMark B).length = start at *
  rw [hX] at a1 i2
  rw [hE] at i2
  obtain ⟨b', f1, f2⟩ := i2.flush hk.block (termDump start)
  have hle : start ≤ (P ++ lowEnc h.base.tapeMarks E).length := by
    rw [List.length_append]
    have : (lowEnc h.base.tapeMarks A).length + (untilMark B).length ≤ (lowEnc h.base.tapeMarks E).length := by
      cases ht : h.base.tapeMarks with
      | true =>
        simp only [lowEnc, if_true]
        rw [← hE, a1.enc, List.length_append]
        unfold encOps encStream
        rw [opsMeaning_append _ _ a1.2.2]
        have := escData_le (untilMark B ++ (opsMeaning [.write (itemBytes z false cat.flatten)]).1)
        simp only [List.length_append] at this ⊢
        omega
      | false =>
        simp only [lowEnc, Bool.false_eq_true, if_false]
        have hA := a2 ht
        subst hA
        have hXB : X = B := by simpa using a1.1
        rw [← hE, hXB, untilMark_append _ _ a1.2.2]
        simp [untilMark]
    omega
  obtain ⟨F, pad, g1, g2, g3, g4⟩ := close_spec hk hbn f2 hle
  obtain ⟨hb', e1, _, e2⟩ := header_ok hk.hdr hb.length
  have e3 := e2 (by simpa using hbn)
  obtain ⟨tb, tl0, ht1, ht2⟩ := termDump_head start
  have htl : ∀ Y : Bytes, Y ++ termDump start ++ pad = Y ++ tb :: (tl0 ++ pad) := by intro Y; rw [ht1]; simp
  refine ⟨F ++ hb' ++ termDump F.length, ps, hb.length, P, A, B, tb, tl0 ++ pad, ?_, ht2, a1, a2, ?_, ?_, ?_⟩
  · unfold arcWrite
    simp only [c1, o1]
    unfold Stk.close
    simp only [m1, i1, f1, g1, e1, flat_write_end, Flat.skipEof, Except.map]
  · intro ht
    have hs := i2.isSome
    rw [ht] at hs
    obtain ⟨e, he⟩ := Option.isSome_iff_exists.mp hs
    obtain ⟨_, _, q1, q2, _⟩ := i2.marked e he
    exact ⟨q1, q2⟩
  · intro pre stored l post hops
    obtain ⟨A', B', q1, q2, q3⟩ := o4 pre stored l post hops
    rw [List.nil_append] at q1
    exact ⟨A', B', q1, q2, q3⟩
  · intro hsz
    have hFl : F.length < 2 ^ 64 := by simp only [List.length_append] at hsz; omega
    have g4' := g4 hFl
    unfold arcOpen
    have ht := C41_locate F.length (F ++ hb') (termDump_length_small _ hFl) 0 false
    have hF0 : F.length ≠ 0 := by simpa using g2
    have hdr : (F ++ hb' ++ termDump F.length).drop F.length = hb' ++ termDump F.length := by rw [List.append_assoc, List.drop_left]
    have htk : (F ++ hb' ++ termDump F.length).take F.length = F := by rw [List.append_assoc, List.take_left]
    simp only [ht, if_neg hF0, hdr, htk, e3, g3, g4']
    rw [htl, hst]

/-- The layers put together.  Whatever is saved with whatever settings, the archive can be written, then opened knowing only the
file and the password: the header found is the one written (with its offset), the catalogue is found where it is and reads as it
was written; every item reads, at the position that was recorded for it, as it was saved, in any sequence of reads.

With marks, two provisos.  What follows the catalogue (a terminator and a random padding) must not contain the start of a mark;
and between the last mark and the item nothing must look like a mark: otherwise the recorded position is wrong, see
C48_position_counterexample.

Missing: streamed compression, scrambling, GnuPG. -/
theorem C48_archive_partial (env : ArcEnv) (h : Hdr) (p1 p2 : Pad) (hk : ArcOk env h p1 p2) (ops : List ArcOp) (hm : ArcOp.mark .notASequence ∉ ops)
    (cat : List Bytes) (goOn : Nat → Bool) :
    ∃ file ps, arcWrite env h p1 p2 ops cat = .ok (file, ps) ∧ (file.length < 2 ^ 64 → ∃ rd off, arcOpen env goOn file = .ok rd ∧
      rd.hdr = { h with base := { h.base with initialOffset := off } } ∧
      ((h.base.tapeMarks = true → TailClean (rd.content.drop rd.termStart)) →
        (∀ ns, ReadFits (arcZ env h.base) false cat.flatten ns → rd.readAt env rd.catStart false ns = .ok (plainReads cat.flatten 0 ns)) ∧
        ∀ pre stored l post, ops = pre ++ .item stored l :: post →
          (h.base.tapeMarks = true → NoPatternIn (sinceMark [] (lowOps (arcZ env h.base) true pre))
            (itemBytes (arcZ env h.base) stored l.flatten ++ untilMark (lowOps (arcZ env h.base) true post))) →
          ∃ p, ps[pre.length]? = some (some p) ∧
            ∀ ns, ReadFits (arcZ env h.base) stored l.flatten ns → rd.readAt env p stored ns = .ok (plainReads l.flatten 0 ns))) := by
  obtain ⟨file, ps, off, P, A, B, tb, tl, w1, w2, a1, a2, hpl, o4, w3⟩ := archive_core env h p1 p2 hk ops hm cat goOn _ rfl _ _ rfl rfl
  refine ⟨file, ps, w1, fun hsz => ⟨_, off, w3 hsz, rfl, ?_⟩⟩
  intro hclean
  simp only at hclean ⊢
  rw [List.drop_left] at hclean
  generalize hzz : arcZ env h.base = z at *
  generalize hX : lowOps z h.base.tapeMarks ops ++ (if h.base.tapeMarks then [.mark .catalogue] else []) = X at *
  generalize hE : X ++ [.write (itemBytes z false cat.flatten)] = E at *
  have hEE : E = (if h.base.tapeMarks then lowOps z h.base.tapeMarks ops ++ [.mark .catalogue, .write (itemBytes z false cat.flatten)]
      else lowOps z h.base.tapeMarks ops ++ [.write (itemBytes z false cat.flatten)]) := by
    rw [← hE, ← hX]
    cases h.base.tapeMarks <;> simp
  constructor
  · intro ns hf
    have := readAt_spec hk off P _ _ tb tl w2 (P.length + (lowEnc h.base.tapeMarks A).length + (untilMark B).length) (P ++ lowEnc h.base.tapeMarks E).length E (by rw [hEE]) hpl hclean X A B a1 a2 false cat.flatten []
      (by rw [hzz, hE]) (by
        intro ht
        have : untilMark B = [] := by
          rw [← a1.since, ← hX, ht]
          simp only [if_true]
          rw [sinceMark_mark]; rfl
        rw [this]
        intro k hk'
        simp at hk') ns (by rw [hzz]; exact hf)
    exact this
  · intro pre stored l post hops hnp
    obtain ⟨A', B', q1, q2, q3⟩ := o4 pre stored l post hops
    refine ⟨_, q3, ?_⟩
    intro ns hf
    refine readAt_spec hk off P _ _ tb tl w2 (P.length + (lowEnc h.base.tapeMarks A).length + (untilMark B).length) (P ++ lowEnc h.base.tapeMarks E).length E (by rw [hEE]) hpl hclean _ A' B' q1 q2 stored l.flatten
      (lowOps z h.base.tapeMarks post ++ (if h.base.tapeMarks then [.mark .catalogue] else []) ++ [.write (itemBytes z false cat.flatten)]) ?_ ?_ ns (by rw [hzz]; exact hf)
    · rw [hzz, ← hE, ← hX, hops]
      simp [lowOps, lowOp]
    · intro ht
      rw [hzz]
      have h1 := hnp ht
      rw [← q1.since, ht]
      have h2 : untilMark (lowOps z true post ++ [.mark .catalogue] ++ [.write (itemBytes z false cat.flatten)] ++ [.write (tb :: tl)]) =
          untilMark (lowOps z true post) := by
        generalize lowOps z true post = L
        induction L with
        | nil => rfl
        | cons o L ih => cases o <;> simp only [List.cons_append, untilMark, ih]
      simp only [if_true]
      rw [h2]
      exact h1

/-- With marks, the position recorded for data counts the bytes given since the last mark, not those written: when the
properties of the inode, written between the mark and the data, contain the five bytes of the escape pattern (a file name may),
reading at the recorded position gives the data shifted. -/
theorem C48_position_counterexample (env : ArcEnv) (h : Hdr) (p1 p2 : Pad) (hk : ArcOk env h p1 p2) (hm : h.base.tapeMarks = true)
    (ha : h.base.algo = .none) (d : Bytes) (cat : List Bytes) (goOn : Nat → Bool) :
    ∃ file ps, arcWrite env h p1 p2 [.mark .file, .direct escPattern, .item true [d]] cat = .ok (file, ps) ∧
      (file.length < 2 ^ 64 → ∃ rd p, arcOpen env goOn file = .ok rd ∧ ps[2]? = some (some p) ∧
        (TailClean (rd.content.drop rd.termStart) → ∀ ns, rd.readAt env p true ns = .ok (plainReads (0x58 :: d) 0 ns))) := by
  have hz : arcZ env h.base = none := by unfold arcZ; rw [if_pos ha]
  obtain ⟨file, ps, off, P, A, B, tb, tl, w1, w2, _, _, hpl, o4, w3⟩ := archive_core env h p1 p2 hk [.mark .file, .direct escPattern, .item true [d]]
    (by simp) cat goOn none hz _ _ rfl rfl
  obtain ⟨A', B', q1, q2, q3⟩ := o4 [.mark .file, .direct escPattern] true [d] [] rfl
  refine ⟨file, ps, w1, fun hsz => ⟨_, _, w3 hsz, q3, ?_⟩⟩
  have hpl' := hpl hm
  rw [hm] at q1 hpl' ⊢
  have hcut : A' = [.mark .file] ∧ B' = [.write escPattern] := by
    obtain ⟨g1, g2, g3⟩ := q1
    simp only [lowOps, lowOp, List.map_cons, List.map_nil, if_true, List.flatten_cons, List.flatten_nil, List.append_nil, List.singleton_append] at g1
    rcases g2 with g2 | ⟨A'', t, g2⟩
    · subst g2
      obtain ⟨a, ha⟩ := g3 (.mark .file) (by rw [List.nil_append] at g1; rw [← g1]; simp)
      cases ha
    · subst g2
      cases A'' with
      | nil =>
        simp only [List.nil_append, List.singleton_append, List.cons.injEq] at g1
        exact ⟨by rw [List.nil_append, ← g1.1], g1.2.symm⟩
      | cons x A'' =>
        cases A'' with
        | nil =>
          simp only [List.cons_append, List.nil_append, List.cons.injEq] at g1
          cases g1.2.1
        | cons y A'' => simp at g1
  obtain ⟨rfl, rfl⟩ := hcut
  intro hclean ns
  simp only [lowEnc, if_true] at hclean ⊢
  rw [List.drop_left] at hclean
  unfold ArcRd.readAt
  simp only [arcCodec, ha, hm, if_true]
  have hE : lowOps none true [.mark .file, .direct escPattern, .item true [d]] ++ [EscOp.mark .catalogue] ++ [.write (itemBytes none false cat.flatten)] =
      [.mark .file, .write escPattern, .write d] ++ [.mark .catalogue, .write (itemBytes none false cat.flatten)] := by
    simp [lowOps, lowOp, itemBytes]
  rw [hE]
  rw [content_marks P _ _ _ tb tl w2 hclean]
  generalize itemBytes none false cat.flatten = c
  have henc : encOps ([.mark .file, .write escPattern, .write d] ++ [.mark .catalogue, .write c] ++ [.write (tb :: tl)]) =
      encOps [.mark .file] ++ escPattern ++ encStream (0x58 :: d) [(.catalogue, c ++ tb :: tl)] := by
    rw [encStream_cons _ _ _ (by rintro ⟨u, hu⟩; simp [escPattern_normal] at hu)]
    simp only [encOps, opsMeaning, List.cons_append, List.nil_append, List.append_nil, encStream, encMarks, escData_nil, List.append_assoc]
    rw [escData_pattern]
    simp [escSeq, type2char]
  rw [henc]
  have hdrop : (P ++ (encOps [.mark .file] ++ escPattern ++ encStream (0x58 :: d) [(.catalogue, c ++ tb :: tl)])).drop
      (P.length + (encOps [.mark .file]).length + (untilMark [.write escPattern]).length) = encStream (0x58 :: d) [(.catalogue, c ++ tb :: tl)] := by
    rw [Nat.add_assoc, ← List.drop_drop, List.drop_left, ← List.drop_drop, List.append_assoc, List.drop_left]
    simp only [untilMark, List.append_nil]
    rw [List.drop_left]
  rw [hdrop]
  have hrep := rep_open (0x58 :: d) [(.catalogue, c ++ tb :: tl)] (by intro m hm; simp at hm; subst hm; simp)
  rw [escReads_spec ns _ _ _ hrep (by
    show ¬ endsPartial (c ++ tb :: tl)
    exact notPat_partial c tl tb w2 hclean.2)]

/-! Settings meeting the hypotheses: marks, compression and encryption. -/

private def exCodec : Codec where
  zip x := 7 :: x
  unzip z := match z with
    | 7 :: x => .ok x
    | _ => .error .data
  room n := n + 1

private def exCipher : Cipher where
  enc n x := UInt8.ofNat n :: x
  dec n b := match b with
    | [] => .ok []
    | k :: x => if k = UInt8.ofNat n then .ok x else .error .range
  encSize k := k + 1

private def exRnd : Pad := ⟨1000, 7, fun _ => 0⟩
private def exEnv : ArcEnv := ⟨fun _ => exCodec, exCipher, 64⟩

private theorem exOk : ArcOk exEnv exHdr exRnd exRnd where
  hdr := ⟨exBase_writable, (by intro r hr; cases hr; exact ⟨exBase_writable, by decide⟩), by intro h; cases h⟩
  compr := Or.inr ⟨by decide, fun _ _ _ => rfl, (fun _ _ _ => by simp [exEnv, exCodec]), (fun x _ h => by simp only [exEnv, exCodec, List.length_cons]; omega), by simp [exEnv, exCodec, exHdr, exBase]⟩
  scr := by decide
  block := by decide
  block' := by decide
  law := ⟨(fun n x _ _ => by simp [exEnv, exCipher]), (fun n x _ _ => by simp [exEnv, exCipher]), (fun k hk => by simp only [exEnv, exCipher] at *; omega), by decide, fun _ => rfl⟩
  grow := fun k _ => by simp only [exEnv, exCipher]; omega
  r1 := fun _ => (by decide : (0 : UInt8) ≠ elSingle ∧ (0 : UInt8) ≠ elLow false ∧ (0 : UInt8) ≠ elHigh false)
  r2 := fun _ => (by decide : (0 : UInt8) ≠ elSingle ∧ (0 : UInt8) ≠ elLow false ∧ (0 : UInt8) ≠ elHigh false)
  s1 := by decide
  s2 := by decide

example : ∃ file ps, arcWrite exEnv exHdr exRnd exRnd [.mark .file, .direct [1, 2], .item false [[5, 6], [7]], .mark .fileCrc, .direct [9], .mark .ea, .item true [[8]]] [[3, 3]] = .ok (file, ps) :=
  let ⟨file, ps, h, _⟩ := C48_archive_partial exEnv exHdr exRnd exRnd exOk _ (by simp) [[3, 3]] (fun _ => true)
  ⟨file, ps, h⟩

/-- and the data just after the properties of its inode meets the proviso on the pattern -/
example : NoPatternIn (sinceMark [] (lowOps (arcZ exEnv exHdr.base) true [.mark .file, .direct [1, 2]]))
    (itemBytes (arcZ exEnv exHdr.base) true [0xAD, 0xFD, 0xEA, 0x77, 0x21] ++ untilMark (lowOps (arcZ exEnv exHdr.base) true [.mark .fileCrc])) := by
  have h1 : sinceMark [] (lowOps (arcZ exEnv exHdr.base) true [.mark .file, .direct [1, 2]]) = [1, 2] := rfl
  rw [h1]
  intro k hk
  have h2 : (itemBytes (arcZ exEnv exHdr.base) true [0xAD, 0xFD, 0xEA, 0x77, 0x21] ++ untilMark (lowOps (arcZ exEnv exHdr.base) true [.mark .fileCrc])) = [0xAD, 0xFD, 0xEA, 0x77, 0x21] := rfl
  rw [h2]
  simp only [List.length_cons, List.length_nil] at hk
  rcases (show k = 0 ∨ k = 1 by omega) with rfl | rfl <;> decide

end
end Dar
