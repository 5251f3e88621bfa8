import Verif.Lemmas.XformWrite
namespace Dar

theorem newSlices_old (iname dname : Bytes) (first other : Nat) (c : SarCfg) (hi : LabelOk iname)
    (h : newSlices (newHdr iname dname true (.slices first other)) = .ok c) :
    16 < other ∧ 16 ≤ c.lay.firstHdr ∧ c.lay.firstHdr < first ∧ c.lay = ⟨first, other, c.lay.firstHdr, 16, true⟩ ∧
    (∀ f, c.hdr1 f = be32 SAUV_MAGIC ++ iname ++ [f] ++ (if first ≠ other then [83] ++ putInt other else [78])) ∧ (∀ f, c.hdrN f = be32 SAUV_MAGIC ++ iname ++ [f] ++ [78]) ∧
    c.lay.firstHdr = 15 + (if first ≠ other then [83] ++ putInt other else [78]).length := by
  unfold newSlices at h
  split_ifs at h with h1 h2
  have hsz : 17 ≤ other ∧ 17 ≤ first := by
    simp only [newHdr, sliceMin, LABEL_SIZE] at h1 h2; omega
  generalize hh : newHdr iname dname true (.slices first other) = g at h
  have hg : g = ⟨SAUV_MAGIC, iname, dname, flagAtEnd, first, other, 0, 0, true⟩ := by rw [← hh]; rfl
  have hb := bytes_old g (by rw [hg]) (by rw [hg]) true
  generalize hx : be32 SAUV_MAGIC ++ g.iname ++ [g.flag] ++ (if g.firstSize ≠ g.otherSize ∧ true = true then [83] ++ putInt g.otherSize else [78]) = b at hb
  have hbl : b.length = 15 + (if first ≠ other then [83] ++ putInt other else [78]).length := by
    rw [← hx, hg]; simp [be32_len, hi.1, LABEL_SIZE]; omega
  cases hw : g.write 0 true false with
  | error e => rw [hw] at h; cases h
  | ok bh =>
    obtain ⟨b', g1⟩ := bh
    rw [hw] at h
    simp only [Except.ok.injEq] at h
    have hwi : b.length < first ∧ g1 = ⟨SAUV_MAGIC, iname, dname, flagAtEnd, first, other, b.length, 16, true⟩ := by
      unfold SliceHdr.write at hw
      rw [hb] at hw
      simp only [Bool.false_eq_true, not_false_eq_true, true_and, hg, and_self, if_true, Nat.zero_add] at hw
      split_ifs at hw with c1 c2 c3
      injection hw with hw
      injection hw with hw1 hw2
      refine ⟨by omega, ?_⟩
      rw [← hw2]; rfl
    have ho : ∀ a f, g1.out a f = be32 SAUV_MAGIC ++ iname ++ [f] ++ (if first ≠ other ∧ a = true then [83] ++ putInt other else [78]) := by
      intro a f
      have := out_old g1 (by rw [hwi.2]) (by rw [hwi.2]) a f
      rw [this, hwi.2]
    have hc : c = ⟨⟨first, other, b.length, 16, true⟩, g1.out true, g1.out false⟩ := by
      rw [← h]
      congr 1
      rw [hwi.2]; rfl
    have hfh : c.lay.firstHdr = b.length := by rw [hc]
    rw [hfh]
    refine ⟨by omega, ?_, hwi.1, by rw [hc], ?_, ?_, hbl⟩
    · rw [hbl]; split_ifs
      · simp; omega
      · simp
    · intro f; rw [hc]; simp only; rw [ho]; simp
    · intro f; rw [hc]; simp only; rw [ho]; simp

theorem flag14 (iname : Bytes) (hi : iname.length = LABEL_SIZE) (f : UInt8) (t : Bytes) : (be32 SAUV_MAGIC ++ iname ++ [f] ++ t)[14]? = some f := by
  have e14 : 14 = (be32 SAUV_MAGIC ++ iname).length := by rw [List.length_append, be32_len, hi]; rfl
  rw [List.append_assoc, e14, List.getElem?_append_right (Nat.le_refl _), Nat.sub_self]; rfl

theorem openFlag_old {h : SliceHdr} {f : Bytes} {fl : UInt8} (hh : h.flag = fl) (hv : fl = flagTerminal ∨ fl = flagNonTerminal) : openFlag h f = .ok fl := by
  unfold openFlag
  rw [hh, if_neg (by rcases hv with h | h <;> subst h <;> decide), if_pos hv]

theorem created_old (goOn : Nat → Bool) (iname dname : Bytes) (first other : Nat) (hi : LabelOk iname) (c : SarCfg)
    (h : newSlices (newHdr iname dname true (.slices first other)) = .ok c) (l : List Bytes) (hne : l.flatten ≠ []) :
    ∃ o files c' s chunks, (XOut.slices c (sarOpenW c [])).writes l = (o, none) ∧ o.close false = files ∧ Created goOn iname dname true l.flatten files c' s chunks ∧
      (∀ k, c'.hlen k = c.hlen k) ∧ (∀ k, c'.hdr k = c.hdr k) ∧ c.lay.old = true ∧ c'.lay.old = true ∧ sarProduce c [l.flatten] = .ok files ∧ c.Ok := by
  obtain ⟨hother, hfh16, hfh, hlay, hh1, hhN, hfl⟩ := newSlices_old iname dname first other c hi h
  have hold : c.lay.old = true := by rw [hlay]
  have hoh : c.lay.otherHdr = 16 := by rw [hlay]
  have hos : c.lay.otherSize = other := by rw [hlay]
  have hfs : c.lay.firstSize = first := by rw [hlay]
  have hl1 : ∀ f, (c.hdr1 f).length = c.lay.firstHdr := by
    intro f; rw [hh1, hfl]; simp [be32_len, hi.1, LABEL_SIZE]; omega
  have hlN : ∀ f, (c.hdrN f).length = 16 := by
    intro f; rw [hhN]; simp [be32_len, hi.1, LABEL_SIZE]
  have hdelta : c.delta = 0 := by unfold SarCfg.delta; rw [hold]; rfl
  have hok : c.Ok := by
    refine ⟨hl1, by rw [hoh]; exact hlN, by omega, by omega, by rw [hdelta, hfs]; omega, by rw [hdelta, hoh, hos]; omega, ?_, ?_⟩
    · intro _ f; rw [hh1]; exact flag14 iname hi.1 f _
    · intro _ f; rw [hhN]; exact flag14 iname hi.1 f _
  obtain ⟨o, ps, q, e1, e2, e3, hf, hq, hqne, hflat⟩ := writes_produce hok l
  have e3' : sarProduce c [l.flatten] = .ok (sarFilesFrom c 1 (ps ++ [q])) := by rw [C13_chunking hok [l.flatten] l (by simp), e3]
  -- opening the first slice
  have hopen1 : ∀ (p : Bytes) (t : Bool), p ≠ [] → openHdr goOn (sarFile c 1 p t) =
      .ok (⟨SAUV_MAGIC, iname, iname, if t then flagTerminal else flagNonTerminal, c.lay.firstHdr + p.length, if first ≠ other then other else c.lay.firstHdr + p.length, c.lay.firstHdr, 16, true⟩, c.lay.firstHdr) := by
    intro p t hp
    unfold sarFile
    rw [if_pos hold, show c.hdr 1 = c.hdr1 from rfl, hh1]
    by_cases hfo : first ≠ other
    · simp only [if_pos hfo] at hfl ⊢
      rw [openHdr_size goOn iname p _ other hi.1 hother]
      have : c.lay.firstHdr = 16 + (putInt other).length := by rw [hfl]; simp; omega
      rw [this]
    · simp only [if_neg hfo] at hfl ⊢
      rw [openHdr_none goOn iname p _ hi.1 hp]
      have : c.lay.firstHdr = 16 := by rw [hfl]; rfl
      rw [this]
  have hopenN : ∀ (num : Nat) (p : Bytes) (t : Bool), num ≠ 1 → p ≠ [] → openHdr goOn (sarFile c num p t) =
      .ok (⟨SAUV_MAGIC, iname, iname, if t then flagTerminal else flagNonTerminal, 16 + p.length, 16 + p.length, 16, 16, true⟩, 16) := by
    intro num p t hnum hp
    unfold sarFile
    rw [if_pos hold, show c.hdr num = c.hdrN by unfold SarCfg.hdr; rw [if_neg hnum], hhN]
    exact openHdr_none goOn iname p _ hi.1 hp
  cases hps : ps with
  | nil =>
    subst hps
    have hqd : q = l.flatten := by simpa using hflat
    have hqne' : q ≠ [] := by rw [hqd]; exact hne
    have hqpos := List.length_pos_iff.mpr hqne'
    let c' : SarCfg := { c with lay := ⟨c.lay.firstHdr + q.length, if first ≠ other then other else c.lay.firstHdr + q.length, c.lay.firstHdr, 16, true⟩ }
    have hok' : c'.Ok := by
      refine ⟨hl1, hlN, ?_, ?_, ?_, ?_, ?_, ?_⟩
      · show 0 < c.lay.firstHdr; omega
      · show 0 < 16; omega
      · show c.lay.firstHdr + 0 ≤ c.lay.firstHdr + q.length; omega
      · show 16 + 0 < (if first ≠ other then other else c.lay.firstHdr + q.length)
        split_ifs <;> omega
      · intro _ f; exact hok.flag1 hold f
      · intro _ f; exact hok.flagN hold f
    have hsame : sarFile c' 1 q true = sarFile c 1 q true := by
      unfold sarFile; rw [if_pos hold, if_pos (show c'.lay.old = true from rfl)]; rfl
    refine ⟨o, _, c', ⟨SAUV_MAGIC, iname, iname, flagTerminal, c.lay.firstHdr + q.length, if first ≠ other then other else c.lay.firstHdr + q.length, c.lay.firstHdr, 16, true⟩, [q], e1, e2, ?_, ?_, ?_, hold, rfl, e3', hok⟩
    · have := created_one goOn iname dname true c'
        ⟨SAUV_MAGIC, iname, iname, flagTerminal, c.lay.firstHdr + q.length, if first ≠ other then other else c.lay.firstHdr + q.length, c.lay.firstHdr, 16, true⟩ q hok' rfl
        (by show q.length ≤ c.lay.firstHdr + q.length - c.lay.firstHdr - 0; omega)
        (by rw [hsame]; exact hopen1 q true hqne') (openFlag_old rfl (Or.inl rfl)) rfl rfl rfl
      rw [hsame] at this
      rw [← hqd]
      exact this
    · intro k; unfold SarCfg.hlen; simp only [c', hoh]
    · intro k; rfl
  | cons p1 ps' =>
    subst hps
    have hps0 : p1 :: ps' ≠ [] := by simp
    have hp : Pieces c (p1 :: ps' ++ [q]) := ⟨p1 :: ps', q, rfl, hf, hq, hqne⟩
    have hlen : ∀ pre ck post, p1 :: ps' ++ [q] = pre ++ ck :: post → ck ≠ [] := by
      intro pre ck post hsp
      by_cases hpost : post = []
      · subst hpost
        have hsp' : (p1 :: ps') ++ [q] = pre ++ [ck] := hsp
        have := (List.append_inj' hsp' rfl).2
        injection this with this
        rw [← this]; exact hqne hps0
      · have h2 := (hp.at hsp).2.2.1 hpost
        intro hc
        rw [hc] at h2
        have : 0 < c.cap (pre.length + 1) := by
          by_cases hz : pre.length + 1 = 1
          · rw [hz]; unfold SarCfg.cap SarCfg.size SarCfg.hlen; simp only [if_true, hdelta, hfs]; omega
          · exact hok.capN _ hz
        simp at h2; omega
    have hsp1 : p1 :: ps' ++ [q] = [] ++ p1 :: (ps' ++ [q]) := rfl
    have hp1 : p1.length = first - c.lay.firstHdr := by
      have := (hp.at hsp1).2.2.1 (by simp)
      rw [this]; show c.lay.firstSize - c.lay.firstHdr - c.delta = _
      rw [hfs, hdelta]; omega
    let s : SliceHdr := ⟨SAUV_MAGIC, iname, iname, flagNonTerminal, first, other, c.lay.firstHdr, 16, true⟩
    have hs1 : openHdr goOn (sarFile c 1 p1 false) = .ok (s, c.lay.firstHdr) := by
      rw [hopen1 p1 false (hlen _ _ _ hsp1), hp1]
      have e : c.lay.firstHdr + (first - c.lay.firstHdr) = first := by omega
      rw [e]
      have e2 : (if first ≠ other then other else first) = other := by
        by_cases hz : first = other
        · rw [if_neg (by simp [hz]), hz]
        · rw [if_pos hz]
      rw [e2]
      rfl
    refine ⟨o, _, c, s, p1 :: ps' ++ [q], e1, e2, ⟨rfl, hp, hflat, ⟨hlay.symm, hok, ?_⟩, rfl, rfl, rfl, e3'⟩, fun _ => rfl, fun _ => rfl, hold, hold, e3', hok⟩
    intro i f hif
    have hlt : i < (p1 :: ps' ++ [q]).length := by
      by_contra hc
      rw [List.getElem?_eq_none (by rw [sarFilesFrom_length]; omega)] at hif; cases hif
    obtain ⟨pre, ck, post, hsp, hlen2⟩ : ∃ pre ck post, p1 :: ps' ++ [q] = pre ++ ck :: post ∧ pre.length = i :=
      ⟨(p1 :: ps' ++ [q]).take i, (p1 :: ps' ++ [q])[i], (p1 :: ps' ++ [q]).drop (i + 1), by rw [← List.drop_eq_getElem_cons hlt, List.take_append_drop], by rw [List.length_take]; omega⟩
    have hg := sarFilesFrom_get c 1 pre ck post
    rw [← hsp, hlen2, hif] at hg
    injection hg with hg
    have hflag := sarFlagOf_file hok (1 + i) ck post.isEmpty
    rw [← hg] at hflag
    cases i with
    | zero =>
      have : pre = [] := List.length_eq_zero_iff.mp hlen2
      subst this
      rw [hsp1] at hsp
      simp only [List.nil_append] at hsp
      injection hsp with hs2 hs3
      subst hs2
      have hpe : post.isEmpty = false := by rw [← hs3]; simp
      rw [hpe] at hg hflag
      refine ⟨s, by rw [hg]; exact hs1, rfl, fun _ => rfl, ?_⟩
      intro fl hfl' hv
      rw [hflag] at hfl'
      injection hfl' with hfl'
      exact openFlag_old hfl' hv
    | succ i =>
      have hN := hopenN (1 + (i + 1)) ck post.isEmpty (by omega) (hlen _ _ _ hsp)
      have h16 : c.hlen (i + 1 + 1) = 16 := by unfold SarCfg.hlen; rw [if_neg (by omega), hoh]
      rw [← hg, ← h16] at hN
      refine ⟨_, hN, rfl, (fun h => by cases h), ?_⟩
      intro fl hfl' hv
      rw [hflag] at hfl'
      injection hfl' with hfl'
      exact openFlag_old hfl' hv

theorem newOut_single_old (iname dname : Bytes) (hi : LabelOk iname) :
    newOut (newHdr iname dname true .single) .single = .ok (.single true (be32 SAUV_MAGIC ++ iname ++ [flagTerminal] ++ [78])) := by
    let b := be32 SAUV_MAGIC ++ iname ++ [flagTerminal] ++ [78]
    have hbl : b.length = 16 := by simp [b, be32_len, hi.1, LABEL_SIZE]
    show newOut (newHdr iname dname true .single) .single = .ok (.single true b)
    generalize hh : newHdr iname dname true .single = g
    have hg : g = ⟨SAUV_MAGIC, iname, dname, flagTerminal, 0, 0, 0, 0, true⟩ := by rw [← hh]; rfl
    have hb : g.bytes true false = .ok b := by
      rw [bytes_old g (by rw [hg]) (by rw [hg]) true, hg]
      simp [b]
    clear_value b
    have hw : g.write 0 true false = .ok (b, { g with firstHdr := 16, otherHdr := 16 }) := by
      unfold SliceHdr.write
      rw [hb]
      have hm : sliceMin = 16 := rfl
      simp only [Bool.false_eq_true, not_false_eq_true, true_and, hg, and_self, if_true, Nat.zero_add, hbl, hm]
      rw [if_neg (by omega), if_neg (by simp), if_neg (by simp)]
    unfold newOut
    rw [hw, hg]

theorem created_single_old (goOn : Nat → Bool) (iname dname : Bytes) (hi : LabelOk iname) (l : List Bytes) (hne : l.flatten ≠ []) :
    ∃ o0 o files c s chunks, newOut (newHdr iname dname true .single) .single = .ok o0 ∧ o0.writes l = (o, none) ∧ o.close false = files ∧ Created goOn iname dname true l.flatten files c s chunks := by
  let b := be32 SAUV_MAGIC ++ iname ++ [flagTerminal] ++ [78]
  have hbl : b.length = 16 := by simp [b, be32_len, hi.1, LABEL_SIZE]
  have e1 : newOut (newHdr iname dname true .single) .single = .ok (.single true b) := newOut_single_old iname dname hi
  have hpos := List.length_pos_iff.mpr hne
  let len := 16 + l.flatten.length
  let c : SarCfg := ⟨⟨len, len, 16, 16, true⟩, fun f => be32 SAUV_MAGIC ++ iname ++ [f] ++ [78], fun f => be32 SAUV_MAGIC ++ iname ++ [f] ++ [78]⟩
  have hfile : sarFile c 1 l.flatten true = b ++ l.flatten := by
    unfold sarFile SarCfg.hdr; simp [c, b]
  have hhl : ∀ f : UInt8, (be32 SAUV_MAGIC ++ iname ++ [f] ++ [78]).length = 16 := by intro f; simp [be32_len, hi.1, LABEL_SIZE]
  have hok : c.Ok := by
    refine ⟨hhl, hhl, ?_, ?_, ?_, ?_, ?_, ?_⟩
    · show 0 < 16; omega
    · show 0 < 16; omega
    · show 16 + 0 ≤ len; simp only [len]; omega
    · show 16 + 0 < len; simp only [len]; omega
    · intro _ f; exact flag14 iname hi.1 f _
    · intro _ f; exact flag14 iname hi.1 f _
  refine ⟨_, .single true (b ++ l.flatten), [sarFile c 1 l.flatten true], c, _, [l.flatten], e1, writes_single _ _ _, ?_, created_one goOn iname dname true c
    ⟨SAUV_MAGIC, iname, iname, flagTerminal, len, len, 16, 16, true⟩ l.flatten hok rfl ?_ ?_ ?_ rfl rfl rfl⟩
  · rw [hfile]; simp [XOut.close]
  · show l.flatten.length ≤ len - 16 - 0
    simp only [len]; omega
  · rw [hfile]; exact openHdr_none goOn iname l.flatten flagTerminal hi.1 hne
  · exact openFlag_old rfl (Or.inl rfl)

end Dar
