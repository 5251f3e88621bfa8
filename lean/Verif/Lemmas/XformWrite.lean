import Verif.Lemmas.XformRead
namespace Dar

theorem writes_slices (c : SarCfg) : ∀ (l : List Bytes) (w w' : SarW), l.foldlM (fun w a => sarWrite c (2 * a.length + 1) w a) w = .ok w' →
    (XOut.slices c w).writes l = (.slices c w', none) := by
  intro l
  induction l with
  | nil => intro w w' h; injection h with h; subst h; rfl
  | cons a l ih =>
    intro w w' h
    rw [List.foldlM_cons] at h
    unfold XOut.writes XOut.write
    cases hw : sarWrite c (2 * a.length + 1) w a with
    | error e => rw [hw] at h; cases h
    | ok w1 =>
      rw [hw] at h
      simp only [hw]
      exact ih w1 w' h

theorem writes_single (old : Bool) : ∀ (l : List Bytes) (b : Bytes), (XOut.single old b).writes l = (.single old (b ++ l.flatten), none) := by
  intro l
  induction l with
  | nil => intro b; simp [XOut.writes]
  | cons a l ih => intro b; unfold XOut.writes XOut.write; simp only; rw [ih]; simp

/-- writing to slices: the files are the data cut in pieces -/
theorem writes_produce {c : SarCfg} (h : c.Ok) (l : List Bytes) : ∃ o ps q, (XOut.slices c (sarOpenW c [])).writes l = (o, none) ∧ o.close false = sarFilesFrom c 1 (ps ++ [q]) ∧
    sarProduce c l = .ok (sarFilesFrom c 1 (ps ++ [q])) ∧ Filled c 1 ps ∧ q.length ≤ c.cap (ps.length + 1) ∧ (ps ≠ [] → q ≠ []) ∧ (ps ++ [q]).flatten = l.flatten := by
  obtain ⟨ps, q, e, hf, hq, hne, hfl⟩ := sarProduce_spec h l
  have e' := e
  unfold sarProduce at e
  cases hw : l.foldlM (fun w a => sarWrite c (2 * a.length + 1) w a) (sarOpenW c []) with
  | error x => rw [hw] at e; cases e
  | ok w =>
    rw [hw] at e
    simp only [Bind.bind, Except.bind] at e
    cases hc : sarClose c w.num w.cur true with
    | error x => rw [hc] at e; cases e
    | ok f =>
      rw [hc] at e
      simp only [Except.ok.injEq] at e
      refine ⟨.slices c w, ps, q, writes_slices c l _ _ hw, ?_, e', hf, hq, hne, hfl⟩
      unfold XOut.close
      simp only [Bool.false_eq_true, if_false, hc]
      exact e

theorem openFlag_recent {h : SliceHdr} {f : Bytes} {c : SarCfg} {fl : UInt8} (hc : c.lay.old = false) (hh : h.flag = flagAtEnd) (hf : sarFlagOf c f = some fl)
    (hv : fl = flagTerminal ∨ fl = flagNonTerminal) : openFlag h f = .ok fl := by
  unfold sarFlagOf at hf
  rw [hc] at hf
  simp only [Bool.false_eq_true, if_false] at hf
  unfold openFlag
  rw [if_pos hh, hf]
  simp only
  rw [if_pos hv]

/-- What a new archive is: the slices, and how they are found when they are read. -/
structure Created (goOn : Nat → Bool) (iname dname : Bytes) (old : Bool) (d : Bytes) (files : List Bytes) (c : SarCfg) (s : SliceHdr) (chunks : List Bytes) : Prop where
  asFiles : files = sarFilesFrom c 1 chunks
  pieces : Pieces c chunks
  data : chunks.flatten = d
  set : SetOk goOn c files s
  inm : s.iname = iname
  dnm : s.dname = if old then iname else dname
  isOld : s.old = old
  prod : sarProduce c [d] = .ok files

theorem created_recent (goOn : Nat → Bool) (iname dname : Bytes) (first other : Nat) (hi : LabelOk iname) (hd : LabelOk dname) (c : SarCfg)
    (h : newSlices (newHdr iname dname false (.slices first other)) = .ok c) (hroom : c.lay.otherHdr + 1 < other) (l : List Bytes) :
    ∃ o files s chunks, (XOut.slices c (sarOpenW c [])).writes l = (o, none) ∧ o.close false = files ∧ Created goOn iname dname false l.flatten files c s chunks := by
  obtain ⟨hok, _, _, hold, _, hrd⟩ := newSlices_recent iname dname first other hi hd c h hroom
  obtain ⟨o, ps, q, e1, e2, e3, hf, hq, hne, hfl⟩ := writes_produce hok l
  have hp : Pieces c (ps ++ [q]) := ⟨ps, q, rfl, hf, hq, hne⟩
  obtain ⟨s, s1, s2, s3, s4, s5, _⟩ := hrd goOn 1 [] true
  have huniq : ∀ t : SliceHdr, t.lay = c.lay → t.iname = iname → t.dname = dname → t.flag = flagAtEnd → t.magic = SAUV_MAGIC → t = s := by
    intro t t1 t2 t3 t4 t5
    cases t; cases s
    simp only [SliceHdr.lay] at s1 t1 s2 s3 s4 s5 t2 t3 t4 t5 ⊢
    rw [← s1] at t1
    injection t1
    simp_all
  refine ⟨o, _, s, ps ++ [q], e1, e2, rfl, hp, hfl, ⟨s1, hok, ?_⟩, s2, s3, ?_, ?_⟩
  · intro i f hif
    have hlt : i < (ps ++ [q]).length := by
      by_contra hc
      rw [List.getElem?_eq_none (by rw [sarFilesFrom_length]; omega)] at hif; cases hif
    obtain ⟨pre, ck, post, hsp, hlen⟩ : ∃ pre ck post, ps ++ [q] = pre ++ ck :: post ∧ pre.length = i :=
      ⟨(ps ++ [q]).take i, (ps ++ [q])[i], (ps ++ [q]).drop (i + 1), by simp, by rw [List.length_take]; omega⟩
    have hg := sarFilesFrom_get c 1 pre ck post
    rw [← hsp, hlen, hif] at hg
    injection hg with hg
    obtain ⟨t, t1, t2, t3, t4, t5, t6⟩ := hrd goOn (1 + i) ck post.isEmpty
    have := huniq t t1 t2 t3 t4 t5
    subst this
    refine ⟨t, by rw [hg, t6, Nat.add_comm], rfl, fun _ => rfl, ?_⟩
    intro fl hfl' hv
    exact openFlag_recent hold t4 hfl' hv
  · have : s.old = s.lay.old := rfl
    rw [this, s1, hold]
  · rw [C13_chunking hok [l.flatten] l (by simp), e3]

/-- a file holding everything, whose header is understood by the reader -/
theorem created_one (goOn : Nat → Bool) (iname dname : Bytes) (old : Bool) (c : SarCfg) (s : SliceHdr) (d : Bytes) (hok : c.Ok) (hlay : s.lay = c.lay) (hcap : d.length ≤ c.cap 1)
    (h1 : openHdr goOn (sarFile c 1 d true) = .ok (s, c.hlen 1)) (h2 : openFlag s (sarFile c 1 d true) = .ok flagTerminal) (hi : s.iname = iname) (hd : s.dname = if old then iname else dname) (ho : s.old = old) :
    Created goOn iname dname old d [sarFile c 1 d true] c s [d] := by
  have hp : Pieces c [d] := ⟨[], d, rfl, trivial, hcap, fun h => absurd rfl h⟩
  refine ⟨rfl, hp, by simp, ⟨hlay, hok, ?_⟩, hi, hd, ho, ?_⟩
  · intro i f hif
    cases i with
    | zero =>
      simp only [List.getElem?_cons_zero, Option.some.injEq] at hif
      subst hif
      refine ⟨s, h1, rfl, fun _ => rfl, ?_⟩
      intro fl hfl _
      rw [sarFlagOf_file hok] at hfl
      injection hfl with hfl
      rw [h2, ← hfl]; rfl
    | succ i => simp at hif
  · obtain ⟨ps, q, e, hf, hq, hne, hfl⟩ := sarProduce_spec hok [d]
    have u1 := pieces_unique hok ps q hf hq hne
    have u2 := pieces_unique hok [] d trivial (by simpa using hcap) (fun h => absurd rfl h)
    rw [e, u1, hfl]
    simp only [List.nil_append, List.flatten_cons, List.flatten_nil, List.append_nil] at u2 ⊢
    rw [← u2]; rfl

theorem created_single (goOn : Nat → Bool) (iname dname : Bytes) (hi : LabelOk iname) (hd : LabelOk dname) (l : List Bytes) (hne : l.flatten ≠ []) :
    ∃ o0 o files c s chunks, newOut (newHdr iname dname false .single) .single = .ok o0 ∧ o0.writes l = (o, none) ∧ o.close false = files ∧ Created goOn iname dname false l.flatten files c s chunks := by
  obtain ⟨b, e1, e2, e3⟩ := newOut_single iname dname hi hd
  have hpos := List.length_pos_iff.mpr hne
  obtain ⟨e4, _⟩ := e3 goOn (l.flatten ++ [flagTerminal]) (by simp)
  let len := b.length + (l.flatten.length + 1)
  let c : SarCfg := ⟨⟨len, len, b.length, b.length, false⟩, fun _ => b, fun _ => b⟩
  have hfile : sarFile c 1 l.flatten true = b ++ (l.flatten ++ [flagTerminal]) := by
    unfold sarFile SarCfg.hdr; simp [c]
  have hok : c.Ok := by
    refine ⟨fun _ => rfl, fun _ => rfl, ?_, ?_, ?_, ?_, ?_, ?_⟩
    · show 0 < b.length; omega
    · show 0 < b.length; omega
    · show b.length + 1 ≤ len; simp only [len]; omega
    · show b.length + 1 < len; simp only [len]; omega
    · intro hx; cases hx
    · intro hx; cases hx
  refine ⟨_, .single false (b ++ l.flatten), [sarFile c 1 l.flatten true], c, _, [l.flatten], e1, writes_single _ _ _, ?_, created_one goOn iname dname false c
    ⟨SAUV_MAGIC, iname, dname, flagTerminal, len, len, b.length, b.length, false⟩ l.flatten hok rfl ?_ ?_ ?_ rfl rfl rfl⟩
  · rw [hfile]; simp [XOut.close]
  · show l.flatten.length ≤ len - b.length - 1
    simp only [len]; omega
  · rw [hfile, e4]
    simp only [List.length_append, List.length_cons, List.length_nil]
    rfl
  · unfold openFlag
    simp only
    rw [if_neg (by decide), if_pos (Or.inl trivial)]

end Dar
