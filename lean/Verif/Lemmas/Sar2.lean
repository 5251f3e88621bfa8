import Verif.Lemmas.Sar
namespace Dar

theorem Filled_append (c : SarCfg) (num : Nat) (a b : List Bytes) :
    Filled c num (a ++ b) ↔ Filled c num a ∧ Filled c (num + a.length) b := by
  induction a generalizing num with
  | nil => simp [Filled]
  | cons p a ih =>
    simp only [List.cons_append, Filled, ih, List.length_cons]
    rw [show num + 1 + a.length = num + (a.length + 1) by omega]; tauto

/-- Payloads of a set of slices. -/
def Pieces (c : SarCfg) (chunks : List Bytes) : Prop :=
  ∃ ps q, chunks = ps ++ [q] ∧ Filled c 1 ps ∧ q.length ≤ c.cap (ps.length + 1) ∧ (ps ≠ [] → q ≠ [])

theorem snoc_split {α : Type} (ps : List α) (q : α) (pre : List α) (ck : α) (post : List α)
    (h : ps ++ [q] = pre ++ ck :: post) :
    (post = [] ∧ ps = pre ∧ q = ck) ∨ ∃ mid, post = mid ++ [q] ∧ ps = pre ++ ck :: mid := by
  rcases List.eq_nil_or_concat post with rfl | ⟨mid, z, rfl⟩
  · left
    have := List.append_inj' h (by simp)
    simp at this; exact ⟨rfl, this.1, this.2⟩
  · right
    refine ⟨mid, ?_, ?_⟩
    · have h' : ps ++ [q] = (pre ++ ck :: mid) ++ [z] := by rw [h]; simp
      have := List.append_inj' h' (by simp)
      have hq : q = z := by simpa using this.2
      rw [hq]; simp
    · have h' : ps ++ [q] = (pre ++ ck :: mid) ++ [z] := by rw [h]; simp
      exact (List.append_inj' h' (by simp)).1

theorem Pieces.at {c : SarCfg} {chunks : List Bytes} (h : Pieces c chunks) {pre post : List Bytes} {ck : Bytes}
    (he : chunks = pre ++ ck :: post) :
    Filled c 1 pre ∧ ck.length ≤ c.cap (pre.length + 1) ∧ (post ≠ [] → ck.length = c.cap (pre.length + 1)) ∧
      (pre ≠ [] → post = [] → ck ≠ []) := by
  obtain ⟨ps, q, e, hf, hq, hne⟩ := h
  rw [e] at he
  rcases snoc_split ps q pre ck post he with ⟨h1, h2, h3⟩ | ⟨mid, h1, h2⟩
  · subst h1; subst h2; subst h3; exact ⟨hf, hq, fun h => absurd rfl h, fun h _ => hne h⟩
  · subst h1; subst h2
    have := (Filled_append c 1 pre (ck :: mid)).mp hf
    have hk : ck.length = c.cap (pre.length + 1) := by
      have := this.2.1; rw [this]; congr 1; omega
    exact ⟨this.1, le_of_eq hk, fun _ => hk, fun _ hc => by simp at hc⟩

theorem Filled_flatten_len (c : SarCfg) (pre : List Bytes) (h : Filled c 1 pre) (hne : pre ≠ []) :
    pre.flatten.length = c.cap 1 + (pre.length - 1) * c.cap 2 := by
  cases pre with
  | nil => exact absurd rfl hne
  | cons p ps =>
    have key : ∀ (ps : List Bytes) num, num ≠ 1 → (num ≠ 0) → Filled c num ps → ps.flatten.length = ps.length * c.cap 2 := by
      intro ps
      induction ps with
      | nil => intro _ _ _ _; simp
      | cons x xs ih =>
        intro num h1 h0 hf
        have := ih (num + 1) (by omega) (by omega) hf.2
        have hc : c.cap num = c.cap 2 := by
          unfold SarCfg.cap SarCfg.size SarCfg.hlen; simp [h1]
        have hx := hf.1
        simp only [List.flatten_cons, List.length_append, List.length_cons, this, hx, hc]
        ring
    have := key ps 2 (by omega) (by omega) h.2
    have hp := h.1
    simp only [List.flatten_cons, List.length_append, List.length_cons, this, hp]
    simp

theorem sarFilesFrom_get (c : SarCfg) (num : Nat) (pre : List Bytes) (ck : Bytes) (post : List Bytes) :
    (sarFilesFrom c num (pre ++ ck :: post))[pre.length]? = some (sarFile c (num + pre.length) ck post.isEmpty) := by
  induction pre generalizing num with
  | nil =>
    cases post with
    | nil => rfl
    | cons p post => rfl
  | cons x pre ih =>
    have hne : pre ++ ck :: post ≠ [] := by simp
    obtain ⟨y, ys, hy⟩ := List.exists_cons_of_ne_nil hne
    rw [List.cons_append, hy, sarFilesFrom]
    · rw [← hy]
      simp only [List.length_cons, List.getElem?_cons_succ]
      rw [ih]; congr 2; omega
    · simp

theorem sarFilesFrom_length (c : SarCfg) (num : Nat) (l : List Bytes) : (sarFilesFrom c num l).length = l.length := by
  induction l generalizing num with
  | nil => rfl
  | cons x l ih =>
    cases l with
    | nil => rfl
    | cons y l => rw [sarFilesFrom]; simp [ih]; simp

theorem sarFile_length {c : SarCfg} (h : c.Ok) (num : Nat) (p : Bytes) (t : Bool) :
    (sarFile c num p t).length = c.hlen num + p.length + c.delta := by
  have hl := h.hdr_len num
  unfold sarFile SarCfg.delta
  by_cases ho : c.lay.old = true
  · simp [ho, hl]
  · simp [ho, hl]; omega

theorem sarFlagOf_file {c : SarCfg} (h : c.Ok) (num : Nat) (p : Bytes) (t : Bool) :
    sarFlagOf c (sarFile c num p t) = some (if t then flagTerminal else flagNonTerminal) := by
  unfold sarFlagOf sarFile
  by_cases ho : c.lay.old = true
  · simp only [ho, if_true]
    have hf : ∀ f, (c.hdr num f)[14]? = some f := by
      intro f; unfold SarCfg.hdr; split
      · exact h.flag1 ho f
      · exact h.flagN ho f
    rw [List.getElem?_append_left]
    · exact hf _
    · have := hf (if t then flagTerminal else flagNonTerminal)
      by_contra hc
      rw [List.getElem?_eq_none (by omega)] at this; cases this
  · simp [ho]

/-- The reader stands at logical position `p`. -/
structure RRep (c : SarCfg) (chunks : List Bytes) (r : SarR) (p : Nat) (pre : List Bytes) (ck : Bytes) (post : List Bytes)
    (j : Nat) : Prop where
  split : chunks = pre ++ ck :: post
  num : r.num = pre.length + 1
  off : r.off = c.hlen (pre.length + 1) + j
  jle : j ≤ ck.length
  pos : p = pre.flatten.length + j
  fd : r.fd = r.off ∨ (c.lay.old = false ∧ j = ck.length ∧ r.fd = r.off + 1)
  flag : r.flag = if post.isEmpty then flagTerminal else flagNonTerminal
  last : r.last = none ∨ r.last = some chunks.length
  lastT : post = [] → r.last = some chunks.length

theorem sarOpenR_spec {c : SarCfg} (h : c.Ok) (chunks pre post : List Bytes) (ck : Bytes) (r : SarR)
    (he : chunks = pre ++ ck :: post) (hl : r.last = none ∨ r.last = some chunks.length) (hn : r.num ≠ pre.length + 1) :
    ∃ r', sarOpenR c (sarFilesFrom c 1 chunks) r (pre.length + 1) = .ok r' ∧
      RRep c chunks r' pre.flatten.length pre ck post 0 := by
  unfold sarOpenR
  rw [if_neg hn]
  have hg := sarFilesFrom_get c 1 pre ck post
  rw [← he] at hg
  simp only [Nat.add_sub_cancel]
  rw [hg]
  simp only [sarFlagOf_file h]
  cases post with
  | nil =>
    simp only [List.isEmpty_nil, if_true]
    have hlen : chunks.length = pre.length + 1 := by rw [he]; simp
    rcases hl with hl | hl
    · rw [hl]
      exact ⟨_, rfl, ⟨he, rfl, rfl, Nat.zero_le _, rfl, Or.inl rfl, rfl, Or.inr (by rw [hlen]), fun _ => by rw [hlen]⟩⟩
    · rw [hl]
      simp only
      rw [if_neg (by rw [hlen]; simp)]
      exact ⟨_, rfl, ⟨he, rfl, rfl, Nat.zero_le _, rfl, Or.inl rfl, rfl, Or.inr rfl, fun _ => rfl⟩⟩
  | cons x post =>
    simp only [List.isEmpty_cons, Bool.false_eq_true, if_false]
    rw [if_neg (by decide), if_pos trivial]
    exact ⟨_, rfl, ⟨he, rfl, rfl, Nat.zero_le _, rfl, Or.inl rfl, rfl, hl, fun hc => by simp at hc⟩⟩

theorem flatten_drop_at (pre post : List Bytes) (ck : Bytes) (j : Nat) (hj : j ≤ ck.length) :
    (pre ++ ck :: post).flatten.drop (pre.flatten.length + j) = ck.drop j ++ post.flatten := by
  rw [List.flatten_append, List.flatten_cons, ← List.drop_drop, List.drop_left, List.drop_append_of_le_length hj]

/-- the bytes one round of the read loop gets -/
theorem sarChunk_read {c : SarCfg} (h : c.Ok) (chunks pre post : List Bytes) (ck : Bytes) (r : SarR) (p j sz : Nat)
    (hr : RRep c chunks r p pre ck post j) (hsz : 0 < sz) :
    let f := (sarFilesFrom c 1 chunks).getD (r.num - 1) []
    let got := (f.drop r.fd).take sz
    let fd' := r.fd + got.length
    let data := if c.lay.old = false ∧ fd' = f.length ∧ 0 < got.length then got.dropLast else got
    data = (ck.drop j).take sz ∧
      (fd' = r.off + data.length ∨ (c.lay.old = false ∧ j + data.length = ck.length ∧ fd' = r.off + data.length + 1)) := by
  have hg := sarFilesFrom_get c 1 pre ck post
  rw [← hr.split, Nat.add_comm] at hg
  have hf : (sarFilesFrom c 1 chunks).getD (r.num - 1) [] = sarFile c (pre.length + 1) ck post.isEmpty := by
    rw [hr.num, Nat.add_sub_cancel, List.getD_eq_getElem?_getD, hg]; rfl
  rw [hf]
  have hlen := sarFile_length h (pre.length + 1) ck post.isEmpty
  have hl := h.hdr_len (pre.length + 1)
  have hjle := hr.jle
  have hoff := hr.off
  intro f got fd' data
  by_cases ho : c.lay.old = true
  · have hfd : r.fd = r.off := by
      rcases hr.fd with e | ⟨e, _⟩
      · exact e
      · rw [e] at ho; cases ho
    have hdrop : (sarFile c (pre.length + 1) ck post.isEmpty).drop r.fd = ck.drop j := by
      unfold sarFile; simp only [ho, if_true]
      rw [hfd, hoff, ← hl (if post.isEmpty then flagTerminal else flagNonTerminal), ← List.drop_drop, List.drop_left]
    have hgot : got = (ck.drop j).take sz := by simp only [got, f, hdrop]
    have hdata : data = got := by simp only [data]; rw [if_neg (by simp [ho])]
    rw [hdata]
    exact ⟨hgot, Or.inl (by simp only [fd']; rw [hfd])⟩
  · have ho' : c.lay.old = false := by simpa using ho
    have hd1 : c.delta = 1 := by unfold SarCfg.delta; rw [ho']; rfl
    set flag := (if post.isEmpty then flagTerminal else flagNonTerminal) with hflag
    have hfile : sarFile c (pre.length + 1) ck post.isEmpty = c.hdr (pre.length + 1) flagAtEnd ++ ck ++ [flag] := by
      unfold sarFile; simp only [ho', Bool.false_eq_true, if_false]; rw [← hflag]
    rcases hr.fd with hfd | ⟨_, hj, hfd⟩
    · have hdrop : f.drop r.fd = ck.drop j ++ [flag] := by
        simp only [f]
        rw [hfile, hfd, hoff, List.append_assoc, ← hl flagAtEnd, ← List.drop_drop, List.drop_left,
          List.drop_append_of_le_length hjle]
      have hgot : got = (ck.drop j ++ [flag]).take sz := by simp only [got, hdrop]
      have hdl : (ck.drop j).length = ck.length - j := List.length_drop
      by_cases hcase : sz ≤ ck.length - j
      · have hgot2 : got = (ck.drop j).take sz := by
          rw [hgot, List.take_append_of_le_length (by rw [hdl]; exact hcase)]
        have hgl : got.length = sz := by rw [hgot2, List.length_take, hdl]; omega
        have hdata : data = got := by
          simp only [data]; rw [if_neg]
          rintro ⟨_, h2, _⟩
          simp only [fd', f, hgl] at h2
          omega
        rw [hdata]
        exact ⟨hgot2, Or.inl (by simp only [fd']; rw [hfd])⟩
      · have hgot2 : got = ck.drop j ++ [flag] := by
          rw [hgot]; apply List.take_of_length_le; simp; omega
        have hgl : got.length = ck.length - j + 1 := by rw [hgot2]; simp
        have hdata : data = ck.drop j := by
          simp only [data]; rw [if_pos, hgot2, List.dropLast_concat]
          refine ⟨ho', ?_, by omega⟩
          simp only [fd', f, hgl]; omega
        have hdl' : data.length = ck.length - j := by rw [hdata, hdl]
        refine ⟨?_, Or.inr ⟨ho', ?_, ?_⟩⟩
        · rw [hdata, List.take_of_length_le (by rw [hdl]; omega)]
        · rw [hdl']; omega
        · simp only [fd', hgl]; rw [hdl', hfd]; omega
    · have hdrop : f.drop r.fd = [] := by
        apply List.drop_of_length_le; simp only [f]; omega
      have hgot : got = [] := by simp only [got, hdrop, List.take_nil]
      have hdata : data = [] := by simp only [data]; rw [hgot]; simp
      rw [hdata]
      refine ⟨?_, Or.inr ⟨ho', by simp; exact hj, ?_⟩⟩
      · rw [hj, List.drop_length]; simp
      · simp only [fd', hgot]; simp; omega

theorem sarRead_spec {c : SarCfg} (h : c.Ok) (chunks : List Bytes) (hp : Pieces c chunks) (fuel : Nat)
    (r : SarR) (p sz : Nat) (pre : List Bytes) (ck : Bytes) (post : List Bytes) (j : Nat)
    (hr : RRep c chunks r p pre ck post j) (hfu : sz + post.length + 1 ≤ fuel) :
    ∃ r' pre' ck' post' j', sarRead c (sarFilesFrom c 1 chunks) fuel r sz = .ok ((chunks.flatten.drop p).take sz, r') ∧
      RRep c chunks r' (p + ((chunks.flatten.drop p).take sz).length) pre' ck' post' j' := by
  induction fuel generalizing r p sz pre ck post j with
  | zero => omega
  | succ fuel ih =>
    cases sz with
    | zero => exact ⟨r, pre, ck, post, j, by simp [sarRead], by simpa using hr⟩
    | succ sz =>
      obtain ⟨hdata, hfd⟩ := sarChunk_read h chunks pre post ck r p j (sz + 1) hr (by omega)
      have hdropp : chunks.flatten.drop p = ck.drop j ++ post.flatten := by
        have := hr.split; rw [hr.pos, this]; exact flatten_drop_at pre post ck j hr.jle
      have hpc := hp.at hr.split
      rw [sarRead]
      generalize hgot : ((((sarFilesFrom c 1 chunks).getD (r.num - 1) []).drop r.fd).take (sz + 1)) = got at hdata hfd ⊢
      generalize hD : (if c.lay.old = false ∧ r.fd + got.length = ((sarFilesFrom c 1 chunks).getD (r.num - 1) []).length ∧
        0 < got.length then got.dropLast else got) = data at hdata hfd ⊢
      simp only
      by_cases hz : data.length = 0
      · rw [if_pos hz]
        have hj : j = ck.length := by
          rw [hdata, List.length_take, List.length_drop] at hz
          have := hr.jle; omega
        have hfd' : r.fd + got.length = r.off ∨ (c.lay.old = false ∧ j = ck.length ∧ r.fd + got.length = r.off + 1) := by
          rcases hfd with e | ⟨a, b, e⟩
          · left; omega
          · right; exact ⟨a, hj, by omega⟩
        have hdropp' : chunks.flatten.drop p = post.flatten := by rw [hdropp, hj, List.drop_length]; simp
        cases post with
        | nil =>
          have hfl : r.flag = flagTerminal := by rw [hr.flag]; rfl
          rw [if_pos (Or.inl hfl), hdropp']
          exact ⟨{ r with fd := r.fd + got.length }, pre, ck, [], j, by simp, ⟨hr.split, hr.num, hr.off, hr.jle, by simpa using hr.pos, hfd', hr.flag, hr.last, hr.lastT⟩⟩
        | cons x post =>
          have hfl : ¬ (r.flag = flagTerminal ∨ r.lastReached = true) := by
            rintro (hc | hc)
            · rw [hr.flag] at hc; simp at hc; revert hc; decide
            · unfold SarR.lastReached at hc
              rcases hr.last with e | e
              · rw [e] at hc; simp at hc
              · rw [e] at hc
                have hlen : chunks.length = pre.length + 1 + (post.length + 1) := by rw [hr.split]; simp; omega
                have := hr.num
                simp at hc; omega
          rw [if_neg hfl]
          have hck : ck.length = c.cap (pre.length + 1) := hpc.2.2.1 (by simp)
          have hca := h.cap_add (pre.length + 1)
          rw [if_pos (by rw [hr.num, hr.off]; omega)]
          have hsp : chunks = (pre ++ [ck]) ++ x :: post := by rw [hr.split]; simp
          obtain ⟨r1, e1, rep1⟩ := sarOpenR_spec h chunks (pre ++ [ck]) post x { r with fd := r.fd + got.length } hsp
            (by exact hr.last) (by show r.num ≠ _; rw [hr.num]; simp)
          have hl1 : (pre ++ [ck]).length + 1 = r.num + 1 := by rw [hr.num]; simp
          rw [hl1] at e1
          rw [e1]
          have hpe : (pre ++ [ck]).flatten.length = p := by rw [hr.pos, hj]; simp
          rw [hpe] at rep1
          obtain ⟨r2, pre2, ck2, post2, j2, e2, rep2⟩ := ih r1 p (sz + 1) (pre ++ [ck]) x post 0 rep1 (by simp at hfu ⊢; omega)
          exact ⟨r2, pre2, ck2, post2, j2, e2, rep2⟩
      · rw [if_neg hz]
        have hjn : j + data.length ≤ ck.length := by
          rw [hdata, List.length_take, List.length_drop]; have := hr.jle; omega
        have hdl : data.length ≤ sz + 1 := by rw [hdata, List.length_take]; omega
        have rep1 : RRep c chunks { r with fd := r.fd + got.length, off := r.off + data.length } (p + data.length)
            pre ck post (j + data.length) :=
          ⟨hr.split, hr.num, by show r.off + data.length = _; rw [hr.off]; omega, hjn, by rw [hr.pos]; omega,
            by rcases hfd with e | ⟨a, b, e⟩
               · left; exact e
               · right; exact ⟨a, b, e⟩, hr.flag, hr.last, hr.lastT⟩
        obtain ⟨r2, pre2, ck2, post2, j2, e2, rep2⟩ := ih _ (p + data.length) (sz + 1 - data.length) pre ck post (j + data.length) rep1 (by omega)
        rw [e2]
        have hres : data ++ ((chunks.flatten.drop (p + data.length)).take (sz + 1 - data.length)) =
            (chunks.flatten.drop p).take (sz + 1) := by
          rw [← List.drop_drop]
          have hpre : data = (chunks.flatten.drop p).take data.length := by
            rw [hdropp, List.take_append_of_le_length (by rw [List.length_drop]; omega)]
            conv_lhs => rw [hdata]
            rw [hdata, List.length_take, List.length_drop]
            rcases Nat.le_total (sz + 1) (ck.length - j) with hle | hle
            · rw [Nat.min_eq_left hle]
            · rw [Nat.min_eq_right hle, List.take_of_length_le (by rw [List.length_drop]; exact hle),
                List.take_of_length_le (by rw [List.length_drop])]
          conv_lhs => lhs; rw [hpre]
          rw [← List.take_add]
          congr 1; omega
        refine ⟨r2, pre2, ck2, post2, j2, ?_, ?_⟩
        · simp only [Bind.bind, Except.bind]; rw [hres]
        · rw [← hres, List.length_append, ← Nat.add_assoc]; exact rep2

end Dar
