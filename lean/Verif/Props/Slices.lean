import Verif.Lemmas.Sar3
import Verif.Lemmas.Infinint4
/- Property theorems C13 (slicing is transparent) and C14 (slice location).  `SarCfg.Ok` says: slice headers have
the recorded lengths, every slice but possibly the first has room for at least one byte of data. -/
namespace Dar

/-- The payload found in slice file number `num`: what lies between its header and its trailing flag. -/
def slicePayload (c : SarCfg) (num : Nat) (f : Bytes) : Bytes := (f.drop (c.hlen num)).take (f.length - c.hlen num - c.delta)

theorem cutRest_unique (c : Nat) (hc : 0 < c) (ps : List Bytes) (q : Bytes) (fuel : Nat)
    (hps : ∀ p ∈ ps, p.length = c) (hq : q.length ≤ c) (hne : q ≠ []) (hf : ps.length ≤ fuel) :
    cutRest c fuel (ps.flatten ++ q) = ps ++ [q] := by
  induction ps generalizing fuel with
  | nil =>
    cases fuel with
    | zero => simp [cutRest]
    | succ fuel => simp [cutRest, hq]
  | cons p ps ih =>
    cases fuel with
    | zero => simp at hf
    | succ fuel =>
      have hp := hps p (by simp)
      have hql : 0 < q.length := List.length_pos_iff.mpr hne
      simp only [cutRest, List.flatten_cons, List.append_assoc, List.length_append]
      rw [if_neg (by omega), List.take_append_of_le_length (by omega), List.take_of_length_le (by omega),
        List.drop_append_of_le_length (by omega), List.drop_of_length_le (by omega), List.nil_append,
        ih fuel (fun p hp => hps p (by simp [hp])) (by simp at hf; omega)]
      rfl

theorem pieces_unique {c : SarCfg} (h : c.Ok) (ps : List Bytes) (q : Bytes) (hf : Filled c 1 ps)
    (hq : q.length ≤ c.cap (ps.length + 1)) (hne : ps ≠ [] → q ≠ []) :
    ps ++ [q] = cutStream (c.cap 1) (c.cap 2) (ps ++ [q]).flatten := by
  cases ps with
  | nil =>
    simp only [List.nil_append, List.flatten_cons, List.flatten_nil, List.append_nil]
    unfold cutStream
    rw [if_pos (by simpa using hq)]
  | cons p ps =>
    have hp : p.length = c.cap 1 := hf.1
    have hq0 := hne (by simp)
    have hql : 0 < q.length := List.length_pos_iff.mpr hq0
    have hall : ∀ (l : List Bytes) num, num ≠ 1 → num ≠ 0 → Filled c num l → ∀ x ∈ l, x.length = c.cap 2 := by
      intro l
      induction l with
      | nil => intro _ _ _ _ x hx; simp at hx
      | cons y l ih =>
        intro num h1 h0 hfl x hx
        rcases List.mem_cons.mp hx with rfl | hx
        · rw [hfl.1]; exact (cap_ge2 c num h1).1
        · exact ih (num + 1) (by omega) (by omega) hfl.2 x hx
    have hps := hall ps 2 (by omega) (by omega) hf.2
    have hq2 : q.length ≤ c.cap 2 := by
      rw [(cap_ge2 c _ (by simp)).1] at hq; exact hq
    unfold cutStream
    have hfl : (p :: ps ++ [q]).flatten = p ++ (ps.flatten ++ q) := by simp
    rw [hfl, if_neg (by simp; omega), List.take_append_of_le_length (by omega), List.take_of_length_le (by omega),
      List.drop_append_of_le_length (by omega), List.drop_of_length_le (by omega), List.nil_append,
      cutRest_unique (c.cap 2) (h.capN 2 (by omega)) ps q _ hps hq2 hq0]
    · rfl
    · have : ps.flatten.length = ps.length * c.cap 2 := by
        clear hfl hf hne hq
        induction ps with
        | nil => simp
        | cons y l ih =>
          rw [List.flatten_cons, List.length_append, ih (fun x hx => hps x (by simp [hx])), hps y (by simp), List.length_cons]
          ring
      have hc2 : 0 < c.cap 2 := h.capN 2 (by omega)
      have : ps.length ≤ ps.length * c.cap 2 := Nat.le_mul_of_pos_right _ hc2
      rw [List.length_append, List.length_append]; omega

/-- Whatever way the data is handed over in successive writes, the slices hold it in order: the payloads are the
data cut at the slice capacities, no file exceeds the requested size, all but the last have exactly that size,
and only the last carries the terminal flag. -/
theorem C13_slices {c : SarCfg} (h : c.Ok) (writes : List Bytes) :
    ∃ files, sarProduce c writes = .ok files ∧
      (files.mapIdx fun i f => slicePayload c (i + 1) f) = cutStream (c.cap 1) (c.cap 2) writes.flatten ∧
      (files.mapIdx fun i f => slicePayload c (i + 1) f).flatten = writes.flatten ∧
      ∀ i f, files[i]? = some f → f.length ≤ c.size (i + 1) ∧ (i + 1 < files.length → f.length = c.size (i + 1)) ∧
        sarFlagOf c f = some (if i + 1 = files.length then flagTerminal else flagNonTerminal) := by
  obtain ⟨ps, q, e, hf, hq, hne, hfl⟩ := sarProduce_spec h writes
  have hpieces : Pieces c (ps ++ [q]) := ⟨ps, q, rfl, hf, hq, hne⟩
  have hpay : ((sarFilesFrom c 1 (ps ++ [q])).mapIdx fun i f => slicePayload c (i + 1) f) = ps ++ [q] := by
    apply List.ext_getElem?
    intro i
    rw [List.getElem?_mapIdx]
    by_cases hi : i < (ps ++ [q]).length
    · obtain ⟨pre, ck, post, hsp, hlen⟩ : ∃ pre ck post, ps ++ [q] = pre ++ ck :: post ∧ pre.length = i := by
        refine ⟨(ps ++ [q]).take i, (ps ++ [q])[i], (ps ++ [q]).drop (i + 1), ?_, by rw [List.length_take]; omega⟩
        simp
      have hg := sarFilesFrom_get c 1 pre ck post
      rw [← hsp, hlen] at hg
      rw [hg, hsp]
      simp only [Option.map_some]
      rw [← hlen, List.getElem?_append_right (le_refl _), Nat.sub_self]
      simp only [List.getElem?_cons_zero, Option.some.injEq]
      unfold slicePayload
      rw [sarFile_length h, Nat.add_comm 1 pre.length]
      have hl := h.hdr_len (pre.length + 1)
      have : c.hlen (pre.length + 1) + ck.length + c.delta - c.hlen (pre.length + 1) - c.delta = ck.length := by omega
      rw [this]
      unfold sarFile
      by_cases ho : c.lay.old = true
      · simp only [ho, if_true]
        rw [← hl (if post.isEmpty then flagTerminal else flagNonTerminal), List.drop_left, List.take_length]
      · simp only [if_neg ho]
        rw [← hl flagAtEnd, List.append_assoc, List.drop_left, List.take_left]
    · have hfl2 : (sarFilesFrom c 1 (ps ++ [q])).length ≤ i := by rw [sarFilesFrom_length]; omega
      have hlq : (ps ++ [q]).length ≤ i := by omega
      rw [List.getElem?_eq_none hfl2, List.getElem?_eq_none hlq]; rfl
  refine ⟨_, e, ?_, ?_, ?_⟩
  · rw [hpay, ← hfl]; exact pieces_unique h ps q hf hq hne
  · rw [hpay]; exact hfl
  · intro i f hi
    have hlt : i < (ps ++ [q]).length := by
      by_contra hc
      rw [List.getElem?_eq_none (by rw [sarFilesFrom_length]; omega)] at hi; cases hi
    obtain ⟨pre, ck, post, hsp, hlen⟩ : ∃ pre ck post, ps ++ [q] = pre ++ ck :: post ∧ pre.length = i := by
      refine ⟨(ps ++ [q]).take i, (ps ++ [q])[i], (ps ++ [q]).drop (i + 1), ?_, by rw [List.length_take]; omega⟩
      simp
    have hg := sarFilesFrom_get c 1 pre ck post
    rw [← hsp, hlen, hi, Nat.add_comm] at hg
    injection hg with hg
    subst hg
    have hat := hpieces.at hsp
    rw [hlen] at hat
    have hca := h.cap_add (i + 1)
    rw [sarFile_length h, sarFlagOf_file h]
    have hfl : (sarFilesFrom c 1 (ps ++ [q])).length = i + 1 + post.length := by
      rw [sarFilesFrom_length, hsp]; simp; omega
    refine ⟨by omega, ?_, ?_⟩
    · intro hlt2
      have : post ≠ [] := by intro hc; subst hc; simp at hfl; omega
      rw [hat.2.2.1 this]; omega
    · rw [hfl]
      cases post with
      | nil => simp
      | cons x l => simp

/-- Hence the slices depend on the data only, not on how it was handed over. -/
theorem C13_chunking {c : SarCfg} (h : c.Ok) (w1 w2 : List Bytes) (he : w1.flatten = w2.flatten) :
    sarProduce c w1 = sarProduce c w2 := by
  obtain ⟨ps, q, e, hf, hq, hne, hfl⟩ := sarProduce_spec h w1
  obtain ⟨ps', q', e', hf', hq', hne', hfl'⟩ := sarProduce_spec h w2
  rw [e, e', pieces_unique h ps q hf hq hne, pieces_unique h ps' q' hf' hq' hne', hfl, hfl', he]

/-- A reading session on slice files. -/
def sarSession (c : SarCfg) (files : List Bytes) (r : SarR) : List FileOp → Res (List Bytes)
  | [] => .ok []
  | .read n :: ops => do
    let (got, r) ← sarRead c files (n + files.length + 1) r n
    let l ← sarSession c files r ops
    .ok (got :: l)
  | .skip q :: ops => do
    let (_, r) ← sarSkip c files r q
    sarSession c files r ops
  | .skipRel x :: ops => do
    let (_, r) ← sarSkipRel c files files.length r x
    sarSession c files r ops
  | .skipEof :: ops => do
    let r ← sarSkipEof c files r
    sarSession c files r ops

/-- Reading an archive back: any sequence of reads, absolute and relative seeks inside the data and seeks to the
end gets what a plain file holding the data would give. -/
theorem C13_read_partial {c : SarCfg} (h : c.Ok) (writes : List Bytes) (ops : List FileOp) (outs : List Bytes)
    (hops : plainFile writes.flatten 0 ops = some outs) :
    ∃ files r, sarProduce c writes = .ok files ∧ sarStart c files = .ok r ∧ sarSession c files r ops = .ok outs := by
  obtain ⟨ps, q, e, hf, hq, hne, hfl⟩ := sarProduce_spec h writes
  have hp : Pieces c (ps ++ [q]) := ⟨ps, q, rfl, hf, hq, hne⟩
  have hstart : ∃ r ck post, sarStart c (sarFilesFrom c 1 (ps ++ [q])) = .ok r ∧
      RRep c (ps ++ [q]) r 0 [] ck post 0 := by
    obtain ⟨ck, post, hsp⟩ : ∃ ck post, ps ++ [q] = [] ++ ck :: post := by
      cases ps with
      | nil => exact ⟨q, [], rfl⟩
      | cons x l => exact ⟨x, l ++ [q], rfl⟩
    obtain ⟨r, e1, rep⟩ := sarOpenR_spec h (ps ++ [q]) [] post ck ⟨0, 0, 0, 0, none⟩ hsp (Or.inl rfl) (by simp)
    exact ⟨r, ck, post, e1, rep⟩
  obtain ⟨r, ck, post, er, rep⟩ := hstart
  refine ⟨_, r, e, er, ?_⟩
  rw [← hfl] at hops
  have hlen : (sarFilesFrom c 1 (ps ++ [q])).length = (ps ++ [q]).length := sarFilesFrom_length _ _ _
  generalize ps ++ [q] = chunks at *
  clear e er hfl
  have key : ∀ (ops : List FileOp) (r : SarR) (p : Nat) (pre : List Bytes) (ck : Bytes) (post : List Bytes) (j : Nat)
      (outs : List Bytes), RRep c chunks r p pre ck post j → plainFile chunks.flatten p ops = some outs →
      sarSession c (sarFilesFrom c 1 chunks) r ops = .ok outs := by
    intro ops
    induction ops with
    | nil => intro r p pre ck post j outs _ ho; simp [plainFile] at ho; subst ho; rfl
    | cons op ops ih =>
      intro r p pre ck post j outs hr ho
      cases op with
      | read n =>
        simp only [plainFile, Option.map_eq_some_iff] at ho
        obtain ⟨l, hl, rfl⟩ := ho
        obtain ⟨r', pre', ck', post', j', e1, rep'⟩ := sarRead_spec h chunks hp (n + (sarFilesFrom c 1 chunks).length + 1) r p n pre ck post j hr
          (by rw [hlen, hr.split]; simp; omega)
        unfold sarSession
        rw [e1]
        simp only [Bind.bind, Except.bind]
        rw [ih r' _ pre' ck' post' j' l rep' hl]
      | skip q =>
        simp only [plainFile] at ho
        split at ho
        · rename_i hq
          obtain ⟨r', pre', ck', post', j', e1, rep'⟩ := sarSkip_spec h hp hr q hq
          unfold sarSession
          rw [e1]
          simp only [Bind.bind, Except.bind]
          exact ih r' _ pre' ck' post' j' outs rep' ho
        · cases ho
      | skipRel x =>
        simp only [plainFile] at ho
        split at ho
        · rename_i hx
          obtain ⟨r', pre', ck', post', j', e1, rep'⟩ := sarSkipRel_spec h hp hr x hx.1 hx.2
          unfold sarSession
          rw [hlen, e1]
          simp only [Bind.bind, Except.bind]
          exact ih r' _ pre' ck' post' j' outs rep' ho
        · cases ho
      | skipEof =>
        simp only [plainFile] at ho
        obtain ⟨r', pre', ck', j', e1, rep'⟩ := sarSkipEof_spec h hp hr
        unfold sarSession
        rw [e1]
        simp only [Bind.bind, Except.bind]
        exact ih r' _ pre' ck' [] j' outs rep' ho
  exact key ops r 0 [] ck post 0 outs rep hops

/-! ### C14 -/

/-- The slice number and offset computed for an archive position denote the byte of the slice files that holds
that position, inside the data area of that slice. -/
theorem C14_location {c : SarCfg} (h : c.Ok) (writes : List Bytes) (p : Nat) (b : UInt8) (hb : writes.flatten[p]? = some b) :
    ∃ files num off f, sarProduce c writes = .ok files ∧ c.lay.which p = .ok (num, off) ∧ 1 ≤ num ∧
      files[num - 1]? = some f ∧ f[off]? = some b ∧ c.hlen num ≤ off ∧ off + c.delta < f.length := by
  obtain ⟨ps, q, e, hf, hq, hne, hfl⟩ := sarProduce_spec h writes
  have hp : Pieces c (ps ++ [q]) := ⟨ps, q, rfl, hf, hq, hne⟩
  rw [← hfl] at hb
  have hpl : p < (ps ++ [q]).flatten.length := by
    by_contra hc; rw [List.getElem?_eq_none (by omega)] at hb; cases hb
  obtain ⟨pre, ck, post, j, hsp, hj, hpe⟩ := pos_decomp (ps ++ [q]) p hpl
  have hat := hp.at hsp
  have hg := sarFilesFrom_get c 1 pre ck post
  rw [← hsp, Nat.add_comm] at hg
  have hl := h.hdr_len (pre.length + 1)
  refine ⟨_, pre.length + 1, c.hlen (pre.length + 1) + j, _, e, ?_, by omega, hg, ?_, by omega, ?_⟩
  · rw [hpe, filled_start hat.1]; exact which_spec h _ _ (by omega) (by omega)
  · have hbj : ck[j]? = some b := by
      rw [hsp, hpe, List.flatten_append, List.getElem?_append_right (by omega), Nat.add_sub_cancel_left,
        List.flatten_cons, List.getElem?_append_left hj] at hb
      exact hb
    unfold sarFile
    by_cases ho : c.lay.old = true
    · simp only [ho, if_true]
      rw [List.getElem?_append_right (by rw [hl]; omega), hl, Nat.add_sub_cancel_left]; exact hbj
    · simp only [if_neg ho]
      rw [List.append_assoc, List.getElem?_append_right (by rw [hl]; omega), hl, Nat.add_sub_cancel_left,
        List.getElem?_append_left hj]; exact hbj
  · rw [sarFile_length h]; omega

/-- Distinct archive positions have distinct locations, and locations follow the order of positions. -/
theorem C14_injective (l : SliceLayout) (p1 p2 n o : Nat) (h1 : l.which p1 = .ok (n, o)) (h2 : l.which p2 = .ok (n, o)) :
    p1 = p2 := by
  have inv : ∀ p, l.which p = .ok (n, o) →
      p = if l.firstSize = 0 ∨ l.otherSize = 0 then o - l.firstHdr
        else if n = 1 then o - l.firstHdr
        else (l.firstSize - l.firstHdr - (if l.old then 0 else 1)) +
          (n - 2) * (l.otherSize - l.otherHdr - (if l.old then 0 else 1)) + (o - l.otherHdr) := by
    intro p hp
    unfold SliceLayout.which at hp
    split at hp
    · rename_i hz
      simp at hp; rw [if_pos hz]; omega
    · rename_i hz
      rw [if_neg hz]
      split at hp
      · cases hp
      split at hp
      · cases hp
      split at hp
      · cases hp
      split at hp
      · cases hp
      unfold isub at hp
      simp only [Bind.bind, Except.bind] at hp
      generalize (if l.old = true then 0 else 1) = d at *
      split at hp
      · cases hp
      · rename_i v1 hv1
        split at hp
        · cases hp
        · rename_i v2 hv2
          split at hv1
          · injection hv1 with hv1
            split at hv2
            · injection hv2 with hv2
              subst hv1; subst hv2
              split at hp
              · simp at hp; rw [if_pos (by omega)]; omega
              · split at hp
                · cases hp
                · rename_i h5 h6
                  simp at hp
                  obtain ⟨e1, e2⟩ := hp
                  rw [if_neg (by rw [← e1]; simp)]
                  have hdm := Nat.div_add_mod (p - (l.firstSize - l.firstHdr - d)) (l.otherSize - l.otherHdr - d)
                  rw [← e1, ← e2, Nat.add_sub_cancel, Nat.add_sub_cancel, Nat.mul_comm]
                  generalize (l.otherSize - l.otherHdr - d) * ((p - (l.firstSize - l.firstHdr - d)) / (l.otherSize - l.otherHdr - d)) = A at *
                  generalize (p - (l.firstSize - l.firstHdr - d)) % (l.otherSize - l.otherHdr - d) = B at *
                  omega
            · cases hv2
          · cases hv1
  rw [inv p1 h1, inv p2 h2]

/-- The slice layout saved in an isolated catalogue is read back exactly. -/
theorem C14_layout_roundtrip (l : SliceLayout) : ReadsAs SliceLayout.read l.dump l := by
  unfold SliceLayout.dump SliceLayout.read
  simp only [List.append_assoc]
  refine (getInt_putInt _).bind ((getInt_putInt _).bind ((getInt_putInt _).bind ((getInt_putInt _).bind ?_)))
  refine ReadsAs.bind_pure (ReadsAs.readByte _) ?_
  obtain ⟨a, b, c, d, old⟩ := l
  cases old <;> rfl

/-! ### Witnesses -/

/-- A concrete configuration: slices of 20 bytes (first of 19) with 16-byte headers. -/
def sarDemo : SarCfg where
  lay := ⟨19, 20, 16, 16, false⟩
  hdr1 := fun f => List.replicate 14 1 ++ [f, 9]
  hdrN := fun f => List.replicate 14 1 ++ [f, 9]

theorem sarDemo_ok : sarDemo.Ok := by
  constructor <;> intros <;> simp [sarDemo, SarCfg.delta]

example : ∃ files r, sarProduce sarDemo [[1, 2, 3], [4, 5, 6, 7]] = .ok files ∧ sarStart sarDemo files = .ok r ∧
    sarSession sarDemo files r [.skip 3, .read 3, .skipRel (-5), .read 2] = .ok [[4, 5, 6], [2, 3]] :=
  C13_read_partial sarDemo_ok _ _ _ (by decide)

/-- Findings.  A slice size leaving no room for data (header size plus one, which the checks of the header writer
accept) makes the write loop create slices forever: whatever the number of steps granted, it does not end. -/
theorem C13_no_room_counterexample (fuel : Nat) :
    sarWrite ⟨⟨17, 17, 16, 16, false⟩, fun f => List.replicate 14 1 ++ [f, 9], fun f => List.replicate 14 1 ++ [f, 9]⟩
      fuel (sarOpenW ⟨⟨17, 17, 16, 16, false⟩, fun f => List.replicate 14 1 ++ [f, 9], fun f => List.replicate 14 1 ++ [f, 9]⟩ []) [1]
      = .error .diverge := by
  set c : SarCfg := ⟨⟨17, 17, 16, 16, false⟩, fun f => List.replicate 14 1 ++ [f, 9], fun f => List.replicate 14 1 ++ [f, 9]⟩ with hc
  have key : ∀ fuel done, sarWrite c fuel (sarOpenW c done) [1] = .error .diverge := by
    intro fuel
    induction fuel with
    | zero => intro done; rfl
    | succ fuel ih =>
      intro done
      have hcur : (sarOpenW c done).cur = List.replicate 14 1 ++ [69, 9] := by
        simp [sarOpenW, SarCfg.hdr, hc, flagAtEnd]
      have hsize : ∀ n, c.size n = 17 := by intro n; simp [SarCfg.size, hc]
      have hcl : sarClose c (sarOpenW c done).num (List.replicate 14 1 ++ [69, 9]) false =
          .ok (List.replicate 14 1 ++ [69, 9, 78]) := by
        unfold sarClose
        simp only [hsize]
        rfl
      rw [sarWrite]
      · rw [hcur, hsize]
        have hd : c.delta = 1 := rfl
        simp only [isub, hd]
        simp only [Bind.bind, Except.bind, List.length_append, List.length_replicate, List.length_cons, List.length_nil]
        norm_num
        rw [hcl]
        exact ih _
  exact key fuel []

/-- A backward relative seek that fails (target before the start) while the first slice is open leaves the reported
position unchanged although the next read starts from the beginning. -/
theorem C13_skip_back_counterexample : ∃ files r r2 r3,
    sarProduce sarDemo [[1, 2, 3]] = .ok files ∧ sarStart sarDemo files = .ok r ∧
    sarRead sarDemo files 5 r 2 = .ok ([1, 2], r2) ∧
    sarSkipRel sarDemo files 1 r2 (-3) = .ok (false, r3) ∧ sarPos sarDemo r3 = 2 ∧
    ∃ r4, sarRead sarDemo files 5 r3 1 = .ok ([1], r4) := by
  refine ⟨_, _, _, _, rfl, rfl, rfl, rfl, rfl, _, rfl⟩

end Dar
