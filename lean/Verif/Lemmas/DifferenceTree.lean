import Verif.Lemmas.Difference
import Verif.Props.Destroyed
/- Lemmas on the walk of filtre_difference. -/
namespace Dar

variable {o : DfOpts} {stars : Nat → Obj} {fs : FS}

theorem dfLoop_append (s : DfSt) (a b : List BEv) : dfLoop o stars fs s (a ++ b) = (dfLoop o stars fs s a).bind (fun s => dfLoop o stars fs s b) := by
  induction a generalizing s with
  | nil => rfl
  | cons ev a ih =>
    show (dfStep o stars fs s ev).bind _ = ((dfStep o stars fs s ev).bind _).bind _
    cases dfStep o stars fs s ev with
    | error e => rfl
    | ok s' => exact ih s'

theorem eod_skip (s : DfSt) (k : Nat) (hs : s.skip = k + 1) : dfLoop o stars fs s [.eod] = .ok { s with skip := k } := by
  show (dfStep o stars fs s .eod).bind _ = _
  unfold dfStep
  rw [if_pos (by omega), hs]
  rfl
theorem eod_up (s : DfSt) (h0 : s.skip = 0) (h : s.fdir ≠ []) : dfLoop o stars fs s [.eod] = .ok { s with adir := s.adir.dropLast, fdir := s.fdir.dropLast } := by
  show (dfStep o stars fs s .eod).bind _ = _
  unfold dfStep
  rw [if_neg (by omega)]
  show Except.bind (if s.fdir = [] then _ else _) _ = _
  rw [if_neg h]
  rfl

mutual
/-- what is inside a skipped directory is not considered -/
theorem dfSkip_entry (e : BEntry) (s : DfSt) (k : Nat) (hs : s.skip = k + 1) : dfLoop o stars fs s e.events = .ok s := by
  have leaf : ∀ e : BEntry, e.isDir = false → dfLoop o stars fs s [.entry e] = .ok s := by
    intro e he
    show (dfStep o stars fs s (.entry e)).bind _ = _
    unfold dfStep
    rw [if_pos (by omega)]
    simp only [he, Except.bind]
    rfl
  cases e with
  | dir x c =>
    unfold BEntry.events
    show (dfStep o stars fs s (.entry (.dir x c))).bind _ = _
    have h1 : dfStep o stars fs s (.entry (.dir x c)) = .ok { s with skip := s.skip + 1 } := by
      unfold dfStep; rw [if_pos (by omega)]; rfl
    rw [h1]
    show dfLoop o stars fs _ (BEntry.eventsList c ++ [.eod]) = _
    rw [dfLoop_append, dfSkip_list c { s with skip := s.skip + 1 } (k + 1) (by dsimp only; omega)]
    show dfLoop o stars fs _ [.eod] = _
    rw [eod_skip _ s.skip rfl]
  | node x => exact leaf _ rfl
  | mirage n k => exact leaf _ rfl
  | detruit n k d => exact leaf _ rfl
  | ignored n => exact leaf _ rfl
  | ignoredDir x => exact leaf _ rfl
theorem dfSkip_list (l : List BEntry) (s : DfSt) (k : Nat) (hs : s.skip = k + 1) : dfLoop o stars fs s (BEntry.eventsList l) = .ok s := by
  cases l with
  | nil => rfl
  | cons e l =>
    unfold BEntry.eventsList
    rw [dfLoop_append, dfSkip_entry e s k hs]
    exact dfSkip_list l s k hs
end

/-- the word for an inode compared with what is found -/
def dfVerdict (o : DfOpts) (x : Obj) (y : Obj) : DfWord :=
  match cmpInode o x y with
  | .ok _ => .ok
  | .error _ => .diff

mutual
/-- what is told of an entry and of its contents, last first -/
def wordsOf (o : DfOpts) (stars : Nat → Obj) (fs : FS) (d : List Bytes) (e : BEntry) : List (DfWord × List Bytes) :=
  match e with
  | .dir x c =>
    if o.subtree (d ++ [x.name]) then
      match fs.obj (d ++ [x.name]) with
      | none => [(.diff, d ++ [x.name])]
      | some y => (if y.ino.kind = .dir then wordsList o stars fs (d ++ [x.name]) c else []) ++ [(dfVerdict o x y, d ++ [x.name])]
    else [(.skipped, d ++ [x.name])]
  | .node x => wordLeaf (d ++ [x.name]) (o.names x.name) (some x)
  | .mirage n k => wordLeaf (d ++ [n]) (o.names n) (some { stars k with name := n })
  | .detruit n _ _ => wordLeaf (d ++ [n]) (o.names n) none
  | .ignored n => wordLeaf (d ++ [n]) (o.names n) none
  | .ignoredDir x => wordLeaf (d ++ [x.name]) (o.names x.name) (some x)
where
  wordLeaf (p : List Bytes) (cov : Bool) (x : Option Obj) : List (DfWord × List Bytes) :=
    if o.subtree p && cov then
      match x with
      | none => [(.silent, p)]
      | some x => match fs.obj p with
        | none => [(.diff, p)]
        | some y => [(dfVerdict o x y, p)]
    else [(.skipped, p)]
def wordsList (o : DfOpts) (stars : Nat → Obj) (fs : FS) (d : List Bytes) (l : List BEntry) : List (DfWord × List Bytes) :=
  match l with
  | [] => []
  | e :: l => wordsList o stars fs d l ++ wordsOf o stars fs d e
end

/-- the counters -/
def tally1 (st : Stats) (w : DfWord) : Stats :=
  match w with
  | .ok => { st with treated := st.treated + 1 }
  | .silent => { st with treated := st.treated + 1 }
  | .diff => st.err
  | .skipped => st.ign
def tally (l : List (DfWord × List Bytes)) (st : Stats) : Stats := l.foldr (fun w st => tally1 st w.1) st
theorem tally_append (a b : List (DfWord × List Bytes)) (st : Stats) : tally (a ++ b) st = tally a (tally b st) := by simp [tally]

/-- the state after these words -/
def DfSt.plus (s : DfSt) (l : List (DfWord × List Bytes)) : DfSt := { s with st := tally l s.st, told := l ++ s.told }
theorem plus_plus (s : DfSt) (a b : List (DfWord × List Bytes)) : (s.plus b).plus a = s.plus (a ++ b) := by
  simp [DfSt.plus, tally_append]

theorem df_leaf_run (hf : ∀ p, o.fails p = none) (e : BEntry) (he : e.isDir = false) (d : List Bytes) (s : DfSt) (h0 : s.skip = 0) (ha : s.adir = d) (hd : s.fdir = d)
    (hc : ∀ x y, e.obj stars = some x → fs.obj (d ++ [e.name]) = some y → (cmpInode o x y = .ok () ∨ cmpInode o x y = .error .range)) :
    dfLoop o stars fs s [.entry e] = .ok (s.plus (wordsOf.wordLeaf o fs (d ++ [e.name]) (o.names e.name) (e.obj stars))) := by
  subst hd
  show (dfStep o stars fs s (.entry e)).bind _ = _
  unfold dfStep wordsOf.wordLeaf
  rw [if_neg (by omega)]
  simp only [he, ha, Bool.false_or]
  by_cases hcov : (o.subtree (s.fdir ++ [e.name]) && o.names e.name) = true
  · rw [if_pos hcov, if_pos hcov]
    cases hx : e.obj stars with
    | none => rfl
    | some x =>
      dsimp only
      unfold DfSt.inode
      rw [hf]
      cases hy : fs.obj (s.fdir ++ [e.name]) with
      | none => simp only [he, ha]; rfl
      | some y =>
        dsimp only
        unfold DfSt.against
        simp only [he, ha, dfVerdict]
        rcases hc x y hx hy with h | h
        · rw [h]; rfl
        · rw [h]; rfl
  · rw [if_neg hcov, if_neg hcov]
    rfl

mutual
theorem df_run_entry (hf : ∀ p, o.fails p = none) (e : BEntry) (d : List Bytes) (s : DfSt) (h0 : s.skip = 0) (ha : s.adir = d) (hd : s.fdir = d)
    (hc : ∀ p f x y, OccursIn [e] p f → f.obj stars = some x → fs.obj (d ++ p) = some y → (cmpInode o x y = .ok () ∨ cmpInode o x y = .error .range)) :
    dfLoop o stars fs s e.events = .ok (s.plus (wordsOf o stars fs d e)) := by
  have leaf : ∀ e : BEntry, e.isDir = false → (∀ p f x y, OccursIn [e] p f → f.obj stars = some x → fs.obj (d ++ p) = some y → (cmpInode o x y = .ok () ∨ cmpInode o x y = .error .range)) →
      dfLoop o stars fs s [.entry e] = .ok (s.plus (wordsOf.wordLeaf o fs (d ++ [e.name]) (o.names e.name) (e.obj stars))) :=
    fun e he hc => df_leaf_run hf e he d s h0 ha hd (fun x y hx hy => hc [e.name] e x y (.here (by simp)) hx hy)
  cases e with
  | node x => exact (leaf _ rfl hc).trans (by unfold wordsOf; rfl)
  | mirage n k => exact (leaf _ rfl hc).trans (by unfold wordsOf; rfl)
  | detruit n k t => exact (leaf _ rfl hc).trans (by unfold wordsOf; rfl)
  | ignored n => exact (leaf _ rfl hc).trans (by unfold wordsOf; rfl)
  | ignoredDir x => exact (leaf _ rfl hc).trans (by unfold wordsOf; rfl)
  | dir x c =>
    subst hd
    unfold BEntry.events wordsOf
    show (dfStep o stars fs s (.entry (.dir x c))).bind _ = _
    have hn : BEntry.name (.dir x c) = x.name := rfl
    have skipped : ∀ w, (dfLoop o stars fs { s.plus [w] with skip := 1 } (BEntry.eventsList c ++ [.eod])) = .ok (s.plus [w]) := by
      intro w
      rw [dfLoop_append, dfSkip_list c _ 0 rfl]
      show dfLoop o stars fs _ [.eod] = _
      rw [eod_skip _ 0 rfl]
      congr 1
      show ({ s.plus [w] with skip := 0 } : DfSt) = s.plus [w]
      rw [← h0]
      rfl
    by_cases hcov : o.subtree (s.fdir ++ [x.name]) = true
    · rw [if_pos hcov]
      cases hy : fs.obj (s.fdir ++ [x.name]) with
      | none =>
        have h1 : dfStep o stars fs s (.entry (.dir x c)) = .ok { s.plus [(.diff, s.fdir ++ [x.name])] with skip := 1 } := by
          unfold dfStep
          rw [if_neg (by omega)]
          simp only [hn, ha, BEntry.isDir, hcov, Bool.true_or, Bool.and_self, if_true, BEntry.obj]
          unfold DfSt.inode
          simp only [hn, hf, hy, ha, BEntry.isDir, if_true]
          rfl
        rw [h1]
        exact skipped _
      | some y =>
        have hcc := hc [x.name] (.dir x c) x y (.here (e := .dir x c) (by simp)) rfl hy
        have h1 : dfStep o stars fs s (.entry (.dir x c)) =
            .ok (if y.ino.kind = .dir then (s.plus [(dfVerdict o x y, s.fdir ++ [x.name])]).into x.name else { s.plus [(dfVerdict o x y, s.fdir ++ [x.name])] with skip := 1 }) := by
          unfold dfStep
          rw [if_neg (by omega)]
          simp only [hn, ha, BEntry.isDir, hcov, Bool.true_or, Bool.and_self, if_true, BEntry.obj]
          unfold DfSt.inode
          simp only [hn, hf, hy]
          unfold DfSt.against
          simp only [hn, ha, BEntry.isDir, if_true, dfVerdict]
          rcases hcc with h | h
          · rw [h]; rfl
          · rw [h]; rfl
        rw [h1]
        by_cases hk : y.ino.kind = .dir
        · rw [if_pos hk]
          dsimp only
          rw [if_pos hk]
          show dfLoop o stars fs _ (BEntry.eventsList c ++ [.eod]) = _
          rw [dfLoop_append, run_list_df hf c (s.fdir ++ [x.name]) ((s.plus [(dfVerdict o x y, s.fdir ++ [x.name])]).into x.name) h0 (by show s.adir ++ [x.name] = _; rw [ha]) rfl
            (fun p f a b h hx hb => hc (x.name :: p) f a b (.inside (by simp) h) hx (by rw [← hb]; simp))]
          show dfLoop o stars fs _ [.eod] = _
          refine (eod_up _ ?_ ?_).trans ?_
          · exact h0
          · show s.fdir ++ [x.name] ≠ []; simp
          congr 1
          rw [← plus_plus]
          show DfSt.mk _ _ _ _ _ = DfSt.mk _ _ _ _ _
          congr 1
          · show (s.adir ++ [x.name]).dropLast = s.adir; simp
          · show (s.fdir ++ [x.name]).dropLast = s.fdir; simp
        · rw [if_neg hk]
          dsimp only
          rw [if_neg hk]
          exact skipped _
    · rw [if_neg hcov]
      have h1 : dfStep o stars fs s (.entry (.dir x c)) = .ok { s.plus [(.skipped, s.fdir ++ [x.name])] with skip := 1 } := by
        unfold dfStep
        rw [if_neg (by omega)]
        simp only [hn, ha, BEntry.isDir, hcov, Bool.true_or, Bool.false_and, if_false, if_true]
        rfl
      rw [h1]
      exact skipped _
theorem run_list_df (hf : ∀ p, o.fails p = none) (l : List BEntry) (d : List Bytes) (s : DfSt) (h0 : s.skip = 0) (ha : s.adir = d) (hd : s.fdir = d)
    (hc : ∀ p f x y, OccursIn l p f → f.obj stars = some x → fs.obj (d ++ p) = some y → (cmpInode o x y = .ok () ∨ cmpInode o x y = .error .range)) :
    dfLoop o stars fs s (BEntry.eventsList l) = .ok (s.plus (wordsList o stars fs d l)) := by
  cases l with
  | nil => unfold BEntry.eventsList wordsList; rfl
  | cons e l =>
    unfold BEntry.eventsList wordsList
    rw [dfLoop_append, df_run_entry hf e d s h0 ha hd (fun p f x y h => hc p f x y h.single)]
    show dfLoop o stars fs _ _ = _
    rw [run_list_df hf l d (s.plus (wordsOf o stars fs d e)) h0 ha hd (fun p f x y h => hc p f x y h.cons), plus_plus]
end

/-! ### which words -/

/-- the word for an entry -/
def headWord (o : DfOpts) (stars : Nat → Obj) (fs : FS) (p : List Bytes) (e : BEntry) : DfWord :=
  if o.subtree p && (e.isDir || o.names e.name) then
    match e.obj stars with
    | none => .silent
    | some x => match fs.obj p with
      | none => .diff
      | some y => dfVerdict o x y
  else .skipped
/-- the walk goes inside the directory at this path -/
def GoesIn (o : DfOpts) (fs : FS) (p : List Bytes) : Prop := o.subtree p = true ∧ ∃ y, fs.obj p = some y ∧ y.ino.kind = .dir

theorem wordsOf_leaf (d : List Bytes) (e : BEntry) (he : e.isDir = false) : wordsOf o stars fs d e = [(headWord o stars fs (d ++ [e.name]) e, d ++ [e.name])] := by
  have key : ∀ (n : Bytes) (x : Option Obj), wordsOf.wordLeaf o fs (d ++ [n]) (o.names n) x = [((if o.subtree (d ++ [n]) && o.names n then match x with
      | none => .silent
      | some x => match fs.obj (d ++ [n]) with
        | none => .diff
        | some y => dfVerdict o x y
      else .skipped), d ++ [n])] := by
    intro n x
    unfold wordsOf.wordLeaf
    split
    · cases x with
      | none => rfl
      | some x => cases fs.obj (d ++ [n]) <;> rfl
    · rfl
  cases e with
  | dir x c => cases he
  | node x => unfold wordsOf; exact key _ _
  | mirage n k => unfold wordsOf; exact key _ _
  | detruit n k t => unfold wordsOf; exact key _ _
  | ignored n => unfold wordsOf; exact key _ _
  | ignoredDir x => unfold wordsOf; exact key _ _
theorem wordsOf_dir (d : List Bytes) (x : Obj) (c : List BEntry) :
    ∃ sub, wordsOf o stars fs d (.dir x c) = sub ++ [(headWord o stars fs (d ++ [x.name]) (.dir x c), d ++ [x.name])] ∧
      (GoesIn o fs (d ++ [x.name]) ∧ sub = wordsList o stars fs (d ++ [x.name]) c ∨ ¬ GoesIn o fs (d ++ [x.name]) ∧ sub = []) := by
  have hn : BEntry.name (.dir x c) = x.name := rfl
  unfold wordsOf headWord GoesIn
  simp only [BEntry.isDir, Bool.true_or, Bool.and_true, BEntry.obj]
  by_cases hc : o.subtree (d ++ [x.name]) = true
  · rw [if_pos hc, if_pos hc]
    cases hy : fs.obj (d ++ [x.name]) with
    | none => exact ⟨[], rfl, Or.inr ⟨(by rintro ⟨-, y, h, -⟩; cases h), rfl⟩⟩
    | some y =>
      dsimp only
      by_cases hk : y.ino.kind = .dir
      · rw [if_pos hk]; exact ⟨_, rfl, Or.inl ⟨⟨hc, y, rfl, hk⟩, rfl⟩⟩
      · rw [if_neg hk]; exact ⟨_, rfl, Or.inr ⟨(by rintro ⟨-, z, h, h2⟩; cases h; exact hk h2), rfl⟩⟩
  · rw [if_neg hc, if_neg hc]
    exact ⟨[], rfl, Or.inr ⟨fun h => hc h.1, rfl⟩⟩

theorem df_mem_head {l : List BEntry} {p : List Bytes} {e : BEntry} (h : OccursIn l p e) : p ≠ [] := by
  cases h <;> simp

mutual
theorem words_entry (e : BEntry) (d : List Bytes) (w : DfWord) (q : List Bytes) : (w, q) ∈ wordsOf o stars fs d e ↔
    ∃ p f, q = d ++ p ∧ OccursIn [e] p f ∧ (∀ r, r ≠ [] → r <+: p → r ≠ p → GoesIn o fs (d ++ r)) ∧ w = headWord o stars fs q f := by
  have leaf : ∀ e : BEntry, e.isDir = false → ((w, q) ∈ wordsOf o stars fs d e ↔
    ∃ p f, q = d ++ p ∧ OccursIn [e] p f ∧ (∀ r, r ≠ [] → r <+: p → r ≠ p → GoesIn o fs (d ++ r)) ∧ w = headWord o stars fs q f) := by
    intro e he
    rw [wordsOf_leaf d e he, List.mem_singleton, Prod.mk.injEq]
    constructor
    · rintro ⟨h1, h2⟩
      refine ⟨[e.name], e, h2, .here (by simp), fun r h1 h2 h3 => ?_, by rw [h2]; exact h1⟩
      rcases r with _ | ⟨a, r⟩
      · exact absurd rfl h1
      · have := h2.length_le
        simp only [List.length_cons, List.length_nil] at this
        exact absurd (h2.eq_of_length (by simp only [List.length_cons, List.length_nil]; omega)) h3
    · rintro ⟨p, f, h1, h2, -, h4⟩
      cases h2 with
      | here h => cases List.mem_singleton.1 h; exact ⟨by rw [h4, h1], h1⟩
      | inside h h' => cases List.mem_singleton.1 h; cases he
  cases e with
  | node x => exact leaf _ rfl
  | mirage n k => exact leaf _ rfl
  | detruit n k t => exact leaf _ rfl
  | ignored n => exact leaf _ rfl
  | ignoredDir x => exact leaf _ rfl
  | dir x c =>
    obtain ⟨sub, h1, h2⟩ := wordsOf_dir (o := o) (stars := stars) (fs := fs) d x c
    rw [h1, List.mem_append, List.mem_singleton, Prod.mk.injEq]
    have ih := words_list c (d ++ [x.name]) w q
    constructor
    · rintro (h | ⟨h3, h4⟩)
      · rcases h2 with ⟨hg, rfl⟩ | ⟨hg, rfl⟩
        · obtain ⟨p, f, g1, g2, g3, g4⟩ := ih.1 h
          refine ⟨x.name :: p, f, by rw [g1]; simp, .inside (by simp) g2, fun r hr1 hr2 hr3 => ?_, g4⟩
          rcases r with _ | ⟨a, r⟩
          · exact absurd rfl hr1
          · obtain ⟨t, ht⟩ := hr2
            rw [List.cons_append, List.cons.injEq] at ht
            obtain ⟨rfl, ht⟩ := ht
            by_cases hr : r = []
            · subst hr; exact hg
            · have := g3 r hr ⟨t, ht⟩ (fun hh => hr3 (by rw [hh]))
              simpa using this
        · cases h
      · refine ⟨[x.name], .dir x c, h4, .here (e := .dir x c) (by simp), fun r h1 h2 h3 => ?_, by rw [h4]; exact h3⟩
        rcases r with _ | ⟨a, r⟩
        · exact absurd rfl h1
        · have := h2.length_le
          simp only [List.length_cons, List.length_nil] at this
          exact absurd (h2.eq_of_length (by simp only [List.length_cons, List.length_nil]; omega)) h3
    · rintro ⟨p, f, g1, g2, g3, g4⟩
      cases g2 with
      | here h => cases List.mem_singleton.1 h; exact Or.inr ⟨by rw [g4, g1]; rfl, g1⟩
      | @inside _ x' c' p' _ h h' =>
        cases List.mem_singleton.1 h
        left
        have hp := df_mem_head h'
        have hg := g3 [x.name] (by simp) ⟨p', by simp⟩ (by simpa using hp.symm)
        rcases h2 with ⟨-, rfl⟩ | ⟨hn, -⟩
        · refine ih.2 ⟨p', f, by rw [g1]; simp, h', fun r hr1 hr2 hr3 => ?_, g4⟩
          have := g3 (x.name :: r) (by simp) (by obtain ⟨t, ht⟩ := hr2; exact ⟨t, by rw [← ht]; rfl⟩) (by simpa using hr3)
          simpa using this
        · exact absurd hg hn
theorem words_list (l : List BEntry) (d : List Bytes) (w : DfWord) (q : List Bytes) : (w, q) ∈ wordsList o stars fs d l ↔
    ∃ p f, q = d ++ p ∧ OccursIn l p f ∧ (∀ r, r ≠ [] → r <+: p → r ≠ p → GoesIn o fs (d ++ r)) ∧ w = headWord o stars fs q f := by
  cases l with
  | nil =>
    unfold wordsList
    constructor
    · intro h; cases h
    · rintro ⟨p, f, -, h, -⟩
      cases h with
      | here h => cases h
      | inside h _ => cases h
  | cons e l =>
    unfold wordsList
    rw [List.mem_append, words_list l d w q, words_entry e d w q]
    constructor
    · rintro (⟨p, f, h1, h2, h3⟩ | ⟨p, f, h1, h2, h3⟩)
      · exact ⟨p, f, h1, h2.cons, h3⟩
      · exact ⟨p, f, h1, h2.single, h3⟩
    · rintro ⟨p, f, h1, h2, h3⟩
      rcases h2.split with h2 | h2
      · exact Or.inr ⟨p, f, h1, h2, h3⟩
      · exact Or.inl ⟨p, f, h1, h2, h3⟩
end

/-! ### each entry once -/

mutual
theorem words_nodup_entry (e : BEntry) (d : List Bytes) (hd : BEntry.Distinct e) : ((wordsOf o stars fs d e).map (·.2)).Nodup ∧ ∀ q ∈ (wordsOf o stars fs d e).map (·.2), d ++ [e.name] <+: q := by
  have leaf : ∀ e : BEntry, e.isDir = false → ((wordsOf o stars fs d e).map (·.2)).Nodup ∧ ∀ q ∈ (wordsOf o stars fs d e).map (·.2), d ++ [e.name] <+: q := by
    intro e he
    rw [wordsOf_leaf d e he]
    refine ⟨by simp, fun q hq => ?_⟩
    simp only [List.map_cons, List.map_nil, List.mem_singleton] at hq
    rw [hq]
    exact List.prefix_refl _
  cases e with
  | node x => exact leaf _ rfl
  | mirage n k => exact leaf _ rfl
  | detruit n k t => exact leaf _ rfl
  | ignored n => exact leaf _ rfl
  | ignoredDir x => exact leaf _ rfl
  | dir x c =>
    obtain ⟨sub, h1, h2⟩ := wordsOf_dir (o := o) (stars := stars) (fs := fs) d x c
    rw [h1]
    unfold BEntry.Distinct at hd
    have ih := words_nodup_list c (d ++ [x.name]) hd
    have hsub : (sub.map (·.2)).Nodup ∧ ∀ q ∈ sub.map (·.2), d ++ [x.name] <+: q ∧ q ≠ d ++ [x.name] := by
      rcases h2 with ⟨-, rfl⟩ | ⟨-, rfl⟩
      · refine ⟨ih.1, fun q hq => ?_⟩
        obtain ⟨e, he, hp⟩ := ih.2 q hq
        refine ⟨List.IsPrefix.trans ⟨[e.name], rfl⟩ hp, fun h => ?_⟩
        rw [h] at hp
        have := hp.length_le
        simp at this
      · exact ⟨by simp, fun q hq => by cases hq⟩
    rw [List.map_append]
    constructor
    · rw [List.nodup_append]
      refine ⟨hsub.1, by simp, ?_⟩
      intro a ha b hb hab
      simp only [List.map_cons, List.map_nil, List.mem_singleton] at hb
      exact (hsub.2 a ha).2 (hab.trans hb)
    · intro q hq
      rcases List.mem_append.1 hq with h | h
      · exact (hsub.2 q h).1
      · simp only [List.map_cons, List.map_nil, List.mem_singleton] at h
        rw [h]; exact List.prefix_refl _
theorem words_nodup_list (l : List BEntry) (d : List Bytes) (hd : BEntry.DistinctL l) :
    ((wordsList o stars fs d l).map (·.2)).Nodup ∧ ∀ q ∈ (wordsList o stars fs d l).map (·.2), ∃ e ∈ l, d ++ [e.name] <+: q := by
  cases l with
  | nil => unfold wordsList; exact ⟨by simp, fun q hq => by cases hq⟩
  | cons e l =>
    unfold BEntry.DistinctL at hd
    have h1 := words_nodup_entry e d hd.1
    have h2 := words_nodup_list l d hd.2.2
    unfold wordsList
    rw [List.map_append]
    constructor
    · rw [List.nodup_append]
      refine ⟨h2.1, h1.1, ?_⟩
      rintro a ha b hb rfl
      obtain ⟨f, hf, hp⟩ := h2.2 a ha
      have hp' := h1.2 a hb
      have := List.prefix_of_prefix_length_le hp hp' (by simp)
      have := this.eq_of_length (by simp)
      have : f.name = e.name := by simpa using this
      exact hd.2.1 f hf this
    · intro q hq
      rcases List.mem_append.1 hq with h | h
      · obtain ⟨f, hf, hp⟩ := h2.2 q h
        exact ⟨f, List.mem_cons_of_mem _ hf, hp⟩
      · exact ⟨e, List.mem_cons_self, h1.2 q h⟩
end

theorem tally_counts (l : List (DfWord × List Bytes)) (st : Stats) :
    (tally l st).treated = st.treated + (l.countP (fun w => decide (w.1 = .ok)) + l.countP (fun w => decide (w.1 = .silent))) ∧
    (tally l st).errored = st.errored + l.countP (fun w => decide (w.1 = .diff)) ∧ (tally l st).ignored = st.ignored + l.countP (fun w => decide (w.1 = .skipped)) := by
  induction l with
  | nil => exact ⟨rfl, rfl, rfl⟩
  | cons w l ih =>
    obtain ⟨w, p⟩ := w
    obtain ⟨h1, h2, h3⟩ := ih
    show (tally1 (tally l st) w).treated = _ ∧ (tally1 (tally l st) w).errored = _ ∧ (tally1 (tally l st) w).ignored = _
    cases w <;> simp [tally1, Stats.err, Stats.ign, h1, h2, h3] <;> omega

end Dar
