import Verif.Lemmas.ReadSource
/- The entries read are those of the walk. -/
namespace Dar

/-! ### unfolding the loop of the caller -/

def afterRead (o : RdOpts) (hist : Nat → FsView) (skip : List Bytes → Bool) (f : Nat) (before : List Bytes) (r : RdOut) : Res RdRun :=
  match r.entry with
  | none => .ok ⟨[], 0, 0, r.errors, r.dumps, r.st.links⟩
  | some e => (enterDir skip (rdPath before r.st.cur e) e r.st).bind fun s' =>
      (rdLoopAll o hist skip f s').bind fun rest => .ok (rest.cons (rdPath before r.st.cur e, e) r.errors r.dumps)
def runFrom (o : RdOpts) (hist : Nat → FsView) (skip : List Bytes → Bool) (f : Nat) (cur : List Bytes) (rest : List (List Bytes)) (top : List Bytes) (t : Nat) (k : LinkSt) (er du : Nat) : Res RdRun :=
  (rdLoop o hist cur rest top t k er du).bind (afterRead o hist skip f cur)
theorem rdLoopAll_succ (o : RdOpts) (hist : Nat → FsView) (skip : List Bytes → Bool) (f : Nat) (cur : List Bytes) (rest : List (List Bytes)) (top : List Bytes) (t : Nat) (k : LinkSt) :
    rdLoopAll o hist skip (f + 1) ⟨top :: rest, cur, t, k⟩ = runFrom o hist skip f cur rest top t k 0 0 := by
  show (rdLoop o hist cur rest top t k 0 0).bind _ = _
  unfold runFrom
  congr 1
theorem rdLoopAll_nil (o : RdOpts) (hist : Nat → FsView) (skip : List Bytes → Bool) (f : Nat) (cur : List Bytes) (t : Nat) (k : LinkSt) :
    rdLoopAll o hist skip (f + 1) ⟨[], cur, t, k⟩ = .ok ⟨[], 0, 0, 0, 0, k⟩ := rfl

/-! ### one turn -/

section
variable {o : RdOpts} {hist : Nat → FsView} {cur : List Bytes} {rest : List (List Bytes)} {n : Bytes} {l : List Bytes} {t : Nat} {k : LinkSt} {er du : Nat}
theorem rdLoop_flagged (h : o.nodump = true ∧ (hist t).nodump (cur ++ [n]) = true) : rdLoop o hist cur rest (n :: l) t k er du = rdLoop o hist cur rest l (t + 1) k er (du + 1) := by
  rw [rdLoop, if_pos (by simp [h])]
theorem rdLoop_unread (h : ¬ (o.nodump = true ∧ (hist t).nodump (cur ++ [n]) = true)) {a : LookAns} (ha : (hist t).look (cur ++ [n]) = a) (hna : ∀ st, a ≠ .ok st) :
    rdLoop o hist cur rest (n :: l) t k er du = rdLoop o hist cur rest l (t + 1) k (er + if a = .failed then 1 else 0) du := by
  rw [rdLoop, if_neg (by simpa using h)]
  unfold makeRead
  rw [ha]
  cases a with
  | ok st => exact absurd rfl (hna st)
  | denied => simp
  | gone => simp
  | failed => simp
  | strange => simp
theorem rdLoop_file (h : ¬ (o.nodump = true ∧ (hist t).nodump (cur ++ [n]) = true)) {st : FsStat} (ha : (hist t).look (cur ++ [n]) = .ok st) (hd : st.obj.ino.kind ≠ .dir) :
    rdLoop o hist cur rest (n :: l) t k er du = .ok ⟨some (linkStep k n st).1, ⟨l :: rest, cur, t + 1, (linkStep k n st).2⟩, er, du⟩ := by
  rw [rdLoop, if_neg (by simpa using h)]
  unfold makeRead
  rw [ha]
  dsimp only
  have : ∀ x, (linkStep k n st).1 ≠ .dir x := by
    intro x
    unfold linkStep
    rw [if_neg hd]
    by_cases hn : st.nlink > 1
    · rw [if_pos hn]
      cases k.corres.lookup (st.ino, st.dev) <;> simp
    · rw [if_neg hn]; simp
  generalize linkStep k n st = q at this ⊢
  obtain ⟨e, k'⟩ := q
  cases e with
  | dir x => exact absurd rfl (this x)
  | _ => rfl
theorem rdLoop_dir (h : ¬ (o.nodump = true ∧ (hist t).nodump (cur ++ [n]) = true)) {st : FsStat} (ha : (hist t).look (cur ++ [n]) = .ok st) (hd : st.obj.ino.kind = .dir) :
    rdLoop o hist cur rest (n :: l) t k er du =
      .ok ⟨some (.dir { st.obj with name := n }), ⟨openedNames o (hist (t + 1)) (cur ++ [n]) :: l :: rest, cur ++ [n], t + 2, k⟩, er, du⟩ := by
  rw [rdLoop, if_neg (by simpa using h)]
  unfold makeRead
  rw [ha]
  dsimp only
  rw [linkStep_dir n hd]
end

theorem linkStep_path {k : LinkSt} {n : Bytes} {st : FsStat} (hd : st.obj.ino.kind ≠ .dir) (before cur : List Bytes) :
    rdPath before cur (linkStep k n st).1 = cur ++ [n] ∧ ∀ skip p s, enterDir skip p (linkStep k n st).1 s = .ok s := by
  unfold linkStep
  rw [if_neg hd]
  by_cases hn : st.nlink > 1
  · rw [if_pos hn]
    cases k.corres.lookup (st.ino, st.dev) <;> exact ⟨rfl, fun _ _ _ => rfl⟩
  · rw [if_neg hn]; exact ⟨rfl, fun _ _ _ => rfl⟩

/-! ### any history -/

def cntFailed (ws : List WalkEv) : Nat := (ws.filter WalkEv.isFailed).length
def cntFlagged (ws : List WalkEv) : Nat := (ws.filter WalkEv.isFlagged).length
structure Reads (o : RdOpts) (hist : Nat → FsView) (k : LinkSt) (er du : Nat) (r : RdRun) (ws : List WalkEv) : Prop where
  kinds : ∀ w ∈ ws, KindOk w
  answers : ∀ w ∈ ws, Answered o hist w
  events : r.events = (emitAll k ws).1
  links : r.links = (emitAll k ws).2
  errors : r.errored + r.lastErrors = er + cntFailed ws
  dumps : r.ignored + r.lastDumps = du + cntFlagged ws
theorem runFrom_reads {o : RdOpts} {hist : Nat → FsView} {skip : List Bytes → Bool} {f : Nat}
    (ih : ∀ s r, rdLoopAll o hist skip f s = .ok r → ∃ ws, Reads o hist s.links 0 0 r ws) (cur : List Bytes) (rest : List (List Bytes)) (top : List Bytes) :
    ∀ t k er du r, runFrom o hist skip f cur rest top t k er du = .ok r → ∃ ws, Reads o hist k er du r ws := by
  induction top with
  | nil =>
    intro t k er du r h
    unfold runFrom rdLoop at h
    cases rest with
    | nil =>
      cases h
      exact ⟨[], ⟨by simp, by simp, rfl, rfl, by simp [cntFailed], by simp [cntFlagged]⟩⟩
    | cons x rest =>
      dsimp only at h
      cases hp : popDir cur with
      | error e => rw [hp] at h; cases h
      | ok c =>
        rw [hp] at h
        simp only [Except.map, Except.bind, afterRead, enterDir, rdPath] at h
        cases hr : rdLoopAll o hist skip f ⟨x :: rest, c, t, k⟩ with
        | error e => rw [hr] at h; cases h
        | ok r2 =>
          rw [hr] at h
          cases h
          obtain ⟨ws, hw⟩ := ih _ _ hr
          refine ⟨.eod cur :: ws, ⟨?_, ?_, ?_, ?_, ?_, ?_⟩⟩
          · intro w hwm; rcases List.mem_cons.mp hwm with rfl | hwm; trivial; exact hw.kinds w hwm
          · intro w hwm; rcases List.mem_cons.mp hwm with rfl | hwm; trivial; exact hw.answers w hwm
          · simp [RdRun.cons, emitAll, hw.events]
          · simp [RdRun.cons, emitAll, hw.links]
          · have := hw.errors; simp [RdRun.cons, cntFailed, WalkEv.isFailed] at this ⊢; omega
          · have := hw.dumps; simp [RdRun.cons, cntFlagged, WalkEv.isFlagged] at this ⊢; omega
  | cons n l ihl =>
    intro t k er du r h
    have hlast : (cur ++ [n]).getLastD [] = n := by simp
    by_cases hf : o.nodump = true ∧ (hist t).nodump (cur ++ [n]) = true
    · unfold runFrom at h
      rw [rdLoop_flagged hf] at h
      obtain ⟨ws, hw⟩ := ihl _ _ _ _ _ h
      refine ⟨.flagged (cur ++ [n]) :: ws, ⟨?_, ?_, ?_, ?_, ?_, ?_⟩⟩
      · intro w hwm; rcases List.mem_cons.mp hwm with rfl | hwm; trivial; exact hw.kinds w hwm
      · intro w hwm; rcases List.mem_cons.mp hwm with rfl | hwm; exact ⟨hf.1, t, hf.2⟩; exact hw.answers w hwm
      · simp [emitAll, hw.events]
      · simp [emitAll, hw.links]
      · have := hw.errors; simp [cntFailed, WalkEv.isFailed] at this ⊢; omega
      · have := hw.dumps
        unfold cntFlagged at this ⊢
        rw [List.filter_cons_of_pos rfl, List.length_cons]; omega
    · by_cases hok : ∃ st, (hist t).look (cur ++ [n]) = .ok st
      · obtain ⟨st, hst⟩ := hok
        unfold runFrom at h
        by_cases hd : st.obj.ino.kind = .dir
        · rw [rdLoop_dir hf hst hd] at h
          replace h : (if skip (cur ++ [n]) = true then rdSkip ⟨openedNames o (hist (t + 1)) (cur ++ [n]) :: l :: rest, cur ++ [n], t + 2, k⟩
            else .ok ⟨openedNames o (hist (t + 1)) (cur ++ [n]) :: l :: rest, cur ++ [n], t + 2, k⟩).bind (fun s' => (rdLoopAll o hist skip f s').bind fun rest =>
              .ok (rest.cons (cur ++ [n], .dir { st.obj with name := n }) er du)) = .ok r := h
          have hgo : ∃ s r2, s.links = k ∧ rdLoopAll o hist skip f s = .ok r2 ∧ r2.cons (cur ++ [n], .dir { st.obj with name := n }) er du = r := by
            by_cases hs : skip (cur ++ [n]) = true
            · rw [if_pos hs] at h
              have : rdSkip ⟨openedNames o (hist (t + 1)) (cur ++ [n]) :: l :: rest, cur ++ [n], t + 2, k⟩ = .ok ⟨l :: rest, cur, t + 2, k⟩ := by
                unfold rdSkip popDir
                simp [Except.map]
              rw [this] at h
              replace h : (rdLoopAll o hist skip f ⟨l :: rest, cur, t + 2, k⟩).bind _ = _ := h
              cases hr : rdLoopAll o hist skip f ⟨l :: rest, cur, t + 2, k⟩ with
              | error e => rw [hr] at h; cases h
              | ok r2 => rw [hr] at h; exact ⟨_, r2, rfl, hr, by cases h; rfl⟩
            · rw [if_neg hs] at h
              replace h : (rdLoopAll o hist skip f ⟨openedNames o (hist (t + 1)) (cur ++ [n]) :: l :: rest, cur ++ [n], t + 2, k⟩).bind _ = _ := h
              cases hr : rdLoopAll o hist skip f ⟨openedNames o (hist (t + 1)) (cur ++ [n]) :: l :: rest, cur ++ [n], t + 2, k⟩ with
              | error e => rw [hr] at h; cases h
              | ok r2 => rw [hr] at h; exact ⟨_, r2, rfl, hr, by cases h; rfl⟩
          obtain ⟨s, r2, hs, hr2, rfl⟩ := hgo
          obtain ⟨ws, hw⟩ := ih s r2 hr2
          rw [hs] at hw
          refine ⟨.dir (cur ++ [n]) st :: ws, ⟨?_, ?_, ?_, ?_, ?_, ?_⟩⟩
          · intro w hwm; rcases List.mem_cons.mp hwm with rfl | hwm; exact hd; exact hw.kinds w hwm
          · intro w hwm; rcases List.mem_cons.mp hwm with rfl | hwm; exact ⟨t, hst⟩; exact hw.answers w hwm
          · simp [RdRun.cons, emitAll, linkStep_dir _ hd, hw.events]
          · simp [RdRun.cons, emitAll, linkStep_dir _ hd, hw.links]
          · have := hw.errors; simp [RdRun.cons, cntFailed, WalkEv.isFailed] at this ⊢; omega
          · have := hw.dumps; simp [RdRun.cons, cntFlagged, WalkEv.isFlagged] at this ⊢; omega
        · rw [rdLoop_file hf hst hd] at h
          obtain ⟨hp1, hp2⟩ := linkStep_path (k := k) (n := n) hd cur cur
          simp only [Except.bind, afterRead, hp1, hp2] at h
          cases hr : rdLoopAll o hist skip f ⟨l :: rest, cur, t + 1, (linkStep k n st).2⟩ with
          | error e => rw [hr] at h; cases h
          | ok r2 =>
            rw [hr] at h
            cases h
            obtain ⟨ws, hw⟩ := ih _ _ hr
            dsimp only at hw
            refine ⟨.file (cur ++ [n]) st :: ws, ⟨?_, ?_, ?_, ?_, ?_, ?_⟩⟩
            · intro w hwm; rcases List.mem_cons.mp hwm with rfl | hwm; exact hd; exact hw.kinds w hwm
            · intro w hwm; rcases List.mem_cons.mp hwm with rfl | hwm; exact ⟨t, hst⟩; exact hw.answers w hwm
            · simp only [RdRun.cons, emitAll, hlast, hw.events]
            · simp only [RdRun.cons, emitAll, hlast, hw.links]
            · have := hw.errors; simp [RdRun.cons, cntFailed, WalkEv.isFailed] at this ⊢; omega
            · have := hw.dumps; simp [RdRun.cons, cntFlagged, WalkEv.isFlagged] at this ⊢; omega
      · have hna : ∀ st, (hist t).look (cur ++ [n]) ≠ .ok st := fun st hst => hok ⟨st, hst⟩
        unfold runFrom at h
        rw [rdLoop_unread hf rfl hna] at h
        obtain ⟨ws, hw⟩ := ihl _ _ _ _ _ h
        refine ⟨.unread (cur ++ [n]) ((hist t).look (cur ++ [n])) :: ws, ⟨?_, ?_, ?_, ?_, ?_, ?_⟩⟩
        · intro w hwm; rcases List.mem_cons.mp hwm with rfl | hwm; trivial; exact hw.kinds w hwm
        · intro w hwm; rcases List.mem_cons.mp hwm with rfl | hwm; exact ⟨⟨t, rfl⟩, hna⟩; exact hw.answers w hwm
        · simp [emitAll, hw.events]
        · simp [emitAll, hw.links]
        · have := hw.errors
          generalize (hist t).look (cur ++ [n]) = a at this ⊢
          unfold cntFailed at this ⊢
          cases a with
          | failed => rw [List.filter_cons_of_pos rfl, List.length_cons]; rw [if_pos rfl] at this; omega
          | _ => rw [List.filter_cons_of_neg (by simp [WalkEv.isFailed])]; simpa using this
        · have := hw.dumps; simp [cntFlagged, WalkEv.isFlagged] at this ⊢; omega
theorem rdLoopAll_reads {o : RdOpts} {hist : Nat → FsView} {skip : List Bytes → Bool} (f : Nat) :
    ∀ s r, rdLoopAll o hist skip f s = .ok r → ∃ ws, Reads o hist s.links 0 0 r ws := by
  induction f with
  | zero => intro s r h; cases h
  | succ f ih =>
    intro s r h
    obtain ⟨pile, cur, t, k⟩ := s
    cases pile with
    | nil => rw [rdLoopAll_nil] at h; cases h; exact ⟨[], ⟨by simp, by simp, rfl, rfl, by simp [cntFailed], by simp [cntFlagged]⟩⟩
    | cons top rest =>
      rw [rdLoopAll_succ] at h
      exact runFrom_reads ih cur rest top t k 0 0 r h

/-! ### a filesystem that does not change -/

theorem etageLoop_names {o : RdOpts} {v : FsView} {dir : List Bytes} (l : List Bytes) (hl : ∀ n ∈ l, n ≠ [46] ∧ n ≠ [46, 46]) : ∀ acc,
    if o.cacheTag = true ∧ ∃ n ∈ l, cacheTagCheck n (v.head (dir ++ [n])) = true then (etageLoop o v dir l acc).2 = true else etageLoop o v dir l acc = (acc ++ l, false) := by
  induction l with
  | nil => intro acc; simp [etageLoop]
  | cons n l ih =>
    intro acc
    have hn := hl n (by simp)
    have := ih (fun m hm => hl m (by simp [hm])) (acc ++ [n])
    unfold etageLoop
    rw [if_neg (show ¬ (n = [46] ∨ n = [46, 46]) by tauto)]
    by_cases hc : o.cacheTag = true ∧ cacheTagCheck n (v.head (dir ++ [n])) = true
    · rw [if_pos (show (o.cacheTag && cacheTagCheck n (v.head (dir ++ [n]))) = true by simp [hc.1, hc.2])]
      rw [if_pos ⟨hc.1, n, by simp, hc.2⟩]
    · rw [if_neg (show ¬ (o.cacheTag && cacheTagCheck n (v.head (dir ++ [n]))) = true by simpa using hc)]
      by_cases h2 : o.cacheTag = true ∧ ∃ n ∈ l, cacheTagCheck n (v.head (dir ++ [n])) = true
      · rw [if_pos h2] at this
        rw [if_pos ⟨h2.1, by obtain ⟨m, hm, hm2⟩ := h2.2; exact ⟨m, by simp [hm], hm2⟩⟩]
        exact this
      · rw [if_neg h2] at this
        rw [if_neg (by
          rintro ⟨h3, m, hm, hm2⟩
          rcases List.mem_cons.mp hm with rfl | hm
          · exact hc ⟨h3, hm2⟩
          · exact h2 ⟨h3, m, hm, hm2⟩)]
        rw [this]; simp
theorem fsAt_snoc {root : List FsTree} {p : List Bytes} {n : Bytes} {d : Bool} {st : FsStat} {op : Bool} {ch : List FsTree} (h : fsAt root p = some (.dir n d st op ch)) (m : Bytes) :
    fsAt root (p ++ [m]) = ch.find? (fun e => e.name = m) := by
  induction p generalizing root with
  | nil => cases h
  | cons a p ih =>
    cases p with
    | nil =>
      replace h : root.find? (fun e => e.name = a) = _ := h
      show (match root.find? (fun e => e.name = a) with
        | some (.dir _ _ _ _ ch) => fsAt ch [m]
        | _ => none) = _
      rw [h]; rfl
    | cons b p =>
      replace h : (match root.find? (fun e => e.name = a) with
        | some (.dir _ _ _ _ ch) => fsAt ch (b :: p)
        | _ => none) = _ := h
      show (match root.find? (fun e => e.name = a) with
        | some (.dir _ _ _ _ ch) => fsAt ch (b :: p ++ [m])
        | _ => none) = _
      cases hf : root.find? (fun e => e.name = a) with
      | none => rw [hf] at h; cases h
      | some x =>
        rw [hf] at h
        cases x with
        | item _ _ _ _ => cases h
        | dir _ _ _ _ ch2 => exact ih h
theorem find_name {l : List FsTree} (hn : (l.map FsTree.name).Nodup) {e : FsTree} (he : e ∈ l) : l.find? (fun x => x.name = e.name) = some e := by
  induction l with
  | nil => cases he
  | cons x l ih =>
    rw [List.map_cons, List.nodup_cons] at hn
    rw [List.find?_cons]
    rcases List.mem_cons.mp he with rfl | he
    · simp
    · have : x.name ≠ e.name := fun h => hn.1 (h ▸ List.mem_map_of_mem he)
      simp [this, ih hn.2 he]
def LocatedIn (root : List FsTree) (p : List Bytes) (l : List FsTree) : Prop := ∀ e ∈ l, fsAt root (p ++ [e.name]) = some e
theorem LocatedIn.child {root : List FsTree} {p : List Bytes} {l : List FsTree} (h : LocatedIn root p l) {n : Bytes} {d : Bool} {st : FsStat} {op : Bool} {ch : List FsTree}
    (hm : .dir n d st op ch ∈ l) (hn : (ch.map FsTree.name).Nodup) : LocatedIn root (p ++ [n]) ch := by
  intro e he
  have h1 : fsAt root (p ++ [n]) = some (.dir n d st op ch) := h _ hm
  rw [fsAt_snoc h1, find_name hn he]
theorem cacheTagCheck_iff (n : Bytes) (h : Option Bytes) : cacheTagCheck n h = true ↔ n = cacheTagName ∧ ∃ b, h = some b ∧ cacheTagText <+: b := by
  unfold cacheTagCheck
  by_cases hn : n = cacheTagName
  · rw [if_neg (by simpa using hn)]
    cases h with
    | none => simp
    | some b =>
      dsimp only
      by_cases hl : b.length < cacheTagText.length
      · rw [if_pos hl]
        simp only [Bool.false_eq_true, false_iff]
        rintro ⟨-, b', hb', hp⟩
        cases hb'
        have := hp.length_le
        omega
      · rw [if_neg hl, beq_iff_eq]
        constructor
        · intro he; exact ⟨hn, b, rfl, List.prefix_iff_eq_take.mpr he.symm⟩
        · rintro ⟨-, b', hb', r, hr⟩
          cases hb'
          rw [← hr]; simp
  · rw [if_pos hn]; simp [hn]
theorem etageOpen_view {o : RdOpts} {v : FsView} {dir : List Bytes} {ch : List FsTree} (hl : v.listing dir = some ([[46], [46, 46]] ++ ch.map FsTree.name))
    (hh : ∀ e ∈ ch, v.head (dir ++ [e.name]) = e.head) (hn : ∀ e ∈ ch, isName e.name) : (o.cacheTag = true ∧ IsCache ch → etageOpen o v dir = some []) ∧
      (¬ (o.cacheTag = true ∧ IsCache ch) → etageOpen o v dir = some (ch.map FsTree.name)) := by
  have hiff : (∃ n ∈ ch.map FsTree.name, cacheTagCheck n (v.head (dir ++ [n])) = true) ↔ IsCache ch := by
    constructor
    · rintro ⟨n, hm, hc⟩
      obtain ⟨e, he, rfl⟩ := List.mem_map.mp hm
      rw [hh e he, cacheTagCheck_iff] at hc
      exact ⟨e, he, hc.1, hc.2⟩
    · rintro ⟨e, he, h1, h2⟩
      refine ⟨e.name, List.mem_map_of_mem he, ?_⟩
      rw [hh e he, cacheTagCheck_iff]
      exact ⟨h1, h2⟩
  have := etageLoop_names (o := o) (v := v) (dir := dir) (ch.map FsTree.name) (by
    intro n hm
    obtain ⟨e, he, rfl⟩ := List.mem_map.mp hm
    exact ⟨(hn e he).2.2.1, (hn e he).2.2.2⟩) []
  unfold etageOpen
  rw [hl]
  have e2 : etageLoop o v dir ([[46], [46, 46]] ++ ch.map FsTree.name) [] = etageLoop o v dir (ch.map FsTree.name) [] := rfl
  dsimp only
  rw [e2]
  constructor
  · intro h
    rw [if_pos ⟨h.1, hiff.mpr h.2⟩] at this
    rw [if_pos this]
  · intro h
    rw [if_neg (fun h2 => h ⟨h2.1, hiff.mp h2.2⟩)] at this
    rw [this]; simp

/-! ### the whole tree -/

def RdRun.pre (evs : List (List Bytes × RdEntry)) (a b : Nat) (r : RdRun) : RdRun := { r with events := evs ++ r.events, errored := a + r.errored, ignored := b + r.ignored }
theorem pre_pre (e1 e2 : List (List Bytes × RdEntry)) (a1 b1 a2 b2 : Nat) (r : RdRun) : (r.pre e2 a2 b2).pre e1 a1 b1 = r.pre (e1 ++ e2) (a1 + a2) (b1 + b2) := by
  simp [RdRun.pre, Nat.add_assoc]
theorem cons_pre (ev : List Bytes × RdEntry) (a b : Nat) (r : RdRun) : r.cons ev a b = r.pre [ev] a b := rfl
theorem map_pre_pre (x : Res RdRun) (e1 e2 : List (List Bytes × RdEntry)) (a1 b1 a2 b2 : Nat) :
    (x.map (RdRun.pre e2 a2 b2)).map (RdRun.pre e1 a1 b1) = x.map (RdRun.pre (e1 ++ e2) (a1 + a2) (b1 + b2)) := by
  cases x with
  | error e => rfl
  | ok r => simp only [Except.map, pre_pre]
theorem map_pre_zero (x : Res RdRun) : x.map (RdRun.pre [] 0 0) = x := by
  cases x with
  | error e => rfl
  | ok r => simp [Except.map, RdRun.pre]
theorem bind_cons (x : Res RdRun) (ev : List Bytes × RdEntry) (a b : Nat) : x.bind (fun r => .ok (r.cons ev a b)) = x.map (RdRun.pre [ev] a b) := by
  cases x <;> rfl

section
variable {o : RdOpts} {rst : FsStat} {root : List FsTree} {skip : List Bytes → Bool}
theorem view_nodump {p : List Bytes} {e : FsTree} (h : fsAt root p = some e) : (fsView rst root).nodump p = e.nodump := by
  show (match fsAt root p with | some e => e.nodump | none => false) = _
  rw [h]
theorem view_look {p : List Bytes} {e : FsTree} (h : fsAt root p = some e) : (fsView rst root).look p = e.ans := by
  show (if p = [] then LookAns.ok rst else match fsAt root p with | some e => e.ans | none => .gone) = _
  rw [if_neg (by rintro rfl; cases h), h]
theorem view_listing {p : List Bytes} {e : FsTree} (h : fsAt root p = some e) : (fsView rst root).listing p = e.listing := by
  show (if p = [] then _ else match fsAt root p with | some e => e.listing | none => none) = _
  rw [if_neg (by rintro rfl; cases h), h]
theorem view_head {p : List Bytes} {e : FsTree} (h : fsAt root p = some e) : (fsView rst root).head p = e.head := by
  show (match fsAt root p with | some e => e.head | none => none) = _
  rw [h]
open Classical in
theorem openedNames_view {p : List Bytes} {n : Bytes} {d : Bool} {st : FsStat} {op : Bool} {ch : List FsTree} (h : fsAt root p = some (.dir n d st op ch))
    (hl : LocatedIn root p ch) (hn : ∀ e ∈ ch, isName e.name) :
    openedNames o (fsView rst root) p = if op = true ∧ ¬ (o.cacheTag = true ∧ IsCache ch) then ch.map FsTree.name else [] := by
  unfold openedNames
  have h1 := view_listing (rst := rst) h
  cases op with
  | false =>
    rw [if_neg (by simp)]
    unfold etageOpen
    rw [h1]; rfl
  | true =>
    obtain ⟨e1, e2⟩ := etageOpen_view (o := o) (v := fsView rst root) (dir := p) (ch := ch) h1 (fun e he => view_head (hl e he)) hn
    by_cases hc : o.cacheTag = true ∧ IsCache ch
    · rw [if_neg (by simp [hc]), e1 hc]; rfl
    · rw [if_pos ⟨rfl, hc⟩, e2 hc]; rfl
theorem FsTree.Good.isName {e : FsTree} (h : e.Good) : isName e.name := by
  cases e with
  | item n d a hd => rw [FsTree.Good] at h; exact h.1
  | dir n d st op ch => rw [FsTree.Good] at h; exact h.1
theorem cntFailed_append (a b : List WalkEv) : cntFailed (a ++ b) = cntFailed a + cntFailed b := by simp [cntFailed]
theorem cntFlagged_append (a b : List WalkEv) : cntFlagged (a ++ b) = cntFlagged a + cntFlagged b := by simp [cntFlagged]
/-- the run of a list of siblings -/
def RunsTo (o : RdOpts) (v : FsView) (skip : List Bytes → Bool) (p : List Bytes) (rest : List (List Bytes)) (names more : List Bytes) (ws : List WalkEv) : Prop :=
  ∀ t k er du, ∃ c t' a b er' du', a + er' = er + cntFailed ws ∧ b + du' = du + cntFlagged ws ∧
    ∀ f, runFrom o (fun _ => v) skip (f + c) p rest (names ++ more) t k er du = (runFrom o (fun _ => v) skip f p rest more t' (emitAll k ws).2 er' du').map (RdRun.pre (emitAll k ws).1 a b)
theorem RunsTo.trans {v : FsView} {p : List Bytes} {rest : List (List Bytes)} {n1 n2 more : List Bytes} {w1 w2 : List WalkEv} (h1 : RunsTo o v skip p rest n1 (n2 ++ more) w1)
    (h2 : RunsTo o v skip p rest n2 more w2) : RunsTo o v skip p rest (n1 ++ n2) more (w1 ++ w2) := by
  intro t k er du
  obtain ⟨c1, t1, a1, b1, er1, du1, e1, e2, e3⟩ := h1 t k er du
  obtain ⟨c2, t2, a2, b2, er2, du2, g1, g2, g3⟩ := h2 t1 (emitAll k w1).2 er1 du1
  refine ⟨c2 + c1, t2, a1 + a2, b1 + b2, er2, du2, by rw [cntFailed_append]; omega, by rw [cntFlagged_append]; omega, ?_⟩
  intro f
  rw [← Nat.add_assoc, List.append_assoc, e3, g3, map_pre_pre, emitAll_append]
theorem runsTo_flagged {v : FsView} {p : List Bytes} {rest : List (List Bytes)} {n : Bytes} {more : List Bytes} (h : o.nodump = true ∧ v.nodump (p ++ [n]) = true) :
    RunsTo o v skip p rest [n] more [.flagged (p ++ [n])] := by
  intro t k er du
  refine ⟨0, t + 1, 0, 0, er, du + 1, by simp [cntFailed, WalkEv.isFailed], by unfold cntFlagged; rw [List.filter_cons_of_pos rfl]; simp, fun f => ?_⟩
  unfold runFrom
  rw [List.singleton_append, rdLoop_flagged (hist := fun _ => v) h]
  exact (map_pre_zero _).symm
theorem runsTo_unread {v : FsView} {p : List Bytes} {rest : List (List Bytes)} {n : Bytes} {more : List Bytes} (h : ¬ (o.nodump = true ∧ v.nodump (p ++ [n]) = true))
    {a : LookAns} (ha : v.look (p ++ [n]) = a) (hna : ∀ st, a ≠ .ok st) : RunsTo o v skip p rest [n] more [.unread (p ++ [n]) a] := by
  intro t k er du
  refine ⟨0, t + 1, 0, 0, er + (if a = .failed then 1 else 0), du, ?_, by simp [cntFlagged, WalkEv.isFlagged], fun f => ?_⟩
  · unfold cntFailed
    cases a with
    | failed => rw [List.filter_cons_of_pos rfl]; simp
    | _ => rw [List.filter_cons_of_neg (by simp [WalkEv.isFailed])]; simp
  unfold runFrom
  rw [List.singleton_append, rdLoop_unread (hist := fun _ => v) h ha hna]
  exact (map_pre_zero _).symm
theorem runsTo_file {v : FsView} {p : List Bytes} {rest : List (List Bytes)} {n : Bytes} {more : List Bytes} (h : ¬ (o.nodump = true ∧ v.nodump (p ++ [n]) = true))
    {st : FsStat} (ha : v.look (p ++ [n]) = .ok st) (hd : st.obj.ino.kind ≠ .dir) : RunsTo o v skip p rest [n] more [.file (p ++ [n]) st] := by
  intro t k er du
  refine ⟨1, t + 1, er, du, 0, 0, by simp [cntFailed, WalkEv.isFailed], by simp [cntFlagged, WalkEv.isFlagged], fun f => ?_⟩
  have hlast : (p ++ [n]).getLastD [] = n := by simp
  obtain ⟨hp1, hp2⟩ := linkStep_path (k := k) (n := n) hd p p
  show (rdLoop o (fun _ => v) p rest ([n] ++ more) t k er du).bind _ = _
  rw [List.singleton_append, rdLoop_file (hist := fun _ => v) h ha hd]
  show (enterDir skip (rdPath p p (linkStep k n st).1) (linkStep k n st).1 ⟨more :: rest, p, t + 1, (linkStep k n st).2⟩).bind _ = _
  rw [hp2]
  show (rdLoopAll o (fun _ => v) skip (f + 1) ⟨more :: rest, p, t + 1, (linkStep k n st).2⟩).bind (fun r => .ok (r.cons (rdPath p p (linkStep k n st).1, (linkStep k n st).1) er du)) = _
  rw [bind_cons, rdLoopAll_succ, hp1]
  simp only [emitAll, hlast]
/-- a directory that is not entered -/
theorem runsTo_skipped {v : FsView} {p : List Bytes} {rest : List (List Bytes)} {n : Bytes} {more : List Bytes} (h : ¬ (o.nodump = true ∧ v.nodump (p ++ [n]) = true))
    {st : FsStat} (ha : v.look (p ++ [n]) = .ok st) (hd : st.obj.ino.kind = .dir) (hs : skip (p ++ [n]) = true) : RunsTo o v skip p rest [n] more [.dir (p ++ [n]) st] := by
  intro t k er du
  refine ⟨1, t + 2, er, du, 0, 0, by simp [cntFailed, WalkEv.isFailed], by simp [cntFlagged, WalkEv.isFlagged], fun f => ?_⟩
  have hlast : (p ++ [n]).getLastD [] = n := by simp
  show (rdLoop o (fun _ => v) p rest ([n] ++ more) t k er du).bind _ = _
  rw [List.singleton_append, rdLoop_dir (hist := fun _ => v) h ha hd]
  show (if skip (p ++ [n]) = true then rdSkip ⟨openedNames o v (p ++ [n]) :: more :: rest, p ++ [n], t + 2, k⟩ else Except.ok _).bind (fun s' =>
    (rdLoopAll o (fun _ => v) skip (f + 1) s').bind (fun r => .ok (r.cons (p ++ [n], .dir { st.obj with name := n }) er du))) = _
  have : rdSkip ⟨openedNames o v (p ++ [n]) :: more :: rest, p ++ [n], t + 2, k⟩ = .ok ⟨more :: rest, p, t + 2, k⟩ := by
    unfold rdSkip popDir
    simp [Except.map]
  rw [if_pos hs, this]
  show (rdLoopAll o (fun _ => v) skip (f + 1) ⟨more :: rest, p, t + 2, k⟩).bind (fun r => .ok (r.cons (p ++ [n], .dir { st.obj with name := n }) er du)) = _
  rw [bind_cons, rdLoopAll_succ]
  simp only [emitAll, hlast, linkStep_dir n hd]
/-- a directory that is entered -/
theorem runsTo_dir {v : FsView} {p : List Bytes} {rest : List (List Bytes)} {n : Bytes} {more names : List Bytes} {ws : List WalkEv}
    (h : ¬ (o.nodump = true ∧ v.nodump (p ++ [n]) = true)) {st : FsStat} (ha : v.look (p ++ [n]) = .ok st) (hd : st.obj.ino.kind = .dir) (hs : ¬ skip (p ++ [n]) = true)
    (ho : openedNames o v (p ++ [n]) = names) (hi : RunsTo o v skip (p ++ [n]) (more :: rest) names [] ws) :
    RunsTo o v skip p rest [n] more (.dir (p ++ [n]) st :: (ws ++ [.eod (p ++ [n])])) := by
  intro t k er du
  obtain ⟨c, t1, a, b, er1, du1, e1, e2, e3⟩ := hi (t + 2) k 0 0
  have hcf : cntFailed (.dir (p ++ [n]) st :: (ws ++ [.eod (p ++ [n])])) = cntFailed ws := by simp [cntFailed, WalkEv.isFailed]
  have hcd : cntFlagged (.dir (p ++ [n]) st :: (ws ++ [.eod (p ++ [n])])) = cntFlagged ws := by simp [cntFlagged, WalkEv.isFlagged]
  refine ⟨1 + c + 1, t1, er + a + er1, du + b + du1, 0, 0, by rw [hcf]; omega, by rw [hcd]; omega, fun f => ?_⟩
  have hlast : (p ++ [n]).getLastD [] = n := by simp
  show (rdLoop o (fun _ => v) p rest ([n] ++ more) t k er du).bind _ = _
  rw [List.singleton_append, rdLoop_dir (hist := fun _ => v) h ha hd]
  show (if skip (p ++ [n]) = true then _ else Except.ok ⟨openedNames o v (p ++ [n]) :: more :: rest, p ++ [n], t + 2, k⟩).bind (fun s' =>
    (rdLoopAll o (fun _ => v) skip (f + (1 + c + 1)) s').bind (fun r => .ok (r.cons (p ++ [n], .dir { st.obj with name := n }) er du))) = _
  rw [if_neg hs, ho]
  show (rdLoopAll o (fun _ => v) skip (f + (1 + c + 1)) ⟨names :: more :: rest, p ++ [n], t + 2, k⟩).bind (fun r => .ok (r.cons (p ++ [n], .dir { st.obj with name := n }) er du)) = _
  have e4 := e3 (f + 1)
  rw [List.append_nil] at e4
  rw [bind_cons, show f + (1 + c + 1) = (f + 1 + c) + 1 by omega, rdLoopAll_succ, e4]
  have e5 : runFrom o (fun _ => v) skip (f + 1) (p ++ [n]) (more :: rest) [] t1 (emitAll k ws).2 er1 du1 =
      (runFrom o (fun _ => v) skip f p rest more t1 (emitAll k ws).2 0 0).map (RdRun.pre [(p ++ [n], .eod)] er1 du1) := by
    show ((popDir (p ++ [n])).map _).bind _ = _
    have : popDir (p ++ [n]) = .ok p := by unfold popDir; simp
    rw [this]
    show (rdLoopAll o (fun _ => v) skip (f + 1) ⟨more :: rest, p, t1, (emitAll k ws).2⟩).bind (fun r => .ok (r.cons (p ++ [n], .eod) er1 du1)) = _
    rw [bind_cons, rdLoopAll_succ]
  rw [e5, map_pre_pre, map_pre_pre]
  have e6 : emitAll k (.dir (p ++ [n]) st :: (ws ++ [.eod (p ++ [n])])) =
      ((p ++ [n], .dir { st.obj with name := n }) :: ((emitAll k ws).1 ++ [(p ++ [n], .eod)]), (emitAll k ws).2) := by
    simp only [emitAll, hlast, linkStep_dir n hd, emitAll_append]
  rw [e6]
  simp [Nat.add_assoc]
theorem runsTo_nil {v : FsView} {p : List Bytes} {rest : List (List Bytes)} {more : List Bytes} : RunsTo o v skip p rest [] more [] := by
  intro t k er du
  refine ⟨0, t, 0, 0, er, du, by simp [cntFailed], by simp [cntFlagged], fun f => ?_⟩
  rw [List.nil_append]
  exact (map_pre_zero _).symm
open Classical in
theorem runsTo_tree (l : List FsTree) : ∀ (p : List Bytes) (rest : List (List Bytes)) (more : List Bytes), LocatedIn root p l → (∀ e ∈ l, e.Good) →
    RunsTo o (fsView rst root) skip p rest (l.map FsTree.name) more (l.flatMap (walk o skip p)) := by
  induction hl : sizeOf l using Nat.strongRecOn generalizing l with
  | _ m ih =>
    intro p rest more hloc hgood
    cases l with
    | nil => exact runsTo_nil
    | cons e l =>
      have h2 := ih (sizeOf l) (by rw [← hl]; simp; omega) l rfl p rest more (fun x hx => hloc x (by simp [hx])) (fun x hx => hgood x (by simp [hx]))
      have hat := hloc e (by simp)
      have hg := hgood e (by simp)
      rw [List.map_cons, List.flatMap_cons, ← List.singleton_append]
      refine RunsTo.trans ?_ h2
      have hnd := view_nodump (rst := rst) hat
      have hlk := view_look (rst := rst) hat
      cases e with
      | item n d a hd =>
        rw [FsTree.Good] at hg
        show RunsTo o _ skip p rest [n] _ _
        replace hnd : (fsView rst root).nodump (p ++ [n]) = d := hnd
        replace hlk : (fsView rst root).look (p ++ [n]) = a := hlk
        rw [walk]
        by_cases hf : o.nodump = true ∧ d = true
        · rw [if_pos hf]; exact runsTo_flagged (by rw [hnd]; exact hf)
        · rw [if_neg hf]
          cases a with
          | ok st => exact runsTo_file (by rw [hnd]; exact hf) hlk (hg.2 st rfl)
          | _ => exact runsTo_unread (by rw [hnd]; exact hf) hlk (by simp)
      | dir n d st op ch =>
        rw [FsTree.Good] at hg
        show RunsTo o _ skip p rest [n] _ _
        replace hnd : (fsView rst root).nodump (p ++ [n]) = d := hnd
        replace hlk : (fsView rst root).look (p ++ [n]) = .ok st := hlk
        rw [walk]
        by_cases hf : o.nodump = true ∧ d = true
        · rw [if_pos hf]; exact runsTo_flagged (by rw [hnd]; exact hf)
        · rw [if_neg hf]
          by_cases hs : skip (p ++ [n]) = true
          · rw [if_pos hs]; exact runsTo_skipped (by rw [hnd]; exact hf) hlk hg.2.1 hs
          · rw [if_neg hs]
            have hloc2 : LocatedIn root (p ++ [n]) ch := LocatedIn.child hloc List.mem_cons_self hg.2.2.1
            refine runsTo_dir (by rw [hnd]; exact hf) hlk hg.2.1 hs (openedNames_view hat hloc2 (fun x hx => (hg.2.2.2 x hx).isName)) ?_
            by_cases hc : op = true ∧ ¬ (o.cacheTag = true ∧ IsCache ch)
            · rw [if_pos hc, if_pos hc]
              exact ih (sizeOf ch) (by rw [← hl]; simp; omega) ch rfl _ _ _ hloc2 hg.2.2.2
            · rw [if_neg hc, if_neg hc]
              exact runsTo_nil
end

end Dar
