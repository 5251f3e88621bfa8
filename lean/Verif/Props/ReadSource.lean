import Verif.Lemmas.ReadSource2
import Mathlib.Data.List.Nodup
/- C65: the files to save are all read, and the hard links are recognised. -/
namespace Dar

/-- what is to be met: nothing if the root itself is a cache -/
def MetIn (o : RdOpts) (skip : List Bytes → Bool) (l : List FsTree) (ws : List WalkEv) : Prop :=
  (o.cacheTag = true ∧ IsCache l ∧ ws = []) ∨ (¬ (o.cacheTag = true ∧ IsCache l) ∧ ws = l.flatMap (walk o skip []))

theorem rdStart_tree {o : RdOpts} {rst : FsStat} {l : List FsTree} (hg : GoodTree l) (hr : rst.obj.ino.kind = .dir) :
    ∃ names, rdStart o (fsView rst l) = .ok ⟨[names], [], 1, ⟨[], 0, []⟩⟩ ∧ (o.cacheTag = true ∧ IsCache l → names = []) ∧ (¬ (o.cacheTag = true ∧ IsCache l) → names = l.map FsTree.name) := by
  have hl : (fsView rst l).listing [] = some ([[46], [46, 46]] ++ l.map FsTree.name) := rfl
  have hloc : LocatedIn l [] l := fun e he => find_name hg.1 he
  obtain ⟨e1, e2⟩ := etageOpen_view (o := o) (v := fsView rst l) (dir := []) (ch := l) hl (fun e he => view_head (hloc e he)) (fun e he => (hg.2 e he).isName)
  have hlk : (fsView rst l).look [] = .ok rst := rfl
  unfold rdStart
  rw [hlk]
  dsimp only
  rw [if_pos hr]
  by_cases hc : o.cacheTag = true ∧ IsCache l
  · rw [e1 hc]
    exact ⟨[], rfl, fun _ => rfl, fun h => absurd hc h⟩
  · rw [e2 hc]
    exact ⟨_, rfl, fun h => absurd h hc, fun _ => rfl⟩
theorem rdAll_tree {o : RdOpts} {rst : FsStat} {l : List FsTree} (skip : List Bytes → Bool) (hg : GoodTree l) (hr : rst.obj.ino.kind = .dir) :
    ∃ ws, MetIn o skip l ws ∧ ∃ n0, ∀ n ≥ n0, ∃ r, rdAll o (fun _ => fsView rst l) skip n = .ok r ∧ r.events = (emitAll ⟨[], 0, []⟩ ws).1 ∧ r.links = (emitAll ⟨[], 0, []⟩ ws).2 ∧
      r.errored + r.lastErrors = cntFailed ws ∧ r.ignored + r.lastDumps = cntFlagged ws := by
  obtain ⟨names, h1, h2, h3⟩ := rdStart_tree (o := o) hg hr
  have hloc : LocatedIn l [] l := fun e he => find_name hg.1 he
  have hrun : ∃ ws, MetIn o skip l ws ∧ RunsTo o (fsView rst l) skip [] [] names [] ws := by
    by_cases hc : o.cacheTag = true ∧ IsCache l
    · rw [h2 hc]; exact ⟨[], Or.inl ⟨hc.1, hc.2, rfl⟩, runsTo_nil⟩
    · rw [h3 hc]; exact ⟨_, Or.inr ⟨hc, rfl⟩, runsTo_tree l [] [] [] hloc hg.2⟩
  obtain ⟨ws, hws, hrun⟩ := hrun
  refine ⟨ws, hws, ?_⟩
  obtain ⟨c, t', a, b, er', du', e1, e2, e3⟩ := hrun 1 ⟨[], 0, []⟩ 0 0
  refine ⟨c + 1, fun n hn => ?_⟩
  obtain ⟨f, rfl⟩ : ∃ f, n = f + c + 1 := ⟨n - (c + 1), by omega⟩
  refine ⟨RdRun.pre (emitAll ⟨[], 0, []⟩ ws).1 a b ⟨[], 0, 0, er', du', (emitAll ⟨[], 0, []⟩ ws).2⟩, ?_, by simp [RdRun.pre], rfl, by simp [RdRun.pre]; omega, by simp [RdRun.pre]; omega⟩
  show (rdStart o (fsView rst l)).bind _ = _
  rw [h1]
  show rdLoopAll o (fun _ => fsView rst l) skip (f + c + 1) ⟨[names], [], 1, ⟨[], 0, []⟩⟩ = _
  have := e3 f
  rw [List.append_nil] at this
  rw [rdLoopAll_succ, this]
  rfl
theorem walk_kinds {o : RdOpts} {skip : List Bytes → Bool} (l : List FsTree) : ∀ p : List Bytes, (∀ e ∈ l, e.Good) → ∀ w ∈ l.flatMap (walk o skip p), KindOk w := by
  induction hl : sizeOf l using Nat.strongRecOn generalizing l with
  | _ m ih =>
    intro p hgood w hw
    cases l with
    | nil => cases hw
    | cons e l =>
      rw [List.flatMap_cons, List.mem_append] at hw
      rcases hw with hw | hw
      · have hg := hgood e (by simp)
        cases e with
        | item n d a hd =>
          rw [FsTree.Good] at hg
          rw [walk] at hw
          by_cases hf : o.nodump = true ∧ d = true
          · rw [if_pos hf] at hw; simp at hw; subst hw; trivial
          · rw [if_neg hf] at hw; simp at hw; subst hw
            cases a with
            | ok st => exact hg.2 st rfl
            | _ => trivial
        | dir n d st op ch =>
          rw [FsTree.Good] at hg
          rw [walk] at hw
          by_cases hf : o.nodump = true ∧ d = true
          · rw [if_pos hf] at hw; simp at hw; subst hw; trivial
          · rw [if_neg hf] at hw
            rcases List.mem_cons.mp hw with rfl | hw
            · exact hg.2.1
            · by_cases hs : skip (p ++ [n]) = true
              · rw [if_pos hs] at hw; cases hw
              · rw [if_neg hs, List.mem_append] at hw
                rcases hw with hw | hw
                · split at hw
                  · exact ih (sizeOf ch) (by rw [← hl]; simp; omega) ch rfl _ hg.2.2.2 w hw
                  · cases hw
                · simp at hw; subst hw; trivial
      · exact ih (sizeOf l) (by rw [← hl]; simp; omega) l rfl p (fun x hx => hgood x (by simp [hx])) w hw
theorem metIn_kinds {o : RdOpts} {skip : List Bytes → Bool} {l : List FsTree} (hg : GoodTree l) {ws : List WalkEv} (h : MetIn o skip l ws) : ∀ w ∈ ws, KindOk w := by
  rcases h with ⟨-, -, rfl⟩ | ⟨-, rfl⟩
  · intro w hw; cases hw
  · exact walk_kinds l [] hg.2
theorem forall2_get {α β : Type} {R : α → β → Prop} {l : List α} {m : List β} (h : List.Forall₂ R l m) {i : Nat} {a : α} {b : β} (ha : l[i]? = some a) (hb : m[i]? = some b) : R a b := by
  induction h generalizing i with
  | nil => simp at ha
  | cons h1 _ ih =>
    cases i with
    | zero => simp at ha hb; subst ha; subst hb; exact h1
    | succ i => simp at ha hb; exact ih ha hb
open Classical in
theorem steady_start {ws : List WalkEv} (h : SteadyInodes ws) : ∃ links obj, SteadyAs links obj ws ∧ SteadyInv links obj ⟨[], 0, []⟩ [] ws := by
  let P := fun (n : Nat × Nat) (st : FsStat) => (∃ w ∈ ws, w.stat = some st) ∧ nodeOf st = n
  have hP : ∀ w ∈ ws, ∀ st, w.stat = some st → P (nodeOf st) st := fun w hw st hst => ⟨⟨w, hw, hst⟩, rfl⟩
  refine ⟨fun n => if hn : ∃ st, P n st then hn.choose.nlink else 0, fun n => if hn : ∃ st, P n st then { hn.choose.obj with name := [] } else ⟨[], ⟨.file, 0, 0, 0, ⟨0, .s⟩, ⟨0, .s⟩, .saved, 0, false, false, false, 0, 0, [], .none, 0, 0⟩, .none, [], [], []⟩, ?_, ?_⟩
  · intro w hw st hst
    have hex : ∃ st', P (nodeOf st) st' := ⟨st, hP w hw st hst⟩
    obtain ⟨⟨w', hw', hst'⟩, hn⟩ := hex.choose_spec
    have := h.1 w hw w' hw' st hex.choose hst hst' (by have := congrArg Prod.fst hn; exact this.symm) (by have := congrArg Prod.snd hn; exact this.symm)
    dsimp only
    rw [dif_pos hex, dif_pos hex]
    exact this
  · refine ⟨⟨rfl, rfl, (by intro n lab c hc; cases hc)⟩, List.nodup_nil, (by intro n lab c hc; cases hc), ?_, (by intro i n hi; simp at hi)⟩
    intro n _
    refine ⟨by simp, fun _ => ?_⟩
    by_cases h0 : occ n ws = 0
    · omega
    · obtain ⟨w, hw⟩ := List.exists_mem_of_length_pos (l := ws.filter (fun w' => match w'.stat with
        | some st' => st'.ino = n.1 ∧ st'.dev = n.2
        | none => false)) (by have := Nat.pos_of_ne_zero h0; unfold occ at this; exact this)
      rw [List.mem_filter] at hw
      cases hst : w.stat with
      | none => rw [hst] at hw; simp at hw
      | some st =>
        rw [hst] at hw
        simp at hw
        have hn : n = nodeOf st := by unfold nodeOf; rw [hw.2.1, hw.2.2]
        have hex : ∃ st', P n st' := ⟨st, by rw [hn]; exact hP w hw.1 st hst⟩
        obtain ⟨⟨w', hw', hst'⟩, hn'⟩ := hex.choose_spec
        have h2 := h.2 w' hw' hex.choose hst'
        rw [dif_pos hex]
        have e1 : hex.choose.ino = n.1 := congrArg Prod.fst hn'
        have e2 : hex.choose.dev = n.2 := congrArg Prod.snd hn'
        rw [e1, e2] at h2
        exact h2

/-- C65: a filesystem that does not change during the reading is read in whole: exactly what the walk meets is given, in order, with its attributes; the files that have several names are given as
names of their inodes -/
theorem C65_reads (o : RdOpts) {rst : FsStat} {l : List FsTree} (skip : List Bytes → Bool) (hg : GoodTree l) (hr : rst.obj.ino.kind = .dir) :
    ∃ ws, MetIn o skip l ws ∧ (SteadyInodes ws → ∃ n0, ∀ n ≥ n0, ∃ r, rdAll o (fun _ => fsView rst l) skip n = .ok r ∧
      List.Forall₂ (Given r.links.stars) (ws.filter WalkEv.isEntry) r.events) := by
  obtain ⟨ws, hws, n0, h⟩ := rdAll_tree (o := o) skip hg hr
  refine ⟨ws, hws, fun hst => ⟨n0, fun n hn => ?_⟩⟩
  obtain ⟨r, h1, h2, h3, -⟩ := h n hn
  refine ⟨r, h1, ?_⟩
  obtain ⟨links, obj, hs1, hs2⟩ := steady_start hst
  obtain ⟨own, -, hi, hf⟩ := emitAll_steady ws hs2 (metIn_kinds hg hws) hs1
  rw [h2, h3]
  have hmem : ∀ w ∈ ws.filter WalkEv.isEntry, w ∈ ws := fun w hw => (List.mem_filter.mp hw).1
  generalize ws.filter WalkEv.isEntry = fl at hf hmem
  generalize (emitAll ⟨[], 0, []⟩ ws).1 = evs at hf
  induction hf with
  | nil => exact .nil
  | @cons w ev fl evs hR hrest ih =>
    refine .cons ?_ (ih (fun x hx => hmem x (by simp [hx])))
    obtain ⟨q, e⟩ := ev
    cases w with
    | file p st =>
      obtain ⟨g1, g2⟩ := hR
      refine ⟨g1, ?_⟩
      by_cases hn : st.nlink > 1
      · rw [if_pos hn] at g2 ⊢
        obtain ⟨lab, g3, g4⟩ := g2
        refine ⟨lab, g3, ?_⟩
        rw [hi.objs lab _ g4, (hs1 _ (hmem (.file p st) (by simp)) st rfl).2]
      · rw [if_neg hn] at g2 ⊢; exact g2
    | dir p st => exact hR
    | eod p => exact hR
    | flagged p => exact hR
    | unread p a => exact hR
/-- C65: two names are given as names of the same inode exactly if they are so -/
theorem C65_hard_links (o : RdOpts) {rst : FsStat} {l : List FsTree} (skip : List Bytes → Bool) (hg : GoodTree l) (hr : rst.obj.ino.kind = .dir) :
    ∃ ws, MetIn o skip l ws ∧ (SteadyInodes ws → ∃ n0, ∀ n ≥ n0, ∃ r, rdAll o (fun _ => fsView rst l) skip n = .ok r ∧
      ∀ (i j : Nat) (p q : List Bytes) (st st' : FsStat) (n n' : Bytes) (k k' : Nat), (ws.filter WalkEv.isEntry)[i]? = some (.file p st) → (ws.filter WalkEv.isEntry)[j]? = some (.file q st') →
        r.events[i]? = some (p, .mirage n k) → r.events[j]? = some (q, .mirage n' k') → (k = k' ↔ st.ino = st'.ino ∧ st.dev = st'.dev)) := by
  obtain ⟨ws, hws, n0, h⟩ := rdAll_tree (o := o) skip hg hr
  refine ⟨ws, hws, fun hst => ⟨n0, fun n hn => ?_⟩⟩
  obtain ⟨r, h1, h2, h3, -⟩ := h n hn
  refine ⟨r, h1, ?_⟩
  obtain ⟨links, obj, hs1, hs2⟩ := steady_start hst
  obtain ⟨own, -, hi, hf⟩ := emitAll_steady ws hs2 (metIn_kinds hg hws) hs1
  intro i j p q st st' n n' k k' a1 a2 b1 b2
  rw [h2] at b1 b2
  have key : ∀ (i : Nat) (p : List Bytes) (st : FsStat) (n : Bytes) (k : Nat), (ws.filter WalkEv.isEntry)[i]? = some (.file p st) →
      (emitAll ⟨[], 0, []⟩ ws).1[i]? = some (p, .mirage n k) → own[k]? = some (nodeOf st) := by
    intro i p st n k a b
    obtain ⟨-, g2⟩ := forall2_get hf a b
    by_cases hn : st.nlink > 1
    · rw [if_pos hn] at g2
      obtain ⟨lab, g3, g4⟩ := g2
      cases g3
      exact g4
    · rw [if_neg hn] at g2; cases g2
  have c1 := key i p st n k a1 b1
  have c2 := key j q st' n' k' a2 b2
  have hnode : (st.ino = st'.ino ∧ st.dev = st'.dev) ↔ nodeOf st = nodeOf st' := by unfold nodeOf; simp
  rw [hnode]
  constructor
  · rintro rfl
    rw [c1] at c2
    exact Option.some.inj c2
  · intro he
    rw [he] at c1
    obtain ⟨x1, y1⟩ := List.getElem?_eq_some_iff.mp c1
    obtain ⟨x2, y2⟩ := List.getElem?_eq_some_iff.mp c2
    exact (List.Nodup.getElem_inj_iff hi.nodup).mp (y1.trans y2.symm)
/-- C65: whatever happens to the filesystem meanwhile: what is given is what the system answered at some moment, two names are given as names of the same inode only if they had the same inode number on the
same device, and each answer that is an error is counted (in the statistics, or in what the last call tells) -/
theorem C65_any_history {o : RdOpts} {hist : Nat → FsView} {skip : List Bytes → Bool} {n : Nat} {r : RdRun} (h : rdAll o hist skip n = .ok r) :
    ∃ ws : List WalkEv, (∀ w ∈ ws, Answered o hist w) ∧ (ws.filter WalkEv.isEntry).length = r.events.length ∧
      (∀ (i : Nat) (p : List Bytes) (st : FsStat), (ws.filter WalkEv.isEntry)[i]? = some (.file p st) → st.nlink ≤ 1 → r.events[i]? = some (p, .node { st.obj with name := p.getLastD [] })) ∧
      (∀ (i : Nat) (p : List Bytes) (st : FsStat), (ws.filter WalkEv.isEntry)[i]? = some (.file p st) → st.nlink > 1 → ∃ k, r.events[i]? = some (p, .mirage (p.getLastD []) k)) ∧
      (∀ (i j : Nat) (p q : List Bytes) (st st' : FsStat) (m m' : Bytes) (k : Nat), (ws.filter WalkEv.isEntry)[i]? = some (.file p st) → (ws.filter WalkEv.isEntry)[j]? = some (.file q st') →
        r.events[i]? = some (p, .mirage m k) → r.events[j]? = some (q, .mirage m' k) → st.ino = st'.ino ∧ st.dev = st'.dev) ∧
      r.errored + r.lastErrors = (ws.filter WalkEv.isFailed).length ∧ r.ignored + r.lastDumps = (ws.filter WalkEv.isFlagged).length := by
  replace h : (rdStart o (hist 0)).bind (fun s => rdLoopAll o hist skip n s) = .ok r := h
  cases hs : rdStart o (hist 0) with
  | error e => rw [hs] at h; cases h
  | ok s =>
    rw [hs] at h
    replace h : rdLoopAll o hist skip n s = .ok r := h
    have hk : s.links = ⟨[], 0, []⟩ := by
      unfold rdStart at hs
      cases hl : (hist 0).look [] with
      | ok st =>
        rw [hl] at hs
        dsimp only at hs
        by_cases hd : st.obj.ino.kind = .dir
        · rw [if_pos hd] at hs
          cases he : etageOpen o (hist 0) [] with
          | none => rw [he] at hs; cases hs
          | some names => rw [he] at hs; cases hs; rfl
        · rw [if_neg hd] at hs; cases hs
      | _ => rw [hl] at hs; cases hs
    obtain ⟨ws, hw⟩ := rdLoopAll_reads n s r h
    rw [hk] at hw
    obtain ⟨own, -, -, hf⟩ := emitAll_own (k := ⟨[], 0, []⟩) (own := []) ⟨rfl, rfl, (by intro n lab c hc; cases hc)⟩ ws hw.kinds
    rw [← hw.events] at hf
    have hget : ∀ (i : Nat) (w : WalkEv), (ws.filter WalkEv.isEntry)[i]? = some w → ∃ ev, r.events[i]? = some ev := by
      intro i w hi
      have := (List.getElem?_eq_some_iff.mp hi).1
      rw [hf.length_eq] at this
      exact ⟨_, List.getElem?_eq_getElem this⟩
    refine ⟨ws, hw.answers, hf.length_eq, ?_, ?_, ?_, by have := hw.errors; simpa [cntFailed] using this, by have := hw.dumps; simpa [cntFlagged] using this⟩
    · intro i p st hi hn
      obtain ⟨ev, he⟩ := hget i _ hi
      obtain ⟨g1, g2⟩ := forall2_get hf hi he
      rw [if_neg (by omega)] at g2
      rw [he]; obtain ⟨e1, e2⟩ := ev; dsimp only at g1 g2; rw [g1, g2]
    · intro i p st hi hn
      obtain ⟨ev, he⟩ := hget i _ hi
      obtain ⟨g1, g2⟩ := forall2_get hf hi he
      rw [if_pos hn] at g2
      obtain ⟨lab, g3, -⟩ := g2
      exact ⟨lab, (by rw [he]; obtain ⟨e1, e2⟩ := ev; dsimp only at g1 g3; rw [g1, g3])⟩
    · intro i j p q st st' m m' k a1 a2 b1 b2
      have key : ∀ (i : Nat) (p : List Bytes) (st : FsStat) (m : Bytes), (ws.filter WalkEv.isEntry)[i]? = some (.file p st) → r.events[i]? = some (p, .mirage m k) → own[k]? = some (nodeOf st) := by
        intro i p st m a b
        obtain ⟨-, g2⟩ := forall2_get hf a b
        by_cases hn : st.nlink > 1
        · rw [if_pos hn] at g2
          obtain ⟨lab, g3, g4⟩ := g2
          cases g3
          exact g4
        · rw [if_neg hn] at g2; cases g2
      have c1 := key i p st m a1 b1
      have c2 := key j q st' m' a2 b2
      rw [c1] at c2
      have := Option.some.inj c2
      unfold nodeOf at this
      simpa using this

/-! ### all the files -/

/-- what is met for a file or a directory -/
def FsTree.met (p : List Bytes) (e : FsTree) (w : WalkEv) : Prop := match e with
  | .item _ _ a _ => w = lookEv p a
  | .dir _ _ st _ _ => w = .dir p st ∨ w = .eod p
theorem walk_item (p : List Bytes) (n : Bytes) (d : Bool) (a : LookAns) (h : Option Bytes) : walk ⟨false, false⟩ (fun _ => false) p (.item n d a h) = [lookEv (p ++ [n]) a] := by
  rw [walk]; simp
theorem walk_dir (p : List Bytes) (n : Bytes) (d : Bool) (st : FsStat) (ch : List FsTree) :
    walk ⟨false, false⟩ (fun _ => false) p (.dir n d st true ch) = .dir (p ++ [n]) st :: (ch.flatMap (walk ⟨false, false⟩ (fun _ => false) (p ++ [n])) ++ [.eod (p ++ [n])]) := by
  rw [walk]; simp
theorem fsAt_item {l : List FsTree} (hn : (l.map FsTree.name).Nodup) {e : FsTree} (he : e ∈ l) : fsAt l [e.name] = some e := by
  rw [fsAt]; exact find_name hn he
theorem fsAt_below {l : List FsTree} (hn : (l.map FsTree.name).Nodup) {n : Bytes} {d : Bool} {st : FsStat} {op : Bool} {ch : List FsTree} (he : FsTree.dir n d st op ch ∈ l) {q : List Bytes} (hq : q ≠ []) :
    fsAt l (n :: q) = fsAt ch q := by
  cases q with
  | nil => exact absurd rfl hq
  | cons m q =>
    rw [fsAt]
    have := find_name hn he
    rw [FsTree.name] at this
    rw [this]
theorem fsAt_cases {l : List FsTree} {n : Bytes} {q : List Bytes} {e : FsTree} (h : fsAt l (n :: q) = some e) :
    (q = [] ∧ e ∈ l ∧ e.name = n) ∨ (q ≠ [] ∧ ∃ d st op ch, FsTree.dir n d st op ch ∈ l ∧ fsAt ch q = some e) := by
  cases q with
  | nil =>
    rw [fsAt] at h
    have h1 := List.mem_of_find?_eq_some h
    have h2 := List.find?_some h
    exact Or.inl ⟨rfl, h1, of_decide_eq_true h2⟩
  | cons m q =>
    rw [fsAt] at h
    cases hf : l.find? (fun e => e.name = n) with
    | none => rw [hf] at h; cases h
    | some x =>
      have h1 := List.mem_of_find?_eq_some hf
      have h2 := List.find?_some hf
      rw [hf] at h
      cases x with
      | item _ _ _ _ => cases h
      | dir n' d st op ch =>
        have h2 : n' = n := of_decide_eq_true h2
        subst h2
        exact Or.inr ⟨by simp, d, st, op, ch, h1, h⟩
theorem walk_mem (l : List FsTree) : ∀ p : List Bytes, (l.map FsTree.name).Nodup → (∀ e ∈ l, e.Good) → (∀ e ∈ l, e.Opened) → ∀ w,
    (w ∈ l.flatMap (walk ⟨false, false⟩ (fun _ => false) p) ↔ ∃ q e, fsAt l q = some e ∧ e.met (p ++ q) w) := by
  induction hl : sizeOf l using Nat.strongRecOn generalizing l with
  | _ m ih =>
    intro p hn hg ho w
    have hch : ∀ n d st op ch, FsTree.dir n d st op ch ∈ l → op = true ∧ ∀ w, (w ∈ ch.flatMap (walk ⟨false, false⟩ (fun _ => false) (p ++ [n])) ↔ ∃ q e, fsAt ch q = some e ∧ e.met (p ++ [n] ++ q) w) := by
      intro n d st op ch he
      have h1 := hg _ he
      have h2 := ho _ he
      rw [FsTree.Good] at h1
      rw [FsTree.Opened] at h2
      refine ⟨h2.1, ih (sizeOf ch) ?_ ch rfl _ h1.2.2.1 h1.2.2.2 h2.2⟩
      have := List.sizeOf_lt_of_mem he
      rw [← hl]
      simp at this
      omega
    rw [List.mem_flatMap]
    constructor
    · rintro ⟨e, he, hw⟩
      cases e with
      | item n d a h =>
        rw [walk_item, List.mem_singleton] at hw
        exact ⟨[n], _, fsAt_item hn he, hw⟩
      | dir n d st op ch =>
        obtain ⟨rfl, h2⟩ := hch n d st op ch he
        rw [walk_dir, List.mem_cons, List.mem_append, List.mem_singleton] at hw
        rcases hw with hw | hw | hw
        · exact ⟨[n], _, fsAt_item hn he, Or.inl hw⟩
        · obtain ⟨q, e, h3, h4⟩ := (h2 w).mp hw
          have hq : q ≠ [] := by rintro rfl; cases h3
          refine ⟨n :: q, e, ?_, by simpa using h4⟩
          rw [fsAt_below hn he hq]; exact h3
        · exact ⟨[n], _, fsAt_item hn he, Or.inr hw⟩
    · rintro ⟨q, e, h1, h2⟩
      cases q with
      | nil => cases h1
      | cons n q =>
        rcases fsAt_cases h1 with ⟨rfl, he, rfl⟩ | ⟨hq, d, st, op, ch, he, h3⟩
        · refine ⟨e, he, ?_⟩
          cases e with
          | item n d a h => rw [walk_item, List.mem_singleton]; exact h2
          | dir n d st op ch =>
            obtain ⟨rfl, -⟩ := hch n d st op ch he
            rw [walk_dir, List.mem_cons, List.mem_append, List.mem_singleton]
            rcases h2 with h2 | h2
            · exact Or.inl h2
            · exact Or.inr (Or.inr h2)
        · refine ⟨_, he, ?_⟩
          obtain ⟨rfl, h4⟩ := hch n d st op ch he
          rw [walk_dir, List.mem_cons, List.mem_append]
          exact Or.inr (Or.inl ((h4 w).mpr ⟨q, e, h3, by simpa using h2⟩))
/-- C65: with no option that leaves files out, in a tree whose directories can all be opened, each file and each directory is given at its path, and nothing else is -/
theorem C65_all_files {rst : FsStat} {l : List FsTree} (hg : GoodTree l) (ho : ∀ e ∈ l, e.Opened) (hr : rst.obj.ino.kind = .dir)
    (hs : ∀ ws, MetIn ⟨false, false⟩ (fun _ => false) l ws → SteadyInodes ws) :
    ∃ n0, ∀ n ≥ n0, ∃ r, rdAll ⟨false, false⟩ (fun _ => fsView rst l) (fun _ => false) n = .ok r ∧
      (∀ p nm d st h, fsAt l p = some (.item nm d (.ok st) h) → ∃ ev ∈ r.events, Given r.links.stars (.file p st) ev) ∧
      (∀ p nm d st op ch, fsAt l p = some (.dir nm d st op ch) → (p, .dir { st.obj with name := p.getLastD [] }) ∈ r.events ∧ (p, .eod) ∈ r.events) ∧
      (∀ ev ∈ r.events, ∃ e, fsAt l ev.1 = some e ∧ ∀ ob, ev.2 = .node ob ∨ ev.2 = .dir ob → ∃ st, e.ans = .ok st ∧ ob = { st.obj with name := ev.1.getLastD [] }) := by
  obtain ⟨ws, hws, h⟩ := C65_reads ⟨false, false⟩ (rst := rst) (fun _ => false) hg hr
  obtain ⟨n0, h⟩ := h (hs ws hws)
  have hw : ws = l.flatMap (walk ⟨false, false⟩ (fun _ => false) []) := by
    rcases hws with ⟨hc, -⟩ | ⟨-, hws⟩
    · cases hc
    · exact hws
  refine ⟨n0, fun n hn => ?_⟩
  obtain ⟨r, h1, h2⟩ := h n hn
  have hm := walk_mem l [] hg.1 hg.2 ho
  rw [← hw] at hm
  have hgive : ∀ w ∈ ws, w.isEntry = true → ∃ ev ∈ r.events, Given r.links.stars w ev := by
    intro w hw he
    have : w ∈ ws.filter WalkEv.isEntry := List.mem_filter.mpr ⟨hw, he⟩
    obtain ⟨i, hi, rfl⟩ := List.getElem_of_mem this
    have hi2 : i < r.events.length := by rw [← h2.length_eq]; exact hi
    exact ⟨r.events[i], List.getElem_mem hi2, forall2_get h2 (List.getElem?_eq_getElem hi) (List.getElem?_eq_getElem hi2)⟩
  have hback : ∀ ev ∈ r.events, ∃ w ∈ ws, Given r.links.stars w ev := by
    intro ev he
    obtain ⟨i, hi, rfl⟩ := List.getElem_of_mem he
    have hi2 : i < (ws.filter WalkEv.isEntry).length := by rw [h2.length_eq]; exact hi
    exact ⟨_, (List.mem_filter.mp (List.getElem_mem hi2)).1, forall2_get h2 (List.getElem?_eq_getElem hi2) (List.getElem?_eq_getElem hi)⟩
  refine ⟨r, h1, ?_, ?_, ?_⟩
  · intro p nm d st hh hf
    exact hgive _ ((hm (.file p st)).mpr ⟨p, _, hf, rfl⟩) rfl
  · intro p nm d st op ch hf
    constructor
    · obtain ⟨ev, h3, h4, h5⟩ := hgive _ ((hm (.dir p st)).mpr ⟨p, _, hf, Or.inl rfl⟩) rfl
      rw [← h5, ← h4]; exact h3
    · obtain ⟨ev, h3, h4, h5⟩ := hgive _ ((hm (.eod p)).mpr ⟨p, _, hf, Or.inr rfl⟩) rfl
      rw [← h5, ← h4]; exact h3
  · intro ev he
    obtain ⟨w, h3, h4⟩ := hback ev he
    obtain ⟨q, e, h5, h6⟩ := (hm w).mp h3
    rw [List.nil_append] at h6
    obtain ⟨pe, en⟩ := ev
    cases w with
    | flagged p => cases h4
    | unread p a => cases h4
    | file p st =>
      obtain ⟨h7, h8⟩ := h4
      cases e with
      | dir _ _ _ _ _ => rcases h6 with h6 | h6 <;> cases h6
      | item nm d a hh =>
        cases a with
        | ok st' =>
          cases h6
          subst h7
          refine ⟨_, h5, ?_⟩
          intro ob hob
          refine ⟨st, rfl, ?_⟩
          split at h8
          · obtain ⟨k, h8, -⟩ := h8; rw [h8] at hob; rcases hob with hob | hob <;> cases hob
          · rw [h8] at hob; rcases hob with hob | hob <;> cases hob; rfl
        | _ => cases h6
    | dir p st =>
      obtain ⟨h7, h8⟩ := h4
      cases e with
      | item nm d a hh => cases a <;> cases h6
      | dir nm d st' op ch =>
        rcases h6 with h6 | h6 <;> cases h6
        subst h7
        refine ⟨_, h5, ?_⟩
        intro ob hob
        refine ⟨st, rfl, ?_⟩
        rw [h8] at hob; rcases hob with hob | hob <;> cases hob; rfl
    | eod p =>
      obtain ⟨h7, h8⟩ := h4
      cases e with
      | item nm d a hh => cases a <;> cases h6
      | dir nm d st' op ch =>
        rcases h6 with h6 | h6 <;> cases h6
        subst h7
        refine ⟨_, h5, ?_⟩
        intro ob hob
        rw [h8] at hob; rcases hob with hob | hob <;> cases hob

/-! ### concrete cases -/

/-- an inode of a kind, `n` bytes long -/
def rdIno (k : InoKind) (n : Nat) : Ino := ⟨k, 0, 0, 0, ⟨0, .s⟩, ⟨0, .s⟩, .saved, n, false, false, false, 0, 0, [], .none, 0, 0⟩
/-- the stat of a file: its inode number, its number of links, its data -/
def rdFile (ino nlink : Nat) (data : Bytes) : FsStat := ⟨ino, 5, nlink, ⟨[], rdIno .file data.length, .none, data, [], []⟩⟩
def rdDir (ino : Nat) : FsStat := ⟨ino, 5, 2, ⟨[], rdIno .dir 0, .none, [], [], []⟩⟩
/-- a; d: b (a hard link to a), c; e which is empty -/
def rdTree : List FsTree := [.item [97] false (.ok (rdFile 1 2 [7])) none,
  .dir [100] false (rdDir 2) true [.item [98] false (.ok (rdFile 1 2 [7])) none, .item [99] false (.ok (rdFile 3 1 [8, 9])) none], .dir [101] false (rdDir 4) true []]
theorem rdTree_good : GoodTree rdTree ∧ ∀ e ∈ rdTree, e.Opened := by
  constructor
  · refine ⟨by decide +kernel, ?_⟩
    intro e he
    simp [rdTree] at he
    rcases he with rfl | rfl | rfl <;> simp [FsTree.Good, rdDir, rdFile, rdIno, isName, FsTree.name]
  · intro e he
    simp [rdTree] at he
    rcases he with rfl | rfl | rfl <;> simp [FsTree.Opened]
theorem rdTree_steady {ws : List WalkEv} (h : MetIn ⟨false, false⟩ (fun _ => false) rdTree ws) : SteadyInodes ws := by
  rcases h with ⟨hc, -⟩ | ⟨-, rfl⟩
  · cases hc
  · have : rdTree.flatMap (walk ⟨false, false⟩ (fun _ => false) []) = [.file [[97]] (rdFile 1 2 [7]), .dir [[100]] (rdDir 2), .file [[100], [98]] (rdFile 1 2 [7]), .file [[100], [99]] (rdFile 3 1 [8, 9]),
        .eod [[100]], .dir [[101]] (rdDir 4), .eod [[101]]] := by
      simp [rdTree, walk_item, walk_dir, lookEv]
    rw [this]
    constructor
    · intro w hw w' hw' st st' h1 h2 h3 h4
      simp at hw hw'
      rcases hw with rfl | rfl | rfl | rfl | rfl | rfl | rfl <;> cases h1 <;> rcases hw' with rfl | rfl | rfl | rfl | rfl | rfl | rfl <;> cases h2 <;> first | exact ⟨rfl, rfl⟩ | (simp [rdFile] at h3)
    · intro w hw st h1
      simp at hw
      rcases hw with rfl | rfl | rfl | rfl | rfl | rfl | rfl <;> cases h1 <;> decide +kernel
example : ∃ n r, rdAll ⟨false, false⟩ (fun _ => fsView (rdDir 9) rdTree) (fun _ => false) n = .ok r ∧
    (∃ ev ∈ r.events, Given r.links.stars (.file [[100], [98]] (rdFile 1 2 [7])) ev) ∧ ([[101]], .eod) ∈ r.events := by
  obtain ⟨n0, h⟩ := C65_all_files (rst := rdDir 9) rdTree_good.1 rdTree_good.2 rfl (fun ws => rdTree_steady)
  obtain ⟨r, h1, h2, h3, -⟩ := h n0 (Nat.le_refl _)
  refine ⟨n0, r, h1, h2 [[100], [98]] [98] false _ none rfl, ?_⟩
  exact (h3 [[101]] [101] false (rdDir 4) true [] rfl).2
/-- the hard links are given the same label, the inode being kept once -/
example : (rdAll ⟨false, false⟩ (fun _ => fsView (rdDir 9) rdTree) (fun _ => false) 20).map (fun r => (r.events, r.links.stars)) =
    .ok ([([[97]], .mirage [97] 0), ([[100]], .dir { (rdDir 2).obj with name := [100] }), ([[100], [98]], .mirage [98] 0), ([[100], [99]], .node { (rdFile 3 1 [8, 9]).obj with name := [99] }),
      ([[100]], .eod), ([[101]], .dir { (rdDir 4).obj with name := [101] }), ([[101]], .eod)], [(rdFile 1 2 [7]).obj]) := by decide +kernel

/-! ### what is not so -/

/-- C65 fails: an error met after the last entry is told by the last call, which answers that there is nothing more, and is lost (src/libdar/filtre.cpp:642: the body of the loop, which adds it to the
statistics, is not executed) -/
theorem C65_last_error_lost : ∃ (l : List FsTree) (r : RdRun), GoodTree l ∧ rdAll ⟨false, false⟩ (fun _ => fsView (rdDir 9) l) (fun _ => false) 9 = .ok r ∧
    (∃ p, fsAt l p = some (.item [98] false .failed none)) ∧ r.errored = 0 := by
  refine ⟨[.item [97] false (.ok (rdFile 1 1 [7])) none, .item [98] false .failed none], _, ?_, rfl, ⟨[[98]], rfl⟩, rfl⟩
  refine ⟨by decide +kernel, ?_⟩
  intro e he
  simp at he
  rcases he with rfl | rfl <;> simp [FsTree.Good, rdFile, rdIno, isName]
/-- C65 fails: a directory that cannot be opened is given as an empty one, and a file that must not be looked at is left out; no error is counted (src/libdar/filesystem_backup.cpp:258-276,
filesystem_hard_link_read.cpp:140-146) -/
theorem C65_unreadable_not_counted : ∃ (l : List FsTree) (r r' : RdRun), GoodTree l ∧ rdAll ⟨false, false⟩ (fun _ => fsView (rdDir 9) l) (fun _ => false) 9 = .ok r ∧
    (∃ p st, fsAt l p = some (.item [98] false (.ok st) none)) ∧ (∃ p, fsAt l p = some (.item [99] false .denied none)) ∧
    rdAll ⟨false, false⟩ (fun _ => fsView (rdDir 9) [.dir [100] false (rdDir 2) true []]) (fun _ => false) 9 = .ok r' ∧ r'.events = r.events ∧ r.errored = 0 ∧ r.lastErrors = 0 := by
  refine ⟨[.dir [100] false (rdDir 2) false [.item [98] false (.ok (rdFile 1 1 [7])) none], .item [99] false .denied none], _, _, ?_, rfl, ⟨[[100], [98]], _, rfl⟩, ⟨[[99]], rfl⟩, rfl, rfl, rfl, rfl⟩
  refine ⟨by decide +kernel, ?_⟩
  intro e he
  simp at he
  rcases he with rfl | rfl <;> simp [FsTree.Good, rdDir, rdFile, rdIno, isName]
/-- C65 fails: a file with two names is read, its names are removed, and its inode number is given to another file with two names: the four names are recorded as those of the first file -/
theorem C65_inode_reused : ∃ (hist : Nat → FsView) (r : RdRun) (k : Nat), rdAll ⟨false, false⟩ hist (fun _ => false) 9 = .ok r ∧
    r.events = [([[97]], .mirage [97] k), ([[98]], .mirage [98] k)] ∧ r.links.stars = [(rdFile 1 2 [7]).obj] ∧
    (hist 2).look [[98]] = .ok (rdFile 1 2 [8]) := by
  refine ⟨fun t => if t < 2 then fsView (rdDir 9) [.item [97] false (.ok (rdFile 1 2 [7])) none, .item [98] false .gone none]
    else fsView (rdDir 9) [.item [97] false .gone none, .item [98] false (.ok (rdFile 1 2 [8])) none], _, 0, rfl, ?_, rfl, rfl⟩
  decide +kernel

end Dar
