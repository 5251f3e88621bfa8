import Verif.Lemmas.Selection
/- C64: the files selected by -I -X -g -P (normal and ordered methods). -/
namespace Dar

/-! ### the two methods -/

/-- C64: ordered method (-am), on paths: the last option whose mask covers decides -/
theorem C64_ordered (l : List FilterOpt) (p : PathT) (h : ∀ o ∈ l, ∃ b, o.mask.coversPath p = .ok b) :
    ∃ b, (orderedMask l).coversPath p = .ok b ∧ (b = true ↔ OrderedSel FilterOpt.included (fun o => o.mask.coversPath p = .ok true) l) :=
  (ordered_eval (eval_path p) l h).2
/-- C64: normal method, on paths -/
theorem C64_normal (l : List FilterOpt) (p : PathT) (h : ∀ o ∈ l, ∃ b, o.mask.coversPath p = .ok b) :
    ∃ b, (unorderedMask l).coversPath p = .ok b ∧ (b = true ↔ NormalSel FilterOpt.included (fun o => o.mask.coversPath p = .ok true) l) :=
  unordered_eval (eval_path p) l h
/-- C64: -I and -X (also -Z and -Y, -U and -u), both methods: each option is a predicate on names -/
theorem C64_names (ordered : Bool) (l : List (Bool × (Bytes → Bool))) (name : Bytes) :
    ∃ b, (selectionMask ordered l).coversText name = .ok b ∧
      (b = true ↔ if ordered then OrderedSel Prod.fst (fun o : Bool × (Bytes → Bool) => o.2 name = true) l else NormalSel Prod.fst (fun o : Bool × (Bytes → Bool) => o.2 name = true) l) := by
  have e1 : ∀ f : Bytes → Bool, (Mask.pred f).coversText name = .ok (f name) := fun f => by rw [Mask.coversText]
  have hall : ∀ o ∈ l.map (fun o => (⟨o.1, .pred o.2⟩ : FilterOpt)), ∃ b, o.mask.coversText name = .ok b := by
    intro o ho
    obtain ⟨x, hx, rfl⟩ := List.mem_map.mp ho
    exact ⟨_, e1 x.2⟩
  cases ordered with
  | true =>
    obtain ⟨b, hb, hiff⟩ := (ordered_eval (eval_text name) _ hall).2
    refine ⟨b, hb, ?_⟩
    rw [hiff, if_pos rfl]
    exact orderedSel_congr (fun o : Bool × (Bytes → Bool) => (⟨o.1, .pred o.2⟩ : FilterOpt)) (fun _ _ => rfl) (fun o _ => by simp only [e1]; simp)
  | false =>
    obtain ⟨b, hb, hiff⟩ := unordered_eval (eval_text name) _ hall
    refine ⟨b, hb, ?_⟩
    rw [hiff, if_neg (by simp)]
    exact normalSel_congr (fun o : Bool × (Bytes → Bool) => (⟨o.1, .pred o.2⟩ : FilterOpt)) (fun _ _ => rfl) (fun o _ => by simp only [e1]; simp)
/-- the example of the manual: -X "*.mp?" -I "*.mp3" -I "toto*" -/
theorem C64_names_case :
    let mpx : Bytes → Bool := fun n => decide (n.length ≥ 4) && (n.drop (n.length - 4)).take 3 == [46, 109, 112]
    let mp3 : Bytes → Bool := fun n => n.drop (n.length - 4) == [46, 109, 112, 51]
    let toto : Bytes → Bool := fun n => n.take 4 == "toto".toUTF8.toList
    let m := selectionMask true [(false, mpx), (true, mp3), (true, toto)]
    m.coversText "toto.mp2".toUTF8.toList = .ok true ∧ m.coversText "joe.mp3".toUTF8.toList = .ok true ∧
      m.coversText "joe.mp2".toUTF8.toList = .ok false ∧ m.coversText "joe.txt".toUTF8.toList = .ok true := by
  simp only [selectionMask, if_true, orderedMask, List.map_cons, List.map_nil, List.foldl_cons, List.foldl_nil]
  refine ⟨?_, ?_, ?_, ?_⟩ <;> decide +kernel

/-! ### -g and -P -/

/-- an option applies to the tree below the root: plain names, at least one -/
def TreeOpt.Plain (o : TreeOpt) : Prop := o.names ≠ [] ∧ ∀ d ∈ o.names, PlainName d

theorem tree_ordered {glob : Bytes → Bytes → Bool} (hg : GlobLiteral glob) {root : List Bytes} (hroot : ∀ d ∈ root, PlainName d) {opts : List TreeOpt} (ho : ∀ o ∈ opts, o.Plain)
    {p : List Bytes} (hp : p ≠ []) (hn : ∀ d ∈ p, isName d ∧ (0 : UInt8) ∉ d) :
    ∃ b, (subtreeMask true glob (opts.map (TreeOpt.opt root))).coversPath ⟨root ++ p, false, false⟩ = .ok b ∧ (b = true ↔ OrderedSel TreeOpt.isGo (TreeOpt.Concerns p) opts) := by
  have hone : ∀ o ∈ opts, ∃ b, (if (o.opt root).included then includePathMask (o.opt root).arg else excludePathOrdered glob (o.opt root).arg).coversPath
      ⟨root ++ p, false, false⟩ = .ok b ∧ (b = true ↔ o.Concerns p) := by
    intro o hoo
    obtain ⟨h1, h2⟩ := ho o hoo
    cases o with
    | go q => exact go_covers hg hroot h2 hn
    | prune q => exact prune_covers_ordered hg hroot h2 h1 hn hp
  have hm : subtreeMask true glob (opts.map (TreeOpt.opt root)) =
      orderedMask (opts.map fun o => ⟨(o.opt root).included, if (o.opt root).included then includePathMask (o.opt root).arg else excludePathOrdered glob (o.opt root).arg⟩) := by
    unfold subtreeMask; rw [if_pos rfl, List.map_map]; rfl
  obtain ⟨b, hb, hiff⟩ := C64_ordered (opts.map fun o => ⟨(o.opt root).included, if (o.opt root).included then includePathMask (o.opt root).arg else excludePathOrdered glob (o.opt root).arg⟩)
    ⟨root ++ p, false, false⟩ (by
      intro o hoo
      obtain ⟨x, hx, rfl⟩ := List.mem_map.mp hoo
      obtain ⟨b, hb, -⟩ := hone x hx
      exact ⟨b, hb⟩)
  refine ⟨b, by rw [hm]; exact hb, ?_⟩
  rw [hiff]
  refine orderedSel_congr _ (fun o _ => by cases o <;> rfl) (fun o hoo => ?_)
  obtain ⟨b, hb, hb2⟩ := hone o hoo
  rw [hb, ← hb2]; simp
theorem tree_normal {glob : Bytes → Bytes → Bool} (hg : GlobLiteral glob) {root : List Bytes} (hroot : ∀ d ∈ root, PlainName d) {opts : List TreeOpt} (ho : ∀ o ∈ opts, o.Plain)
    {p : List Bytes} (hn : ∀ d ∈ p, isName d ∧ (0 : UInt8) ∉ d) :
    ∃ b, (subtreeMask false glob (opts.map (TreeOpt.opt root))).coversPath ⟨root ++ p, false, false⟩ = .ok b ∧ (b = true ↔ NormalSel TreeOpt.isGo (TreeOpt.Exactly p) opts) := by
  have hone : ∀ o ∈ opts, ∃ b, (if (o.opt root).included then includePathMask (o.opt root).arg else excludePathUnordered glob (o.opt root).arg).coversPath
      ⟨root ++ p, false, false⟩ = .ok b ∧ (b = true ↔ o.Exactly p) := by
    intro o hoo
    obtain ⟨h1, h2⟩ := ho o hoo
    cases o with
    | go q => exact go_covers hg hroot h2 hn
    | prune q => exact prune_covers_normal hg hroot h2 hn
  have hm : subtreeMask false glob (opts.map (TreeOpt.opt root)) =
      unorderedMask (opts.map fun o => ⟨(o.opt root).included, if (o.opt root).included then includePathMask (o.opt root).arg else excludePathUnordered glob (o.opt root).arg⟩) := by
    unfold subtreeMask; rw [if_neg (by simp), List.map_map]; rfl
  obtain ⟨b, hb, hiff⟩ := C64_normal (opts.map fun o => ⟨(o.opt root).included, if (o.opt root).included then includePathMask (o.opt root).arg else excludePathUnordered glob (o.opt root).arg⟩)
    ⟨root ++ p, false, false⟩ (by
      intro o hoo
      obtain ⟨x, hx, rfl⟩ := List.mem_map.mp hoo
      obtain ⟨b, hb, -⟩ := hone x hx
      exact ⟨b, hb⟩)
  refine ⟨b, by rw [hm]; exact hb, ?_⟩
  rw [hiff]
  refine normalSel_congr _ (fun o _ => by cases o <;> rfl) (fun o hoo => ?_)
  obtain ⟨b, hb, hb2⟩ := hone o hoo
  rw [hb, ← hb2]; simp

/-- the selection of the tree as the manual tells it -/
def TreeSelected (ordered : Bool) (opts : List TreeOpt) (p : List Bytes) : Prop :=
  if ordered then OrderedSel TreeOpt.isGo (TreeOpt.Concerns p) opts else NormalSel TreeOpt.isGo (TreeOpt.Concerns p) opts

/-- C64: -g and -P, both methods: a path is reached (it is covered and so are all the directories that lead to it) exactly if the options select it, each one concerning all that is
below its argument -/
theorem C64_tree (ordered : Bool) {glob : Bytes → Bytes → Bool} (hg : GlobLiteral glob) {root : List Bytes} (hroot : ∀ d ∈ root, PlainName d) {opts : List TreeOpt}
    (ho : ∀ o ∈ opts, o.Plain) {p : List Bytes} (hp : p ≠ []) (hn : ∀ d ∈ p, isName d ∧ (0 : UInt8) ∉ d) :
    ReachedBy (fun q => (subtreeMask ordered glob (opts.map (TreeOpt.opt root))).coversPath ⟨root ++ q, false, false⟩ = .ok true) p ↔ TreeSelected ordered opts p := by
  have hpre : ∀ q, q <+: p → ∀ d ∈ q, isName d ∧ (0 : UInt8) ∉ d := fun q hq d hd => hn d (hq.subset hd)
  cases ordered with
  | true =>
    unfold TreeSelected
    rw [if_pos rfl, ← ordered_reached hp]
    constructor
    · intro h q hq hqp
      obtain ⟨b, hb, hiff⟩ := tree_ordered hg hroot ho hq (hpre q hqp)
      have : (subtreeMask true glob (opts.map (TreeOpt.opt root))).coversPath ⟨root ++ q, false, false⟩ = .ok true := h q hq hqp
      rw [hb] at this
      exact hiff.mp (by simpa using this)
    · intro h q hq hqp
      obtain ⟨b, hb, hiff⟩ := tree_ordered hg hroot ho hq (hpre q hqp)
      have := hiff.mpr (h q hq hqp)
      show _ = _
      rw [hb, this]
  | false =>
    unfold TreeSelected
    rw [if_neg (by simp), ← normal_reached (fun o hoo => (ho o hoo).1) hp]
    constructor
    · intro h q hq hqp
      obtain ⟨b, hb, hiff⟩ := tree_normal hg hroot ho (hpre q hqp)
      have : (subtreeMask false glob (opts.map (TreeOpt.opt root))).coversPath ⟨root ++ q, false, false⟩ = .ok true := h q hq hqp
      rw [hb] at this
      exact hiff.mp (by simpa using this)
    · intro h q hq hqp
      obtain ⟨b, hb, hiff⟩ := tree_normal hg hroot ho (hpre q hqp)
      have := hiff.mpr (h q hq hqp)
      show _ = _
      rw [hb, this]

/-! ### the backup -/

/-- there is a directory at this path of the tree -/
def isDirAt (l : List BEntry) (p : List Bytes) : Bool := match treeAt l p with
  | some (.dir _ _) => true
  | _ => false
/-- the filters of the backup are those of the options -/
structure FiltersAre (o : BkOpts) (src : BCat) (ordered : Bool) (glob : Bytes → Bytes → Bool) (root : List Bytes) (opts : List TreeOpt) (names : List (Bool × (Bytes → Bool))) : Prop where
  cov : ∀ p, o.cov p false = coversEntry (subtreeMask ordered glob (opts.map (TreeOpt.opt root))) (selectionMask ordered names) (isDirAt src.root p) (root ++ p) (p.getLastD [])
  fails : ∀ p, o.fails p = none

theorem treeAt_parents (l : List BEntry) : ∀ (p : List Bytes) (e : BEntry), treeAt l p = some e → ∀ q, q ≠ [] → q <+: p → q ≠ p → isDirAt l q = true := by
  intro p
  induction p generalizing l with
  | nil => intro e h q hq hqp _; exact absurd (List.prefix_nil.mp hqp) hq
  | cons n p ih =>
    intro e h q hq hqp hne
    cases p with
    | nil =>
      exfalso
      obtain ⟨r, hr⟩ := hqp
      cases q with
      | nil => exact hq rfl
      | cons x q =>
        simp at hr
        exact hne (by rw [hr.1, hr.2.1])
    | cons m p =>
      unfold treeAt at h
      cases hf : l.find? (fun e => e.name = n) with
      | none => rw [hf] at h; cases h
      | some x =>
        rw [hf] at h
        cases x with
        | dir y ch =>
          dsimp only at h
          cases q with
          | nil => exact absurd rfl hq
          | cons x q =>
            obtain ⟨rfl, hqp'⟩ := List.cons_prefix_cons.mp hqp
            cases q with
            | nil =>
              unfold isDirAt
              have : treeAt l [x] = some (.dir y ch) := by unfold treeAt; exact hf
              rw [this]
            | cons z q =>
              have := ih ch e h (z :: q) (by simp) hqp' (fun he => hne (by rw [he]))
              unfold isDirAt at this ⊢
              have e2 : treeAt l (x :: z :: q) = treeAt ch (z :: q) := by
                conv_lhs => unfold treeAt
                rw [hf]
              rw [e2]; exact this
        | _ => cases h

/-- C64: what a backup contains: of the files of the source, exactly those that the options about paths select and whose name the options about names select -/
theorem C64_backup {o : BkOpts} {src ref cat : BCat} {st : Stats} (h : backup o src ref = .ok (cat, st)) {ordered : Bool} {glob : Bytes → Bytes → Bool} (hg : GlobLiteral glob)
    {root : List Bytes} (hroot : ∀ d ∈ root, PlainName d) {opts : List TreeOpt} (ho : ∀ o ∈ opts, o.Plain) {names : List (Bool × (Bytes → Bool))}
    (hf : FiltersAre o src ordered glob root opts names) {p : List Bytes} (hp : p ≠ []) (hn : ∀ d ∈ p, isName d ∧ (0 : UInt8) ∉ d) :
    (∀ x, treeAt src.root p = some (.node x) → ((∃ x', treeAt cat.root p = some (.node x')) ↔
        TreeSelected ordered opts p ∧ (selectionMask ordered names).coversText (p.getLastD []) = .ok true)) ∧
    (∀ x ch, treeAt src.root p = some (.dir x ch) → ((∃ x' ch', treeAt cat.root p = some (.dir x' ch')) ↔ TreeSelected ordered opts p)) := by
  have hsub : ∀ q, q ≠ [] → q <+: p → ∃ b, (subtreeMask ordered glob (opts.map (TreeOpt.opt root))).coversPath ⟨root ++ q, false, false⟩ = .ok b := by
    intro q hq hqp
    have hq' : ∀ d ∈ q, isName d ∧ (0 : UInt8) ∉ d := fun d hd => hn d (hqp.subset hd)
    cases ordered with
    | true => obtain ⟨b, hb, -⟩ := tree_ordered hg hroot ho hq hq'; exact ⟨b, hb⟩
    | false => obtain ⟨b, hb, -⟩ := tree_normal hg hroot ho hq'; exact ⟨b, hb⟩
  have hcov : ∀ q, q ≠ [] → q <+: p → (o.cov q false = true ↔ (subtreeMask ordered glob (opts.map (TreeOpt.opt root))).coversPath ⟨root ++ q, false, false⟩ = .ok true ∧
      (isDirAt src.root q = true ∨ (selectionMask ordered names).coversText (q.getLastD []) = .ok true)) := by
    intro q hq hqp
    rw [hf.cov q]
    unfold coversEntry
    obtain ⟨b, hb⟩ := hsub q hq hqp
    obtain ⟨c, hc, -⟩ := C64_names ordered names (q.getLastD [])
    rw [hb, hc]
    simp
  have hkept : (isDirAt src.root p = true ∨ (∃ e, treeAt src.root p = some e)) → (Kept o p ↔ TreeSelected ordered opts p ∧
      (isDirAt src.root p = true ∨ (selectionMask ordered names).coversText (p.getLastD []) = .ok true)) := by
    intro hex
    obtain ⟨e, he⟩ : ∃ e, treeAt src.root p = some e := by
      rcases hex with hex | hex
      · unfold isDirAt at hex
        cases ht : treeAt src.root p with
        | none => rw [ht] at hex; cases hex
        | some e => exact ⟨e, rfl⟩
      · exact hex
    rw [← C64_tree ordered hg hroot ho hp hn]
    constructor
    · intro hk
      exact ⟨fun q hq hqp => ((hcov q hq hqp).mp (hk q hq hqp).1).1, ((hcov p hp (List.prefix_refl _)).mp (hk p hp (List.prefix_refl _)).1).2⟩
    · rintro ⟨h1, h2⟩ q hq hqp
      refine ⟨(hcov q hq hqp).mpr ⟨h1 q hq hqp, ?_⟩, hf.fails q⟩
      by_cases hqe : q = p
      · rw [hqe]; exact h2
      · exact Or.inl (treeAt_parents src.root p e he q hq hqp hqe)
  constructor
  · intro x hx
    have hnd : isDirAt src.root p = false := by unfold isDirAt; rw [hx]
    have hk := hkept (Or.inr ⟨_, hx⟩)
    rw [hnd] at hk
    simp only [Bool.false_eq_true, false_or] at hk
    rw [← hk]
    constructor
    · rintro ⟨x', hx'⟩
      exact ((C33_nothing_else o src ref cat st h p x').1 hx').1
    · intro hkp
      obtain ⟨x', h1, -⟩ := (C33_recorded o src ref cat st h p x hkp).1 hx
      exact ⟨x', h1⟩
  · intro x ch hx
    have hnd : isDirAt src.root p = true := by unfold isDirAt; rw [hx]
    have hk := hkept (Or.inr ⟨_, hx⟩)
    rw [hnd] at hk
    simp only [true_or, and_true] at hk
    rw [← hk]
    constructor
    · rintro ⟨x', ch', hx'⟩
      exact ((C33_nothing_else o src ref cat st h p x').2 ch' hx').1
    · intro hkp
      obtain ⟨x', ch', h1, -⟩ := (C33_recorded o src ref cat st h p x hkp).2 ch hx
      exact ⟨x', ch', h1⟩

/-! ### an example of fnmatch, and what goes wrong -/

/-- a matcher of patterns with `*`, `?` and the backslash; the boolean tells that a backslash was just met -/
def sGlobE : Bytes → Bool → Bytes → Bool
  | [], _, s => s.isEmpty
  | c :: p, true, s => s.head? == some c && sGlobE p false s.tail
  | c :: p, false, s =>
    if c = 42 then (List.range (s.length + 1)).any (fun i => sGlobE p false (s.drop i))
    else if c = 92 then sGlobE p true s
    else !s.isEmpty && (c == 63 || s.head? == some c) && sGlobE p false s.tail
def sGlob (p s : Bytes) : Bool := sGlobE p false s
theorem sGlob_literal : GlobLiteral sGlob := by
  have step : ∀ (c : UInt8) (p : Bytes) (s : Bytes), c ≠ 42 → c ≠ 63 → c ≠ 92 → (sGlob (c :: p) s = true ↔ ∃ t, s = c :: t ∧ sGlob p t = true) := by
    intro c p s h1 h2 h3
    unfold sGlob
    rw [sGlobE, if_neg h1, if_neg h3]
    cases s with
    | nil => simp
    | cons a t => simp [h2]
  have hspec : ∀ c : UInt8, c ∉ ([42, 63, 91, 92] : Bytes) → c ≠ 42 ∧ c ≠ 63 ∧ c ≠ 92 := by
    intro c hc; simp at hc; exact ⟨hc.1, hc.2.1, hc.2.2.2⟩
  constructor
  · intro q
    induction q with
    | nil => intro s _; simp [sGlob, sGlobE]
    | cons c q ih =>
      intro s h
      obtain ⟨h1, h2, h3⟩ := hspec c (h c (by simp))
      rw [step c q s h1 h2 h3]
      constructor
      · rintro ⟨t, rfl, ht⟩
        rw [(ih t (fun x hx => h x (by simp [hx]))).mp ht]
      · rintro rfl
        exact ⟨q, rfl, (ih q (fun x hx => h x (by simp [hx]))).mpr rfl⟩
  · intro q
    induction q with
    | nil =>
      intro s _
      rw [List.nil_append, step 47 [42] s (by decide) (by decide) (by decide)]
      have e : ∀ t, sGlob [42] t = true := by
        intro t; show (List.range (t.length + 1)).any _ = true; rw [List.any_eq_true]; exact ⟨t.length, by simp, by simp [sGlobE]⟩
      simp [e]
    | cons c q ih =>
      intro s h
      obtain ⟨h1, h2, h3⟩ := hspec c (h c (by simp))
      rw [List.cons_append, step c _ s h1 h2 h3]
      constructor
      · rintro ⟨t, rfl, ht⟩
        obtain ⟨r, rfl⟩ := (ih t (fun x hx => h x (by simp [hx]))).mp ht
        exact ⟨r, rfl⟩
      · rintro ⟨r, rfl⟩
        exact ⟨q ++ 47 :: r, rfl, (ih _ (fun x hx => h x (by simp [hx]))).mpr ⟨r, rfl⟩⟩

/-- with -am -P a -g a/b: below a only a/b is selected; the other way round nothing of it is -/
theorem C64_tree_case :
    let a : Bytes := [97]; let b : Bytes := [98]; let c : Bytes := [99]
    TreeSelected true [.prune [a], .go [a, b]] [a, b, c] ∧ ¬ TreeSelected true [.prune [a], .go [a, b]] [a, c] ∧
    TreeSelected true [.prune [a], .go [a, b]] [c] ∧ ¬ TreeSelected true [.go [a, b], .prune [a]] [a, b] := by
  refine ⟨?_, ?_, ?_, ?_⟩
  · refine Or.inl ⟨[.prune [[97]]], .go [[97], [98]], [], rfl, rfl, Or.inl ⟨[[99]], rfl⟩, by simp⟩
  · unfold TreeSelected
    rw [if_pos rfl, show ([.prune [[97]], .go [[97], [98]]] : List TreeOpt) = [.prune [[97]]] ++ [.go [[97], [98]]] from rfl, orderedSel_inc rfl,
      show ([.prune [[97]]] : List TreeOpt) = [] ++ [.prune [[97]]] from rfl, orderedSel_exc rfl]
    simp [TreeOpt.Concerns]
  · unfold TreeSelected
    rw [if_pos rfl]
    refine Or.inr ⟨?_, ?_⟩
    · intro o ho
      simp at ho
      rcases ho with rfl | rfl <;> simp [TreeOpt.Concerns]
    · intro o l' h
      simp at h
      rw [← h.1]; rfl
  · unfold TreeSelected
    rw [if_pos rfl, show ([.go [[97], [98]], .prune [[97]]] : List TreeOpt) = [.go [[97], [98]]] ++ [.prune [[97]]] from rfl, orderedSel_exc rfl]
    simp [TreeOpt.Concerns]

/-- -] in the ordered method does not act as -P: a listed directory does not exclude its contents if a later option leads into it.  With -P a -g a/b the path a/c is excluded, with
a file listing a in place of -P a it is not. -/
theorem C64_listing_counterexample :
    let a : Bytes := [97]; let b : Bytes := [98]; let c : Bytes := [99]
    (subtreeMask true sGlob [⟨false, .path ⟨[a], false, false⟩⟩, ⟨true, .path ⟨[a, b], false, false⟩⟩]).coversPath ⟨[a, c], false, false⟩ = .ok false ∧
    (subtreeMask true sGlob [⟨false, .listing [⟨[a], false, false⟩]⟩, ⟨true, .path ⟨[a, b], false, false⟩⟩]).coversPath ⟨[a, c], false, false⟩ = .ok true ∧
    (subtreeMask true sGlob [⟨false, .listing [⟨[a], false, false⟩]⟩, ⟨true, .path ⟨[a, b], false, false⟩⟩]).coversPath ⟨[a], false, false⟩ = .ok true := by
  have hA : ∀ l : List Bytes, (∀ d ∈ l, d = [97] ∨ d = [98] ∨ d = [99]) → AbsNames ⟨l, false, false⟩ := by
    intro l hl
    refine ⟨rfl, rfl, fun d hd => ?_⟩
    rcases hl d hd with rfl | rfl | rfl <;> (unfold isName; decide)
  have hP : ∀ d : Bytes, (d = [97] ∨ d = [98] ∨ d = [99]) → PlainName d := by
    rintro d (rfl | rfl | rfl) <;> (unfold PlainName isName; decide)
  have hlist : ∀ t : List Bytes, (∀ d ∈ t, d = [97] ∨ d = [98] ∨ d = [99]) →
      ∃ b, (Mask.list (mlBuild [PathT.display ⟨[[97]], false, false⟩]) false).coversPath ⟨t, false, false⟩ = .ok b ∧ (b = true ↔ t = [[97]]) := by
    intro t ht
    obtain ⟨b, hb, hb2⟩ := C27_list_exclude [PathT.display ⟨[[97]], false, false⟩] (PathT.display ⟨t, false, false⟩)
    refine ⟨b, by rw [Mask.coversPath]; exact hb, ?_⟩
    rw [hb2]
    simp only [List.mem_singleton]
    constructor
    · intro h
      have h1 := (hA t ht).reparse
      rw [h, (hA [[97]] (by simp)).reparse] at h1
      simp at h1
      exact h1.symm
    · rintro rfl; rfl
  have hgo : ∀ t : List Bytes, (∀ d ∈ t, d = [97] ∨ d = [98] ∨ d = [99]) →
      ∃ b, (Mask.simplePath ⟨[[97], [98]], false, false⟩ id).coversPath ⟨t, false, false⟩ = .ok b ∧ (b = true ↔ [[97], [98]] <+: t ∨ t <+: [[97], [98]]) :=
    fun t ht => C27_simple_path _ _ (hA t ht) (hA [[97], [98]] (by simp))
  refine ⟨?_, ?_, ?_⟩
  · obtain ⟨b, hb, hiff⟩ := tree_ordered sGlob_literal (root := []) (by simp) (opts := [.prune [[97]], .go [[97], [98]]]) (by
      intro o ho
      simp at ho
      rcases ho with rfl | rfl
      · exact ⟨by simp [TreeOpt.names], fun d hd => hP d (by simp [TreeOpt.names] at hd; tauto)⟩
      · exact ⟨by simp [TreeOpt.names], fun d hd => hP d (by simp [TreeOpt.names] at hd; tauto)⟩) (p := [[97], [99]]) (by simp) (by
      intro d hd
      exact ⟨(hP d (by simp at hd; tauto)).1, (hP d (by simp at hd; tauto)).2.1⟩)
    have hbf : b = false := by
      cases b with
      | false => rfl
      | true => exact absurd (hiff.mp rfl) C64_tree_case.2.1
    rw [hbf] at hb
    exact hb
  · obtain ⟨b1, h1, h1'⟩ := hlist [[97], [99]] (by simp)
    obtain ⟨b2, h2, h2'⟩ := hgo [[97], [99]] (by simp)
    have e1 : b1 = false := by cases b1; rfl; simp at h1'
    have e2 : b2 = false := by cases b2; rfl; simp at h2'
    rw [e1] at h1
    rw [e2] at h2
    show (Mask.or [.not (.list (mlBuild [PathT.display ⟨[[97]], false, false⟩]) false), .simplePath ⟨[[97], [98]], false, false⟩ id]).coversPath _ = _
    rw [Mask.coversPath]
    simp [Mask.anyPath, Mask.coversPath.eq_def (.not _), h1, Except.map]
  · obtain ⟨b1, h1, h1'⟩ := hlist [[97]] (by simp)
    obtain ⟨b2, h2, h2'⟩ := hgo [[97]] (by simp)
    have e1 : b1 = true := h1'.mpr rfl
    have e2 : b2 = true := h2'.mpr (by simp)
    rw [e1] at h1
    rw [e2] at h2
    show (Mask.or [.not (.list (mlBuild [PathT.display ⟨[[97]], false, false⟩]) false), .simplePath ⟨[[97], [98]], false, false⟩ id]).coversPath _ = _
    rw [Mask.coversPath]
    simp [Mask.anyPath, Mask.coversPath.eq_def (.not _), h1, h2, Except.map]
/-- -P: the root of the operation is made part of the pattern without being protected: below a directory whose name has a backslash (or brackets) the option excludes nothing -/
theorem C64_root_counterexample : (subtreeMask false sGlob [⟨false, .path ⟨[[97, 92, 98], [99]], false, false⟩⟩]).coversPath ⟨[[97, 92, 98], [99]], false, false⟩ = .ok true := by
  simp only [subtreeMask, Bool.false_eq_true, if_false, unorderedMask, List.map_cons, List.map_nil, excludePathUnordered]
  simp only [List.filter, Mask.coversPath]
  decide +kernel

private def selObj (name : Bytes) (kind : InoKind) : Obj :=
  ⟨name, ⟨kind, 1000, 100, 420, ⟨10, .s⟩, ⟨10, .s⟩, .saved, 5, false, false, false, 0, 0, [], .none, 0, 0⟩, .none, [], [], []⟩
/-- a directory "d" with the files "a", "b" and "c" -/
private def selSrc : BCat := ⟨[.dir (selObj [100] .dir) [.node (selObj [97] .file), .node (selObj [98] .file), .node (selObj [99] .file)]], fun _ => selObj [] .file⟩
private def selNames : List (Bool × (Bytes → Bool)) := [(false, fun n => n == [98])]
private def selOpts : BkOpts := ⟨.us, 0, .all, false, 0, false, .anyInodeChange, false,
  fun p _ => coversEntry (subtreeMask true sGlob ([TreeOpt.prune [[100], [97]]].map (TreeOpt.opt [[114]]))) (selectionMask true selNames) (isDirAt selSrc.root p) ([[114]] ++ p) (p.getLastD []),
  fun _ => false, fun _ => none⟩
/-- a backup with -am -R /r -P d/a -X b of a directory d that has a, b and c: only c is in the archive -/
theorem C64_backup_case : ∃ cat st, backup selOpts selSrc ⟨[], fun _ => selObj [] .file⟩ = .ok (cat, st) ∧
    (∃ x ch, treeAt cat.root [[100]] = some (.dir x ch)) ∧ (¬ ∃ x, treeAt cat.root [[100], [97]] = some (.node x)) ∧
    (¬ ∃ x, treeAt cat.root [[100], [98]] = some (.node x)) ∧ ∃ x, treeAt cat.root [[100], [99]] = some (.node x) := by
  obtain ⟨cat, st, h⟩ := C33_completes selOpts selSrc ⟨[], fun _ => selObj [] .file⟩ (by
    simp [BEntry.EachL, BEntry.Each, selSrc, GoodEntry, SourceEntry, selObj])
  have hf : FiltersAre selOpts selSrc true sGlob [[114]] [TreeOpt.prune [[100], [97]]] selNames := ⟨fun _ => rfl, fun _ => rfl⟩
  have hP : ∀ d : Bytes, (d = [97] ∨ d = [98] ∨ d = [99] ∨ d = [100] ∨ d = [114]) → PlainName d := by
    rintro d (rfl | rfl | rfl | rfl | rfl) <;> (unfold PlainName isName; decide)
  have hall : ∀ p : List Bytes, p ≠ [] → (∀ d ∈ p, d = [97] ∨ d = [98] ∨ d = [99] ∨ d = [100]) → _ := fun p h1 h2 =>
    C64_backup h sGlob_literal (root := [[114]]) (fun d hd => hP d (by simp at hd; tauto)) (opts := [TreeOpt.prune [[100], [97]]]) (fun o ho => by
      simp at ho; subst ho
      exact ⟨by simp [TreeOpt.names], fun d hd => hP d (by simp [TreeOpt.names] at hd; tauto)⟩) hf (p := p) h1
      (fun d hd => ⟨(hP d (by have := h2 d hd; tauto)).1, (hP d (by have := h2 d hd; tauto)).2.1⟩)
  have hsel : ∀ p : List Bytes, TreeSelected true [TreeOpt.prune [[100], [97]]] p ↔ ¬ [[100], [97]] <+: p := by
    intro p
    unfold TreeSelected
    rw [if_pos rfl, show ([TreeOpt.prune [[100], [97]]] : List TreeOpt) = [] ++ [TreeOpt.prune [[100], [97]]] from rfl, orderedSel_exc rfl]
    simp [TreeOpt.Concerns, OrderedSel]
  have hname : ∀ n : Bytes, (selectionMask true selNames).coversText n = .ok (!(n == [98])) := by
    intro n
    show (Mask.not (.pred _)).coversText n = _
    rw [Mask.coversText, Mask.coversText]; rfl
  refine ⟨cat, st, h, ?_, ?_, ?_, ?_⟩
  · exact ((hall [[100]] (by simp) (by simp)).2 _ _ rfl).mpr ((hsel _).mpr (by simp))
  · intro hx
    have := (((hall [[100], [97]] (by simp) (by simp)).1 _ rfl).mp hx).1
    rw [hsel] at this
    exact this (List.prefix_refl _)
  · intro hx
    have := (((hall [[100], [98]] (by simp) (by simp)).1 _ rfl).mp hx).2
    rw [hname] at this
    simp at this
  · refine ((hall [[100], [99]] (by simp) (by simp)).1 _ rfl).mpr ⟨(hsel _).mpr (by simp), ?_⟩
    rw [hname]; simp

end Dar
