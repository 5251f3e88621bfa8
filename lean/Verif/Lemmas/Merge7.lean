import Verif.Lemmas.Merge6
/- The second archive: the whole walk. -/
namespace Dar

/-- the same as `Merged`, below the directory of path `b` -/
def MergedP (o : MgOpts) (T : Nat → Obj) (dt : DateT) (b : List Bytes) (l1 l2 r : List BEntry) : Prop :=
  ∀ p c1 c2 c d, dirAt l1 p = some c1 → dirAt l2 p = some c2 → dirAt r p = some c → dirDate dt l2 p = some d →
    ∀ n, MergedAt o T T d (b ++ p ++ [n]) (findChild c1 n) (findChild c2 n) (findChild c n)

/-- what is known of a name -/
structure EntryRel (o : MgOpts) (T : Nat → Obj) (dt : DateT) (b : List Bytes) (n : Bytes) (f1 f2 r : Option BEntry) : Prop where
  here : MergedAt o T T dt (b ++ [n]) f1 f2 r
  below : ∀ x1 c1 x2 c2 x c, f1 = some (.dir x1 c1) → f2 = some (.dir x2 c2) → r = some (.dir x c) → MergedP o T x2.ino.mtime (b ++ [n]) c1 c2 c

theorem dirDate_below {dt : DateT} {l2 c2 : List BEntry} {x2 : Obj} {n : Bytes} {q : List Bytes} (h : findChild l2 n = some (.dir x2 c2)) :
    dirDate dt l2 (n :: q) = dirDate x2.ino.mtime c2 q := by
  unfold dirDate
  rw [if_neg (by simp)]
  unfold findChild at h
  cases q with
  | nil => simp only [treeAt, h, if_true]
  | cons m q =>
    rw [if_neg (by simp)]
    simp only [treeAt, h]
theorem mergedP_of {o : MgOpts} {T : Nat → Obj} {dt : DateT} {b : List Bytes} {l1 l2 r : List BEntry}
    (h : ∀ n, EntryRel o T dt b n (findChild l1 n) (findChild l2 n) (findChild r n)) : MergedP o T dt b l1 l2 r := by
  intro p c1 c2 c d h1 h2 h3 h4 n
  cases p with
  | nil =>
    cases h1; cases h2; cases h3
    unfold dirDate at h4
    rw [if_pos rfl] at h4
    cases h4
    rw [List.append_nil]
    exact (h n).here
  | cons m q =>
    unfold dirAt at h1 h2 h3
    cases g1 : findChild l1 m with
    | none => rw [g1] at h1; cases h1
    | some e1 =>
      cases e1 with
      | dir x1 d1 =>
        cases g2 : findChild l2 m with
        | none => rw [g2] at h2; cases h2
        | some e2 =>
          cases e2 with
          | dir x2 d2 =>
            cases g3 : findChild r m with
            | none => rw [g3] at h3; cases h3
            | some e3 =>
              cases e3 with
              | dir x3 d3 =>
                rw [g1] at h1; rw [g2] at h2; rw [g3] at h3
                rw [dirDate_below g2] at h4
                have := (h m).below x1 d1 x2 d2 x3 d3 g1 g2 g3 q c1 c2 c d h1 h2 h3 h4 n
                simpa using this
              | _ => rw [g3] at h3; cases h3
          | _ => rw [g2] at h2; cases h2
      | _ => rw [g1] at h1; cases h1

/-! ### the relation in each case -/

section
variable {o : MgOpts} {T : Nat → Obj} {dt : DateT} {b : List Bytes} {n : Bytes}

theorem rel_none (f : Option BEntry) : EntryRel o T dt b n f none f := by
  refine ⟨⟨fun e h _ => h, (fun e _ h _ => by cases h), (fun e _ h _ _ => by cases h), fun h _ => h, (fun e1 e2 _ h _ => by cases h), (fun e1 e2 _ h _ _ => by cases h),
    (fun e1 e2 e _ h _ _ => by cases h)⟩, (fun _ _ _ _ _ _ _ h _ => by cases h)⟩
theorem rel_new {E : BEntry} (hd : o.decremental = false ∨ E.isIgnoredDir = true) : EntryRel o T dt b n none (some E) (some E) := by
  refine ⟨⟨(fun e h _ => by cases h), (fun e _ h _ => h), fun e _ h h1 h2 => ?_, (fun _ h => by cases h), (fun e1 e2 h _ _ => by cases h),
    (fun e1 e2 h _ _ _ => by cases h), (fun e1 e2 e h _ _ _ => by cases h)⟩, (fun _ _ _ _ _ _ h _ _ => by cases h)⟩
  cases h
  rcases hd with hd | hd
  · rw [hd] at h1; cases h1
  · rw [hd] at h2; cases h2
theorem rel_gone {E : BEntry} (hd : o.decremental = true) (hE : E.isIgnoredDir = false) :
    EntryRel o T dt b n none (some E) (some (.detruit E.name (E.sigKind T) dt)) := by
  refine ⟨⟨(fun e h _ => by cases h), fun e _ h h1 => ?_, fun e _ h h1 h2 => ?_, (fun _ h => by cases h), (fun e1 e2 h _ _ => by cases h),
    (fun e1 e2 h _ _ _ => by cases h), (fun e1 e2 e h _ _ _ => by cases h)⟩, (fun _ _ _ _ _ _ h _ _ => by cases h)⟩
  · cases h
    rw [hd, hE] at h1
    rcases h1 with h1 | h1 <;> cases h1
  · cases h; rfl
theorem rel_excl {al E : BEntry} (h1 : al.isIgnoredDir = true) (h2 : E.isIgnoredDir = true) : EntryRel o T dt b n (some al) (some E) (some E) := by
  have hnd : ∀ e : BEntry, e.isIgnoredDir = true → e.isDir = false := by intro e he; cases e <;> first | rfl | (cases he)
  refine ⟨⟨(fun e _ h => by cases h), (fun e h _ _ => by cases h), (fun e h _ _ _ => by cases h), (fun h _ => by cases h), (fun e1 e2 h3 h4 _ => by cases h3; cases h4; exact ⟨h1, h2, rfl⟩),
    (fun e1 e2 h3 _ h5 _ => by cases h3; rw [h1] at h5; cases h5), (fun e1 e2 e h3 h4 h5 h6 => by cases h5; rw [hnd _ h2] at h6; cases h6)⟩,
    (fun _ _ _ _ _ _ h _ _ => by cases h; cases h1)⟩
theorem rel_conf {al E : BEntry} {r : Option BEntry} {d : OverData} {a : OverEa} (h1 : al.isIgnoredDir = false) (h2 : E.isIgnoredDir = false)
    (hd : Decided o T T (b ++ [n]) al E d a) (hkt : KeepsOld d ∨ TakesNew d → ∃ e, r = some e ∧ HeadOf o T T d a al E e) (hr : d = .remove → r = emptyMark o al)
    (hask : d ≠ .ask) (ha1 : ∀ e, r = some e → e.isDir = true → al.isDir = true → E.isDir = false → e.contents = al.contents)
    (ha2 : ∀ e, r = some e → e.isDir = true → al.isDir = false → E.isDir = true → e.contents = E.contents)
    (hb : ∀ x1 c1 x2 c2 x c, al = .dir x1 c1 → E = .dir x2 c2 → r = some (.dir x c) → MergedP o T x2.ino.mtime (b ++ [n]) c1 c2 c) :
    EntryRel o T dt b n (some al) (some E) r := by
  refine ⟨⟨(fun e _ h => by cases h), (fun e h _ _ => by cases h), (fun e h _ _ _ => by cases h), (fun h _ => by cases h), (fun e1 e2 h3 h4 h5 => by
    cases h3; cases h4; rw [h1, h2] at h5; rcases h5 with h5 | h5 <;> cases h5), (fun e1 e2 h3 h4 _ _ => by
    cases h3; cases h4; exact ⟨d, a, hd, hkt, hr, hask⟩), (fun e1 e2 e h3 h4 h5 h6 => by
    cases h3; cases h4; exact ⟨ha1 e h5 h6, ha2 e h5 h6⟩)⟩, (fun x1 c1 x2 c2 x c h3 h4 h5 => hb x1 c1 x2 c2 x c (by cases h3; rfl) (by cases h4; rfl) h5)⟩
end

theorem KeepsOld.not_ask {d : OverData} (h : KeepsOld d) : d ≠ .ask := by rcases h with rfl | rfl | rfl <;> simp
theorem KeepsOld.not_remove {d : OverData} (h : KeepsOld d) : d ≠ .remove := by rcases h with rfl | rfl | rfl <;> simp
theorem TakesNew.not_ask {d : OverData} (h : TakesNew d) : d ≠ .ask := by rcases h with rfl | rfl <;> simp
theorem TakesNew.not_remove {d : OverData} (h : TakesNew d) : d ≠ .remove := by rcases h with rfl | rfl <;> simp

/-- the events after the entry itself -/
def BEntry.rest : BEntry → List BEv
  | .dir _ c => BEntry.eventsList c ++ [BEv.eod]
  | _ => []
theorem events_rest (e : BEntry) : e.events = .entry e :: e.rest := by cases e <;> simp [BEntry.events, BEntry.rest]
theorem rest_skipped {o : MgOpts} {b : Bool} {rs : Nat → Obj} {off : Nat} {e : BEntry} {s : MgSt} (h : s.skip = if e.isDir then 1 else 0) :
    mergeLoop o b rs off s e.rest = .ok { s with skip := 0 } := by
  cases e with
  | dir x c => exact merge_skipped o b rs off c s h
  | _ =>
    have : s.skip = 0 := h
    show Except.ok s = _
    rw [← this]

theorem path_frames {c c' : Cursor} (h : c.frames = c'.frames) : c.path = c'.path := by unfold Cursor.path; rw [h]

section
variable {o : MgOpts} {T rs : Nat → Obj} {off : Nat}

theorem sel_some {p : List Bytes} {e : BEntry} (hc : o.covers p e = true) : ∃ E, e.sel o p = some E ∧ E.emptied = e.emptied ∧ E.name = e.name ∧ SameKind e E ∧ E.label = e.label ∧
    (e.Src → E.isIgnoredDir = false) ∧ (∀ x c, e = .dir x c → E = .dir x (BEntry.selectL o (p ++ [x.name]) c)) := by
  cases hd : e.isDir with
  | false =>
    rw [sel_leaf hd, if_pos hc]
    refine ⟨e, rfl, rfl, rfl, ⟨rfl, fun _ => rfl⟩, rfl, fun h => ?_, fun x c h => ?_⟩
    · cases e <;> first | rfl | (unfold BEntry.Src at h; exact h.elim)
    · subst h; cases hd
  | true =>
    cases e <;> first | (cases hd; done) | skip
    rename_i x c
    have : o.subtree (p ++ [x.name]) = true := by simpa [MgOpts.covers, BEntry.isDir, BEntry.name] using hc
    rw [sel_dir, if_pos this]
    exact ⟨_, rfl, rfl, rfl, ⟨rfl, fun _ => rfl⟩, rfl, fun _ => rfl, fun x c h => by cases h; rfl⟩

/-- the entries met at the same path -/
def PairE (o : MgOpts) (T : Nat → Obj) (p : List Bytes) (l1 l2 : List BEntry) : Prop :=
  ∀ q a b, treeAt l1 q = some a → treeAt l2 q = some b → LinkCond o T (p ++ q) a b

theorem treeAt_cons {l : List BEntry} {n : Bytes} {x : Obj} {c : List BEntry} (h : findChild l n = some (.dir x c)) {q : List Bytes} (hq : q ≠ []) :
    treeAt l (n :: q) = treeAt c q := by
  unfold findChild at h
  cases q with
  | nil => exact absurd rfl hq
  | cons m q => simp only [treeAt, h]

theorem relabel_src {f : Nat → Nat} {e : BEntry} (h : e.Src) : (e.relabel f).isIgnoredDir = false := by
  cases e <;> unfold BEntry.Src at h <;> first | exact h.elim | simp [BEntry.relabel, BEntry.isIgnoredDir]
theorem srcL_mem : ∀ {l : List BEntry}, BEntry.SrcL l → ∀ e ∈ l, e.Src
  | [], _, e, he => by cases he
  | a :: l, h, e, he => by
    unfold BEntry.SrcL at h
    rcases List.mem_cons.1 he with rfl | he
    · exact h.1
    · exact srcL_mem h.2 e he
theorem relabel_mtime (f : Nat → Nat) (e : BEntry) : (e.relabel f).mtime = e.mtime := by cases e <;> simp [BEntry.relabel, BEntry.mtime]
theorem relabel_sigKind (hT : ∀ k, T (k + off) = rs k) (e : BEntry) : (e.relabel (· + off)).sigKind T = e.sigKind rs := by
  cases e <;> simp [BEntry.relabel, BEntry.sigKind, hT]
theorem emptied_sigKind (st : Nat → Obj) (e : BEntry) : e.emptied.sigKind st = e.sigKind st := by cases e <;> rfl
theorem relabel_label_ge {e : BEntry} {j : Nat} (h : (e.relabel (· + off)).label = some j) : off ≤ j := by
  cases e <;> simp [BEntry.relabel, BEntry.label] at h
  omega

/-- what is known after a part of the walk -/
structure After (T : Nat → Obj) (s s' : MgSt) : Prop where
  frames : s'.at_.frames = s.at_.frames
  dates : s'.dates = s.dates
  inv : MInv T none s'
  distinct : BEntry.DistinctL s'.at_.cur

mutual
theorem second_entry (hT : ∀ k, T (k + off) = rs k) (hw : o.warn = true → ∀ p, o.acceptEa p = true)
    (hdec : o.decremental = true → ∀ t P e1 e2 d a, Decided o t t P e1 e2 d a → KeepsOld d) (e : BEntry) (hde : e.Distinct) (hsrc : e.Src) (s s' : MgSt) (dt : DateT) (dr : List DateT)
    (hdt : s.dates = dt :: dr) (hi : MInv T none s) (hdc : BEntry.DistinctL s.at_.cur)
    (hcl : ∀ al, findChild s.at_.cur e.name = some al → al.Clean o off s.at_.path)
    (hpair : PairE o T s.at_.path s.at_.cur ((e.relabel (· + off)).select o s.at_.path)) (h : mergeLoop o true rs off s e.events = .ok s') :
    After T s s' ∧ (∀ m, m ≠ e.name → findChild s'.at_.cur m = findChild s.at_.cur m) ∧
      EntryRel o T dt s.at_.path e.name (findChild s.at_.cur e.name) ((e.relabel (· + off)).sel o s.at_.path) (findChild s'.at_.cur e.name) := by
  rw [events_rest, loop_one] at h
  cases hc : o.covers s.at_.path e with
  | false =>
    rw [step_excl hi.skip hc] at h
    change mergeLoop o true rs off (mergeExcl o s e) e.rest = .ok s' at h
    cases hd : e.isDir with
    | false =>
      have h1 : mergeExcl o s e = s := by cases e <;> first | rfl | (cases hd)
      have h2 : e.rest = [] := by cases e <;> first | rfl | (cases hd)
      rw [h1, h2] at h
      cases h
      refine ⟨⟨rfl, rfl, hi, hdc⟩, fun m _ => rfl, ?_⟩
      rw [sel_leaf (by rw [relabel_isDir]; exact hd), covers_relabel, hc]
      exact rel_none _
    | true =>
      cases e <;> first | (cases hd; done) | skip
      rename_i x c
      change o.covers s.at_.path (.dir x c) = false at hc
      have hsub : o.subtree (s.at_.path ++ [x.name]) = false := by simpa [MgOpts.covers, BEntry.isDir, BEntry.name] using hc
      change mergeLoop o true rs off (mergeExcl o s (.dir x c)) (BEntry.eventsList c ++ [BEv.eod]) = .ok s' at h
      rw [merge_skipped _ _ _ _ _ _ rfl] at h
      cases h
      rw [BEntry.relabel, sel_dir, hsub]
      simp only [Bool.false_eq_true, if_false]
      show After T s { s with at_ := if o.emptyDir then s.at_.put (.ignoredDir x) else s.at_, skip := 0 } ∧ _
      change ∀ al, findChild s.at_.cur x.name = some al → _ at hcl
      cases he : o.emptyDir with
      | false =>
        have hs0 : ({ s with at_ := (if false = true then s.at_.put (.ignoredDir x) else s.at_), skip := 0 } : MgSt) = s := by
          have := hi.skip
          cases s
          simp only at this
          simp [this]
        rw [hs0]
        refine ⟨⟨rfl, rfl, hi, hdc⟩, fun m _ => ?_, ?_⟩
        · simp only [mergeExcl, he, Bool.false_eq_true, if_false]
        · simp only [mergeExcl, he, Bool.false_eq_true, if_false]
          exact rel_none _
      | true =>
        simp only [mergeExcl, he, if_true]
        -- the mark of the empty directory
        have hput : ∃ l0, s.at_.put (.ignoredDir x) = ⟨s.at_.frames, l0 ++ [.ignoredDir x]⟩ ∧ BEntry.DistinctL l0 ∧ findChild l0 x.name = none ∧
            (∀ m, m ≠ x.name → findChild l0 m = findChild s.at_.cur m) ∧ (∀ j, BEntry.linksL j l0 = BEntry.linksL j s.at_.cur) ∧
            (∀ al, findChild s.at_.cur x.name = some al → al.isIgnoredDir = true) := by
          cases hf : findChild s.at_.cur x.name with
          | none =>
            refine ⟨s.at_.cur, ?_, hdc, hf, fun _ _ => rfl, fun _ => rfl, (fun al h => by cases h)⟩
            simp only [Cursor.put, BEntry.name, hf, Option.isSome_none, Bool.false_eq_true, if_false]
            rfl
          | some al =>
            have hn := findChild_name hf
            have hig : al.isIgnoredDir = true := by
              have := clean_sub (hcl al hf)
              rw [hn, hsub] at this
              cases hx : al.isIgnoredDir
              · rw [hx] at this; cases this
              · rfl
            refine ⟨without s.at_.cur x.name, ?_, distinct_without hdc hf, ?_, fun m hm => ?_, fun j => ?_, (fun al' h => by cases h; exact hig)⟩
            · simp only [Cursor.put, BEntry.name, hf, Option.isSome_some, if_true]
              rfl
            · rw [find_without hdc hf, if_pos rfl]
            · rw [find_without hdc hf, if_neg hm]
            · have := links_without hf j
              have h0 : BEntry.links j al = 0 := by cases al <;> first | (cases hig; done) | simp [BEntry.links]
              omega
        obtain ⟨l0, p1, p2, p3, p4, p5, p6⟩ := hput
        rw [p1]
        have hnm : findChild l0 (BEntry.ignoredDir x).name = none := p3
        refine ⟨⟨rfl, rfl, ?_, distinct_snoc p2 hnm (by unfold BEntry.Distinct; trivial)⟩, fun m hm => ?_, ?_⟩
        · refine hi.links_congr rfl rfl (fun _ _ => rfl) (fun j => ?_)
          show Cursor.links j ⟨s.at_.frames, l0 ++ [.ignoredDir x]⟩ = _
          rw [cursor_links, linksL_append, p5 j]
          simp only [BEntry.linksL, BEntry.links, Nat.add_zero]
          rfl
        · show findChild (l0 ++ [.ignoredDir x]) m = _
          rw [find_snoc hnm]
          change m ≠ x.name at hm
          show (if m = x.name then _ else _) = _
          rw [if_neg hm, p4 m hm]
        · show EntryRel o T dt s.at_.path x.name (findChild s.at_.cur x.name) _ (findChild (l0 ++ [.ignoredDir x]) x.name)
          have : findChild (l0 ++ [.ignoredDir x]) x.name = some (.ignoredDir x) := find_snoc_self hnm
          rw [this]
          cases hf : findChild s.at_.cur x.name with
          | none => exact rel_new (Or.inr rfl)
          | some al => exact rel_excl (p6 al hf) rfl
  | true =>
    have hcE : o.covers s.at_.path (e.relabel (· + off)) = true := by rw [covers_relabel]; exact hc
    obtain ⟨E, e1, e2, e3, e4, e5, e6, e7⟩ := sel_some hcE
    rw [relabel_name] at e3
    have hEn : E.name = e.name := e3
    have hEig : E.isIgnoredDir = false := by
      cases hdd : e.isDir with
      | false =>
        rw [sel_leaf (by rw [relabel_isDir]; exact hdd), if_pos hcE] at e1
        cases e1
        exact relabel_src hsrc
      | true =>
        cases e <;> first | (cases hdd; done) | skip
        rw [e7 _ _ (by rw [BEntry.relabel])]
        rfl
    have hek : SameKind e E := ⟨by rw [← e4.dir, relabel_isDir], fun hd => by rw [← e4.time (by rw [relabel_isDir]; exact hd), relabel_mtime]⟩
    rw [step_cov hi.skip hc] at h
    obtain ⟨s1, c1, c2, c3, c4⟩ := clone_inv T rs off hT e hi
    rw [c1] at h
    dsimp only at h
    rw [c2] at h
    rw [e1]
    cases hf : findChild s.at_.cur e.name with
    | none =>
      rw [hf] at h
      dsimp only at h
      cases hdm : o.decremental with
      | false =>
        -- added as it is
        obtain ⟨s2, f1, f2, f3, f4⟩ := fresh_entry hT (o := o) (b := true) (by rw [hdm]; rfl) e hde s hi hf
        have hs2 : s' = s2 := by
          rw [events_rest, loop_one, step_cov hi.skip hc, c1] at f1
          dsimp only at f1
          rw [c2, hf] at f1
          dsimp only at f1
          rw [h] at f1
          cases f1; rfl
        subst hs2
        have hsel : (e.relabel (· + off)).select o s.at_.path = [E] := by rw [sel_list, e1]; rfl
        rw [hsel] at f2
        have hnn : findChild s.at_.cur E.name = none := by rw [hEn]; exact hf
        refine ⟨⟨by rw [f2], f3, f4, ?_⟩, fun m hm => ?_, ?_⟩
        · rw [f2]
          exact distinct_snoc hdc hnn (select_distinct o _ _ (relabel_distinct _ e hde) E (by rw [hsel]; simp))
        · rw [f2, find_snoc hnn, if_neg (by rw [hEn]; exact hm)]
        · rw [f2, find_snoc hnn, if_pos hEn.symm]
          exact rel_new (Or.inl hdm)
      | true =>
        unfold mergeNew at h
        rw [hdm] at h
        simp only [Bool.and_self, if_true] at h
        obtain ⟨s2, g1, g2⟩ := bind_ok h
        obtain ⟨s3, g3, g4⟩ := bind_ok g1
        obtain ⟨kn, g5, g6⟩ := cleanNew_inv (by rw [emptied_label]; exact c4) g3
        have ha3 : s3.at_ = s.at_ := by rw [g5, c2]
        have hd3 : s3.dates = dt :: dr := by rw [g5]; exact c3.trans hdt
        have hat2 : s2.at_ = ⟨s.at_.frames, s.at_.cur ++ [.detruit e.name (e.sigKind rs) dt]⟩ := by
          cases g4
          show s3.at_.put (.detruit e.name (e.sigKind rs) (s3.dates.headD ⟨0, .s⟩)) = _
          rw [ha3, hd3]
          unfold Cursor.put
          have hf' : findChild s.at_.cur (BEntry.detruit e.name (e.sigKind rs) dt).name = none := hf
          show Cursor.add (if (findChild s.at_.cur (BEntry.detruit e.name (e.sigKind rs) dt).name).isSome = true then _ else _) _ = _
          rw [hf']
          rfl
        have hsk2 : s2.skip = if e.isDir then 1 else 0 := by cases g4; rfl
        have hdt2 : s2.dates = s.dates := by
          cases g4
          show s3.dates = s.dates
          rw [hd3, hdt]
        rw [rest_skipped hsk2] at g2
        cases g2
        have hnn : findChild s.at_.cur (BEntry.detruit e.name (e.sigKind rs) dt).name = none := hf
        refine ⟨⟨by show s2.at_.frames = _; rw [hat2], hdt2, ?_, ?_⟩, fun m hm => ?_, ?_⟩
        · refine g6.links_congr rfl (by cases g4; rfl) (fun j _ => by cases g4; rfl) (fun j => ?_)
          show Cursor.links j s2.at_ = _
          rw [hat2, ha3, cursor_links, linksL_append]
          simp only [BEntry.linksL, BEntry.links, Nat.add_zero]
          rfl
        · show BEntry.DistinctL s2.at_.cur
          rw [hat2]
          exact distinct_snoc hdc hnn (by unfold BEntry.Distinct; trivial)
        · show findChild s2.at_.cur m = _
          rw [hat2, find_snoc hnn, if_neg (show ¬ m = (BEntry.detruit e.name (e.sigKind rs) dt).name from hm)]
        · show EntryRel o T dt s.at_.path e.name none (some E) (findChild s2.at_.cur e.name)
          rw [hat2]
          have hq : findChild (s.at_.cur ++ [.detruit e.name (e.sigKind rs) dt]) e.name = some (.detruit e.name (e.sigKind rs) dt) := find_snoc_self hnn
          show EntryRel o T dt s.at_.path e.name none (some E) (findChild (s.at_.cur ++ [.detruit e.name (e.sigKind rs) dt]) e.name)
          rw [hq]
          have hsig : e.sigKind rs = E.sigKind T := by
            rw [← emptied_sigKind T E, e2, emptied_sigKind, relabel_sigKind hT]
          rw [hsig, ← hEn]
          exact rel_gone hdm hEig
    | some al =>
      rw [hf] at h
      dsimp only at h
      obtain ⟨s2, h1, h2⟩ := bind_ok h
      have hclean := hcl al hf
      have hig : al.isIgnoredDir = false := by
        have := clean_sub hclean
        rw [findChild_name hf] at this
        have hsub : o.subtree (s.at_.path ++ [e.name]) = true := by
          unfold MgOpts.covers at hc
          simp only [Bool.and_eq_true] at hc
          exact hc.1
        rw [hsub] at this
        cases hx : al.isIgnoredDir
        · rfl
        · rw [hx] at this; cases this
      have hP : s.at_.path ++ [e.name] = s1.at_.path ++ [e.name] := by rw [c2]
      have hsel : (e.relabel (· + off)).select o s.at_.path = [E] := by rw [sel_list, e1]; rfl
      rw [hsel] at hpair
      have hlc : LinkCond o T (s.at_.path ++ [e.name]) al E := by
        refine hpair [e.name] al E hf ?_
        show findChild [E] e.name = some E
        simp [findChild, hEn]
      have out := conflict_outcome (T := T) (P := s.at_.path ++ [e.name]) (n := e.name) (E := E) (fun hw1 => hw hw1 _) hP
        (by rw [e5]; exact c4) (by rw [c2]; exact hdc) (by rw [c2]; exact hf) hig hEn hEig hek
        (fun j hj => clean_links hclean (relabel_label_ge (by rw [← e5]; exact hj))) hlc (by rw [e2]; exact h1)
      rw [c2, c3] at out
      have hald := distinct_child hdc hf
      rcases out with ⟨d, a, x, hd, hk, hh, hb, hat, hs, hdt2, hi2⟩ | ⟨d, a, z, x0, y, ch, c, hal, hE, hd, hk, hz, hh, hat, hdt2, hi2⟩ |
        ⟨d, a, x, hd, hk, hh, hb, hat, hdt2, hi2⟩ | ⟨d, a, z, y, c, hal, hE, hd, hk, hz, hh, hat, hdt2, hi2⟩ | ⟨a, hd, hat, hs, hdt2, hi2⟩
      · -- kept
        rw [rest_skipped (by rw [hs, hek.dir])] at h2
        cases h2
        have hnm := (keep_name hk hig hh).trans (findChild_name hf)
        have hdu : (al.update x).Distinct := by
          cases x with
          | none => exact hald
          | some x => cases al <;> first | exact hald | (unfold BEntry.Distinct at *; exact hald)
        refine ⟨⟨by show s2.at_.frames = _; rw [hat], hdt2, hi2, ?_⟩, fun m hm => ?_, ?_⟩
        · show BEntry.DistinctL s2.at_.cur
          rw [hat]
          exact distinct_mid hdc hf hnm hdu
        · show findChild s2.at_.cur m = _
          rw [hat, find_mid hf hnm, if_neg hm]
        · show EntryRel o T dt s.at_.path e.name (some al) (some E) (findChild s2.at_.cur e.name)
          rw [hat, find_mid hf hnm, if_pos rfl]
          refine rel_conf hig hEig hd (fun _ => ⟨_, rfl, hh⟩) (fun h => absurd h hk.not_remove) hk.not_ask ?_ ?_ ?_
          · intro e' he' hed' _ _
            cases he'
            cases x with
            | none => rfl
            | some x => cases al <;> rfl
          · intro e' he' hed' h3 _
            cases he'
            have : (al.update x).isDir = al.isDir := by
              cases x with
              | none => rfl
              | some x => cases al <;> rfl
            rw [this, h3] at hed'
            cases hed'
          · intro x1 c1 x2 c2 x3 c3 h3 h4 _
            exact absurd ⟨by rw [h3]; rfl, by rw [h4]; rfl⟩ hb
      · -- two directories
        have hed : e.isDir = true := by rw [hek.dir, hE]; rfl
        cases he : e with
        | dir ex ec =>
          rw [he] at h2 hde hsrc
          change mergeLoop o true rs off s2 (BEntry.eventsList ec ++ [BEv.eod]) = .ok s' at h2
          rw [mergeLoop_append] at h2
          obtain ⟨s3, h3, h4⟩ := bind_ok h2
          have hpath : s2.at_.path = s.at_.path ++ [e.name] := by
            rw [hat]
            rw [path_cons s.at_.frames _ _ _ s.at_.cur z, hz]
          have hfE := e7 ex (BEntry.relabelL (· + off) ec) (by rw [he, BEntry.relabel])
          rw [hE] at hfE
          have hyx : y = ex := by cases hfE; rfl
          have hcc : c = BEntry.selectL o (s.at_.path ++ [ex.name]) (BEntry.relabelL (· + off) ec) := by cases hfE; rfl
          have hexn : ex.name = e.name := by rw [he]; rfl
          have hchd : BEntry.DistinctL ch := by rw [hal] at hald; unfold BEntry.Distinct at hald; exact hald
          have hchc : BEntry.CleanL o off (s.at_.path ++ [e.name]) ch := by
            have hn0 := findChild_name hf
            rw [hal] at hclean hn0
            change x0.name = e.name at hn0
            unfold BEntry.Clean at hclean
            rw [← hn0]
            exact hclean.2
          have hsp : PairE o T s2.at_.path s2.at_.cur (BEntry.selectL o s2.at_.path (BEntry.relabelL (· + off) ec)) := by
            rw [hpath]
            have : s2.at_.cur = ch := by rw [hat]
            rw [this, ← hexn, ← hcc]
            intro q a' b' hqa hqb
            have hq : q ≠ [] := by rintro rfl; cases hqa
            have := hpair (e.name :: q) a' b' (by rw [treeAt_cons (x := x0) (c := ch) (by rw [hf, hal]) hq]; exact hqa)
              (by rw [treeAt_cons (x := y) (c := c) (by rw [← hE]; simp [findChild, hEn]) hq]; exact hqb)
            rw [hexn]
            simpa using this
          obtain ⟨a1, a2⟩ := second_list hT hw hdec ec (by unfold BEntry.Distinct at hde; exact hde) (by unfold BEntry.Src at hsrc; exact hsrc) s2 s3 y.ino.mtime s.dates hdt2 hi2
            (by rw [hat]; exact hchd) (fun b hb al' hf' => by rw [hpath]; rw [hat] at hf'; exact cleanL_find hchc hf') hsp h3
          have hat3 : s3.at_ = ⟨(beforeChild s.at_.cur e.name, z, afterChild s.at_.cur e.name) :: s.at_.frames, s3.at_.cur⟩ := by
            have := a1.frames
            rw [hat] at this
            dsimp only at this
            rw [← this]
          rw [leave a1.inv.skip hat3] at h4
          cases h4
          rw [← he]
          have hzn : (BEntry.dir z s3.at_.cur).name = e.name := hz
          refine ⟨⟨rfl, ?_, ?_, ?_⟩, fun m hm => ?_, ?_⟩
          · show s3.dates.tail = s.dates
            rw [a1.dates, hdt2]; rfl
          · refine a1.inv.links_congr a1.inv.skip rfl (fun _ _ => rfl) (fun j => ?_)
            conv_rhs => rw [hat3]
            exact up_links ..
          · exact distinct_mid hdc hf hzn (by unfold BEntry.Distinct; exact a1.distinct)
          · show findChild (beforeChild s.at_.cur e.name ++ .dir z s3.at_.cur :: afterChild s.at_.cur e.name) m = _
            rw [find_mid hf hzn, if_neg hm]
          · show EntryRel o T dt s.at_.path e.name _ _ (findChild (beforeChild s.at_.cur e.name ++ .dir z s3.at_.cur :: afterChild s.at_.cur e.name) e.name)
            rw [find_mid hf hzn, if_pos rfl]
            refine rel_conf hig hEig hd (fun _ => ⟨_, rfl, hh _⟩) ?_ ?_ ?_ ?_ ?_
            · intro h5
              rcases hk with hk | hk
              · exact absurd h5 hk.not_remove
              · exact absurd h5 hk.not_remove
            · rcases hk with hk | hk
              · exact hk.not_ask
              · exact hk.not_ask
            · intro e' _ _ _ h6
              rw [hE] at h6; cases h6
            · intro e' _ _ h6 _
              rw [hal] at h6; cases h6
            · intro x1 c1 x2 c2 x3 c3 h5 h6 h7
              rw [hal] at h5
              rw [hE] at h6
              cases h5; cases h6; cases h7
              have := mergedP_of a2
              have hcur : s2.at_.cur = ch := by rw [hat]
              rw [hpath, hcur, ← hexn, ← hcc, hexn] at this
              exact this
        | _ => rw [he] at hed; cases hed
      · -- taken, not a directory
        have hr : e.rest = [] := by
          have : e.isDir = false := by rw [hek.dir]; exact hb
          cases e <;> first | rfl | (cases this)
        rw [hr] at h2
        cases h2
        have hnm : (E.update x).name = e.name := (take_name hk hEig hh).trans hEn
        have hnn : findChild (without s.at_.cur e.name) (E.update x).name = none := by rw [hnm, find_without hdc hf, if_pos rfl]
        have hupd : (E.update x).isDir = false := by cases E <;> first | (cases hb; done) | (cases x <;> rfl)
        have hdu : (E.update x).Distinct := by
          cases hv : E.update x <;> first | (unfold BEntry.Distinct; trivial) | (rw [hv] at hupd; cases hupd)
        refine ⟨⟨by rw [hat], hdt2, hi2, ?_⟩, fun m hm => ?_, ?_⟩
        · rw [hat]
          exact distinct_snoc (distinct_without hdc hf) hnn hdu
        · rw [hat, find_snoc hnn, hnm, if_neg hm, find_without hdc hf, if_neg hm]
        · rw [hat, find_snoc hnn, hnm, if_pos rfl]
          refine rel_conf hig hEig hd (fun _ => ⟨_, rfl, hh⟩) (fun h => absurd h hk.not_remove) hk.not_ask ?_ ?_ ?_
          · intro e' he' hed' _ _
            cases he'
            rw [hupd] at hed'; cases hed'
          · intro e' he' hed' _ _
            cases he'
            rw [hupd] at hed'; cases hed'
          · intro x1 c1 x2 c2 x3 c3 _ h6 _
            rw [h6] at hb; cases hb
      · -- a directory takes the place of something else
        have hed : e.isDir = true := by rw [hek.dir, hE]; rfl
        cases he : e with
        | dir ex ec =>
          rw [he] at h2 hde hsrc
          change mergeLoop o true rs off s2 (BEntry.eventsList ec ++ [BEv.eod]) = .ok s' at h2
          have hdm : o.decremental = false := by
            cases hx : o.decremental
            · rfl
            · exact absurd hk (takes_not_keeps (hdec hx T _ _ _ _ _ hd))
          have hpath : s2.at_.path = s.at_.path ++ [e.name] := by
            rw [hat]
            rw [path_cons s.at_.frames _ _ _ s.at_.cur z, hz]
          have hfE := e7 ex (BEntry.relabelL (· + off) ec) (by rw [he, BEntry.relabel])
          rw [hE] at hfE
          have hcc : c = BEntry.selectL o (s.at_.path ++ [ex.name]) (BEntry.relabelL (· + off) ec) := by cases hfE; rfl
          have hexn : ex.name = e.name := by rw [he]; rfl
          have hdec' : BEntry.DistinctL ec := by unfold BEntry.Distinct at hde; exact hde
          obtain ⟨s3, f1, f2, f3, f4⟩ := fresh_list hT (o := o) (b := true) (by rw [hdm]; rfl) ec hdec' s2 hi2 (fun e _ => by rw [hat]; rfl)
          rw [mergeLoop_append, f1] at h2
          change mergeLoop o true rs off s3 [BEv.eod] = .ok s' at h2
          rw [hpath] at f2
          have hat3 : s3.at_ = ⟨(without s.at_.cur e.name, z, []) :: s.at_.frames, c⟩ := by
            rw [f2, hcc, hat, hexn]; rfl
          rw [leave f4.skip hat3] at h2
          cases h2
          rw [← he]
          have hzn : (BEntry.dir z c).name = e.name := hz
          have hnn : findChild (without s.at_.cur e.name) (BEntry.dir z c).name = none := by rw [hzn, find_without hdc hf, if_pos rfl]
          refine ⟨⟨rfl, ?_, ?_, ?_⟩, fun m hm => ?_, ?_⟩
          · show s3.dates.tail = s.dates
            rw [f3, hdt2]; rfl
          · refine f4.links_congr f4.skip rfl (fun _ _ => rfl) (fun j => ?_)
            conv_rhs => rw [hat3]
            exact up_links ..
          · show BEntry.DistinctL (without s.at_.cur e.name ++ [.dir z c])
            refine distinct_snoc (distinct_without hdc hf) hnn ?_
            unfold BEntry.Distinct
            rw [hcc]
            exact selectL_distinct o _ _ (relabelL_distinct _ ec hdec')
          · show findChild (without s.at_.cur e.name ++ [.dir z c]) m = _
            rw [find_snoc hnn, hzn, if_neg hm, find_without hdc hf, if_neg hm]
          · show EntryRel o T dt s.at_.path e.name _ _ (findChild (without s.at_.cur e.name ++ [.dir z c]) e.name)
            rw [find_snoc hnn, hzn, if_pos rfl]
            refine rel_conf hig hEig hd (fun _ => ⟨_, rfl, hh _⟩) (fun h => absurd h hk.not_remove) hk.not_ask ?_ ?_ ?_
            · intro e' he' hed' h6 h7
              rw [hE] at h7; cases h7
            · intro e' he' hed' h6 h7
              cases he'
              rw [hE]; rfl
            · intro x1 c1 x2 c2 x3 c3 h5 _ _
              rw [h5] at hal; cases hal
        | _ => rw [he] at hed; cases hed
      · -- removed
        rw [rest_skipped (by rw [hs, hek.dir])] at h2
        cases h2
        refine ⟨⟨by show s2.at_.frames = _; rw [hat], hdt2, hi2, ?_⟩, fun m hm => ?_, ?_⟩
        · show BEntry.DistinctL s2.at_.cur
          rw [hat]
          exact distinct_left hdc hf
        · show findChild s2.at_.cur m = _
          rw [hat, find_left hdc hf, if_neg hm]
        · show EntryRel o T dt s.at_.path e.name (some al) (some E) (findChild s2.at_.cur e.name)
          rw [hat, find_left hdc hf, if_pos rfl, left_head]
          have hnd : ∀ e', emptyMark o al = some e' → e'.isDir = true → False := by
            intro e' h5 h6
            cases al <;> simp [emptyMark] at h5
            rw [← h5.2] at h6
            cases h6
          refine rel_conf hig hEig hd ?_ (fun _ => rfl) (by simp) (fun e' h5 h6 => (hnd e' h5 h6).elim) (fun e' h5 h6 => (hnd e' h5 h6).elim)
            (fun x1 c1 x2 c2 x3 c3 _ _ h7 => (hnd _ h7 rfl).elim)
          rintro (h5 | h5)
          · rcases h5 with h5 | h5 | h5 <;> cases h5
          · rcases h5 with h5 | h5 <;> cases h5
theorem second_list (hT : ∀ k, T (k + off) = rs k) (hw : o.warn = true → ∀ p, o.acceptEa p = true)
    (hdec : o.decremental = true → ∀ t P e1 e2 d a, Decided o t t P e1 e2 d a → KeepsOld d) (l : List BEntry) (hdl : BEntry.DistinctL l) (hsrc : BEntry.SrcL l) (s s' : MgSt) (dt : DateT) (dr : List DateT)
    (hdt : s.dates = dt :: dr) (hi : MInv T none s) (hdc : BEntry.DistinctL s.at_.cur)
    (hcl : ∀ e ∈ l, ∀ al, findChild s.at_.cur e.name = some al → al.Clean o off s.at_.path)
    (hpair : PairE o T s.at_.path s.at_.cur (BEntry.selectL o s.at_.path (BEntry.relabelL (· + off) l)))
    (h : mergeLoop o true rs off s (BEntry.eventsList l) = .ok s') :
    After T s s' ∧ ∀ n, EntryRel o T dt s.at_.path n (findChild s.at_.cur n) (findChild (BEntry.selectL o s.at_.path (BEntry.relabelL (· + off) l)) n) (findChild s'.at_.cur n) := by
  match l, hdl, hsrc, hcl, hpair, h with
  | [], _, _, _, _, h =>
    rw [BEntry.eventsList] at h
    cases h
    refine ⟨⟨rfl, rfl, hi, hdc⟩, fun n => ?_⟩
    rw [BEntry.relabelL, BEntry.selectL]
    exact rel_none _
  | e :: l, hdl, hsrc, hcl, hpair, h =>
    have hdl0 := hdl
    unfold BEntry.DistinctL at hdl
    unfold BEntry.SrcL at hsrc
    rw [BEntry.eventsList, mergeLoop_append] at h
    obtain ⟨s1, h1, h2⟩ := bind_ok h
    have hdr : BEntry.DistinctL (e.relabel (· + off) :: BEntry.relabelL (· + off) l) := by
      have := relabelL_distinct (· + off) (e :: l) hdl0
      rwa [BEntry.relabelL] at this
    have hdr' := hdr
    unfold BEntry.DistinctL at hdr'
    rw [BEntry.relabelL] at hpair ⊢
    have hfind : ∀ n, findChild (BEntry.selectL o s.at_.path (e.relabel (· + off) :: BEntry.relabelL (· + off) l)) n =
        if n = e.name then (e.relabel (· + off)).sel o s.at_.path else findChild (BEntry.selectL o s.at_.path (BEntry.relabelL (· + off) l)) n := by
      intro n
      rw [selectL_find o _ _ hdr, selectL_find o _ _ hdr'.2.2]
      by_cases hn : n = e.name
      · rw [if_pos hn]
        have : findChild (e.relabel (· + off) :: BEntry.relabelL (· + off) l) n = some (e.relabel (· + off)) := by
          unfold findChild
          simp [List.find?_cons, relabel_name, hn]
        rw [this]; rfl
      · rw [if_neg hn]
        have : findChild (e.relabel (· + off) :: BEntry.relabelL (· + off) l) n = findChild (BEntry.relabelL (· + off) l) n := by
          unfold findChild
          simp [List.find?_cons, relabel_name, Ne.symm hn]
        rw [this]
    have hnone : findChild (BEntry.selectL o s.at_.path (BEntry.relabelL (· + off) l)) e.name = none := by
      rw [selectL_find o _ _ hdr'.2.2]
      have : findChild (BEntry.relabelL (· + off) l) e.name = none := by
        rw [find_none_iff]
        intro a ha
        have := hdr'.2.1 a ha
        rwa [relabel_name] at this
      rw [this]; rfl
    have hpe : PairE o T s.at_.path s.at_.cur ((e.relabel (· + off)).select o s.at_.path) := by
      intro q a b hqa hqb
      refine hpair q a b hqa ?_
      -- the first component is the name of the entry
      rw [sel_list] at hqb
      cases hs : (e.relabel (· + off)).sel o s.at_.path with
      | none => rw [hs] at hqb; cases q with
        | nil => cases hqb
        | cons m q => cases q <;> cases hqb
      | some E =>
        rw [hs] at hqb
        have hEn : E.name = e.name := by
          have := select_names o s.at_.path (e.relabel (· + off)) E (by rw [sel_list, hs]; simp)
          rwa [relabel_name] at this
        cases q with
        | nil => cases hqb
        | cons m q =>
          have hm : m = e.name := by
            cases q with
            | nil =>
              have : findChild [E] m = some b := hqb
              have h4 := findChild_name this
              have h5 : b = E := by
                have := List.mem_of_find?_eq_some this
                simpa using this
              rw [← h4, h5, hEn]
            | cons k q =>
              by_cases hm : m = e.name
              · exact hm
              · simp [treeAt, hEn, Ne.symm hm] at hqb
          have hf2 : findChild (BEntry.selectL o s.at_.path (e.relabel (· + off) :: BEntry.relabelL (· + off) l)) m = findChild [E] m := by
            rw [hfind, if_pos hm, hs]
            simp [findChild, hEn, hm]
          cases q with
          | nil => exact hf2.trans hqb
          | cons k q =>
            simp only [treeAt]
            simp only [Option.toList_some, treeAt] at hqb
            unfold findChild at hf2
            rw [hf2]
            exact hqb
    obtain ⟨a1, a2, a3⟩ := second_entry hT hw hdec e hdl.1 hsrc.1 s s1 dt dr hdt hi hdc (hcl e (List.mem_cons_self ..)) hpe h1
    have hp : s1.at_.path = s.at_.path := path_frames a1.frames
    have hnames : ∀ a ∈ l, a.name ≠ e.name := hdl.2.1
    have hpl : PairE o T s1.at_.path s1.at_.cur (BEntry.selectL o s1.at_.path (BEntry.relabelL (· + off) l)) := by
      rw [hp]
      intro q a b hqa hqb
      have hmne : ∀ m q', q = m :: q' → m ≠ e.name := by
        intro m q' hq hm
        subst hq
        rw [hm] at hqb
        cases q' with
        | nil =>
          have : findChild _ e.name = some b := hqb
          rw [hnone] at this; cases this
        | cons k q' =>
          simp only [treeAt] at hqb
          unfold findChild at hnone
          rw [hnone] at hqb
          cases hqb
      cases q with
      | nil => cases hqa
      | cons m q =>
        have hm := hmne m q rfl
        have g1 := a2 m hm
        have g2 := hfind m
        rw [if_neg hm] at g2
        refine hpair (m :: q) a b ?_ ?_
        · cases q with
          | nil => exact g1.symm.trans hqa
          | cons k q =>
            simp only [treeAt] at hqa ⊢
            unfold findChild at g1
            rw [← g1]; exact hqa
        · cases q with
          | nil => exact g2.trans hqb
          | cons k q =>
            simp only [treeAt] at hqb ⊢
            unfold findChild at g2
            rw [g2]; exact hqb
    obtain ⟨b1, b2⟩ := second_list hT hw hdec l hdl.2.2 hsrc.2 s1 s' dt dr (a1.dates.trans hdt) a1.inv a1.distinct
      (fun b hb al hf => by rw [hp]; rw [a2 _ (hnames b hb)] at hf; exact hcl b (List.mem_cons_of_mem _ hb) al hf) hpl h2
    refine ⟨⟨b1.frames.trans a1.frames, b1.dates.trans a1.dates, b1.inv, b1.distinct⟩, fun n => ?_⟩
    have := b2 n
    rw [hp] at this
    rw [hfind]
    by_cases hn : n = e.name
    · subst hn
      rw [if_pos rfl]
      rw [hnone] at this
      -- nothing else has this name
      have heq : findChild s'.at_.cur e.name = findChild s1.at_.cur e.name := by
        cases hf : findChild s1.at_.cur e.name with
        | none => rw [hf] at this; exact this.here.neither rfl rfl
        | some v => rw [hf] at this; exact this.here.first v rfl rfl
      rw [heq]
      exact a3
    · rw [if_neg hn]
      rw [a2 n hn] at this
      exact this
end
end

end Dar
