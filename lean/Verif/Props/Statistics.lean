import Verif.Spec.Statistics
import Verif.Props.Destroyed
import Verif.Model.Restore
/- C46: the counters of a backup. -/
namespace Dar

/-- what an inode adds to the counters (but the ignored ones) -/
def Stats.plus (a b : Stats) : Stats := ⟨a.treated + b.treated, a.hardLinks + b.hardLinks, a.skipped + b.skipped, a.inodeOnly + b.inodeOnly, a.ignored + b.ignored, a.tooold + b.tooold,
  a.errored + b.errored, a.deleted + b.deleted, a.eaTreated + b.eaTreated, a.fsaTreated + b.fsaTreated⟩
def Obj.share (x : Obj) : Stats := ⟨x.isStored.toNat, 0, x.isUnsaved.toNat, x.isMetaOnly.toNat, 0, x.ino.dirty.toNat, 0, 0, x.hasEa.toNat, x.hasFsa.toNat⟩
def shareLabels (stars : Nat → Obj) : List Nat → Stats
  | [] => Stats.zero
  | k :: l => ((stars k).share).plus (shareLabels stars l)
def linkShare : Stats := ⟨1, 1, 0, 0, 0, 0, 0, 0, 0, 0⟩
def Stats.times (n : Nat) (s : Stats) : Stats := ⟨n * s.treated, n * s.hardLinks, n * s.skipped, n * s.inodeOnly, n * s.ignored, n * s.tooold, n * s.errored, n * s.deleted, n * s.eaTreated, n * s.fsaTreated⟩

/-- what the entries of a tree, hard links excepted, add to the counters -/
def shareL (l : List BEntry) : Stats := ⟨BEntry.tallyL (BEntry.inode Obj.isStored) l, 0, BEntry.tallyL (BEntry.inode Obj.isUnsaved) l, BEntry.tallyL (BEntry.inode Obj.isMetaOnly) l,
  BEntry.tallyL BEntry.isIgnored l, BEntry.tallyL (BEntry.inode (fun x => x.ino.dirty)) l, 0, 0, BEntry.tallyL (BEntry.inode Obj.hasEa) l, BEntry.tallyL (BEntry.inode Obj.hasFsa) l⟩

theorem tallyL_append (P : BEntry → Bool) (a b : List BEntry) : BEntry.tallyL P (a ++ b) = BEntry.tallyL P a + BEntry.tallyL P b := by
  induction a with
  | nil => simp [BEntry.tallyL]
  | cons e l ih => simp only [List.cons_append, BEntry.tallyL, ih]; omega
theorem shareL_append (a b : List BEntry) : shareL (a ++ b) = (shareL a).plus (shareL b) := by
  simp [shareL, Stats.plus, tallyL_append]
theorem shareLabels_append (stars : Nat → Obj) (a b : List Nat) : shareLabels stars (a ++ b) = (shareLabels stars a).plus (shareLabels stars b) := by
  induction a with
  | nil => simp [shareLabels, Stats.plus, Stats.zero]
  | cons k l ih => simp only [List.cons_append, shareLabels, ih, Stats.plus]; simp [Nat.add_assoc]
theorem shareLabels_congr {s s' : Nat → Obj} {l : List Nat} (h : ∀ k ∈ l, s k = s' k) : shareLabels s l = shareLabels s' l := by
  induction l with
  | nil => rfl
  | cons k l ih => rw [shareLabels, shareLabels, h k (by simp), ih (fun j hj => h j (by simp [hj]))]

/-- some names of hard linked inode -/
def linked (l : List BEntry) (k : Nat) : Prop := ∃ p n, OccursIn l p (.mirage n k)
theorem linked_append (a b : List BEntry) (k : Nat) : linked (a ++ b) k ↔ linked a k ∨ linked b k := by
  have mono : ∀ (a b : List BEntry) p e, (∀ x ∈ a, x ∈ b) → OccursIn a p e → OccursIn b p e := by
    intro a b p e hs h
    cases h with
    | here h => exact .here (hs _ h)
    | inside h h2 => exact .inside (hs _ h) h2
  constructor
  · rintro ⟨p, n, h⟩
    cases h with
    | here h =>
      rcases List.mem_append.1 h with h | h
      · exact Or.inl ⟨_, n, .here h⟩
      · exact Or.inr ⟨_, n, .here h⟩
    | inside h h2 =>
      rcases List.mem_append.1 h with h | h
      · exact Or.inl ⟨_, n, .inside h h2⟩
      · exact Or.inr ⟨_, n, .inside h h2⟩
  · rintro (⟨p, n, h⟩ | ⟨p, n, h⟩)
    · exact ⟨p, n, mono a _ _ _ (fun x hx => by simp [hx]) h⟩
    · exact ⟨p, n, mono b _ _ _ (fun x hx => by simp [hx]) h⟩

/-- each of `n` things is in one counter -/
def Split (s : Stats) (n : Nat) : Prop := s.treated + s.skipped + s.inodeOnly + s.ignored = n

/-- the counters from one state to another, the entries `l` having been added to the archive -/
def Counted (c : BkCore) (l : List BEntry) (c' : BkCore) : Prop :=
  ∃ (L : List Nat) (h : Nat), c'.wrote = L ++ c.wrote ∧ (L ++ c.wrote).Nodup ∧ (∀ k ∈ c.wrote, c'.stars k = c.stars k) ∧ (∀ k ∈ L, linked l k) ∧ (∀ k, linked l k → k ∈ c'.wrote) ∧
    (∀ k, k ∉ c'.wrote → c'.stars k = c.stars k) ∧
    h + L.length = BEntry.tallyL BEntry.isLink l ∧ c'.st = ((c.st.plus (shareL l)).plus (shareLabels c'.stars L)).plus (Stats.times h linkShare) ∧ Split (shareL l) (BEntry.tallyL (fun e => !e.isLink) l) ∧ Split (shareLabels c'.stars L) L.length

theorem Counted.trans {c c1 c2 : BkCore} {a b : List BEntry} (h1 : Counted c a c1) (h2 : Counted c1 b c2) : Counted c (a ++ b) c2 := by
  obtain ⟨L1, n1, w1, d1, s1, o1, k1, u1, t1, e1, g1, l1⟩ := h1
  obtain ⟨L2, n2, w2, d2, s2, o2, k2, u2, t2, e2, g2, l2⟩ := h2
  have hcg : shareLabels c1.stars L1 = shareLabels c2.stars L1 := shareLabels_congr fun k hk => (s2 k (by rw [w1]; simp [hk])).symm
  refine ⟨L2 ++ L1, n1 + n2, by rw [w2, w1, List.append_assoc], ?_, fun k hk => ?_, fun k hk => ?_, fun k hk => ?_, fun k hk => ?_, ?_, ?_, ?_, ?_⟩
  · rw [List.append_assoc, ← w1]; exact d2
  · rw [s2 k (by rw [w1]; simp [hk]), s1 k hk]
  · rw [linked_append]
    rcases List.mem_append.1 hk with hk | hk
    · exact Or.inr (o2 k hk)
    · exact Or.inl (o1 k hk)
  · rcases (linked_append a b k).1 hk with hk | hk
    · rw [w2]; simp [k1 k hk]
    · exact k2 k hk
  · rw [u2 k hk, u1 k (fun h => hk (by rw [w2]; simp [h]))]
  · rw [tallyL_append, List.length_append]; omega
  · rw [e2, e1, shareL_append, shareLabels_append]
    rw [hcg]
    simp only [Stats.plus, Stats.times, linkShare, Stats.mk.injEq]
    refine ⟨?_, ?_, ?_, ?_, ?_, ?_, ?_, ?_, ?_, ?_⟩ <;> ring
  · rw [shareL_append, tallyL_append]
    simp only [Split, Stats.plus] at *
    omega
  · rw [shareLabels_append, List.length_append, ← hcg]
    simp only [Split, Stats.plus] at *
    omega

theorem Counted.refl {c : BkCore} (h : c.wrote.Nodup) : Counted c [] c := by
  refine ⟨[], 0, rfl, h, fun _ _ => rfl, fun k hk => (by cases hk), fun k hk => ?_, fun _ _ => rfl, rfl, ?_, rfl, rfl⟩
  · obtain ⟨p, n, h⟩ := hk
    cases h with
    | here h => cases h
    | inside h => cases h
  · simp [Stats.plus, shareL, shareLabels, Stats.times, BEntry.tallyL, Stats.zero]

theorem decide_dirty {o : BkOpts} {x x' : Obj} {f : Option Obj} (h : decideEntry o x f = .ok x') :
    x'.ino.dirty = x.ino.dirty ∧ x'.ino.kind = x.ino.kind ∧ (x'.ino.status = .saved ∨ x'.ino.status = .delta ∨ x'.ino.status = .notSaved ∨ x'.ino.status = .inodeOnly) := by
  unfold decideEntry at h
  simp only at h
  by_cases hst : x.ino.status ≠ .saved
  · rw [if_pos hst] at h; cases h
  · rw [if_neg hst] at h
    have : ∃ s a g, newStatus o x (if o.snapshot = true then none else f) = .ok s ∧ x' = { x with ino := { x.ino with status := s, eaStatus := a }, fsa := g } := by
      cases h1 : newStatus o x (if o.snapshot = true then none else f) with
      | error e => rw [h1] at h; cases h
      | ok s =>
        rw [h1] at h
        cases h2 : newEa o x (if o.snapshot = true then none else f) with
        | error e => rw [h2] at h; cases h
        | ok a =>
          rw [h2] at h
          cases h3 : newFsa o x (if o.snapshot = true then none else f) with
          | error e => rw [h3] at h; cases h
          | ok g => rw [h3] at h; cases h; exact ⟨s, a, g, rfl, rfl⟩
    obtain ⟨s, a, g, h1, rfl⟩ := this
    refine ⟨rfl, rfl, ?_⟩
    show s = _ ∨ s = _ ∨ s = _ ∨ s = _
    unfold newStatus at h1
    cases h2 : avoidInode o x (if o.snapshot = true then none else f) with
    | error e => rw [h2] at h1; cases h1
    | ok v =>
      rw [h2] at h1
      simp only [bind, Except.bind] at h1
      cases v with
      | true => simp at h1; cases h1; simp
      | false =>
        simp only [Bool.false_eq_true, if_false] at h1
        cases h3 : onlyInode o x (if o.snapshot = true then none else f) with
        | error e => rw [h3] at h1; cases h1
        | ok w =>
          rw [h3] at h1
          simp only at h1
          cases h1
          generalize (o.deltaDiff && _ && _) = dd
          cases w <;> cases dd <;> simp

/-- the counters after an inode has been saved -/
theorem share_after {o : BkOpts} {x x' : Obj} {f : Option Obj} (h : decideEntry o x f = .ok x') (hx : x.ino.dirty = false) (b : Bool) (st : Stats) :
    let d := b && x.ino.isFile && (decide (x'.ino.status = .saved) || decide (x'.ino.status = .delta))
    (st.afterInode x'.ino.status d).afterAttr x'.ino.eaStatus x'.fsa = st.plus (x'.setDirty d).share := by
  obtain ⟨h1, h2, h3⟩ := decide_dirty h
  rw [hx] at h1
  have hf : x'.ino.isFile = x.ino.isFile := by unfold Ino.isFile; rw [h2]
  intro d
  have hd : (x'.setDirty d).ino.dirty = d := by
    unfold Obj.setDirty
    by_cases hdd : d = true
    · have : x.ino.isFile = true := by simp [d] at hdd; exact hdd.1.2
      rw [hf, this, hdd]; simp
    · have : d = false := by simpa using hdd
      rw [this]; simp [h1]
  have hs : (x'.setDirty d).ino.status = x'.ino.status ∧ (x'.setDirty d).ino.eaStatus = x'.ino.eaStatus ∧ (x'.setDirty d).fsa = x'.fsa := by
    unfold Obj.setDirty; split <;> simp
  unfold Obj.share Obj.isStored Obj.isUnsaved Obj.isMetaOnly Obj.hasEa Obj.hasFsa
  rw [hd, hs.1, hs.2.1, hs.2.2]
  generalize d = d'
  unfold Stats.afterInode Stats.afterAttr Stats.plus
  rcases h3 with h3 | h3 | h3 | h3 <;> rw [h3] <;> cases d' <;> by_cases ha : x'.ino.eaStatus = .full <;> by_cases hb : x'.fsa = .full <;> simp [ha, hb]

theorem linked_leaf {e : BEntry} {k : Nat} (he : e.isDir = false) (hl : e.isLink = false) : ¬ linked [e] k := by
  rintro ⟨p, n, h⟩
  cases h with
  | here h => rw [List.mem_singleton] at h; subst h; cases hl
  | inside h => rw [List.mem_singleton] at h; subst h; cases he

/-- an entry added without label -/
theorem counted_leaf {c : BkCore} {e : BEntry} {st : Stats} (hn : c.wrote.Nodup) (he : e.isDir = false) (hl : e.isLink = false) (hs : st = c.st.plus (shareL [e])) (hsp : Split (shareL [e]) 1) :
    Counted c [e] { c with st := st } := by
  refine ⟨[], 0, rfl, hn, fun _ _ => rfl, fun k hk => (by cases hk), fun k hk => absurd hk (linked_leaf he hl), fun _ _ => rfl, ?_, ?_, ?_, rfl⟩
  · cases e with
    | dir x ch => cases he
    | mirage n k => cases hl
    | _ => rfl
  · show st = _
    rw [hs]
    simp [Stats.plus, shareLabels, Stats.times, Stats.zero]
  · cases e with
    | dir x ch => cases he
    | mirage n k => cases hl
    | _ => exact hsp

theorem split_obj {x : Obj} (h : x.ino.status = .saved ∨ x.ino.status = .delta ∨ x.ino.status = .notSaved ∨ x.ino.status = .inodeOnly) :
    x.isStored.toNat + x.isUnsaved.toNat + x.isMetaOnly.toNat = 1 := by
  unfold Obj.isStored Obj.isUnsaved Obj.isMetaOnly
  rcases h with h | h | h | h <;> rw [h] <;> rfl

theorem head_counted {o : BkOpts} {rstars : Nat → Obj} {refd : Option (List BEntry)} {path : List Bytes} {e : BEntry} {c : BkCore} {h : BkHead}
    (hno : ∀ p, o.fails p = none) (hn : c.wrote.Nodup) (hc : CleanEntry (fun k => if k ∈ c.wrote then { c.stars k with ino := { (c.stars k).ino with dirty := false } } else c.stars k) e)
    (hh : bkHead o rstars refd path e c = .ok h) :
    match h with
    | .leaf e' c' => Counted c [e'] c'
    | .down x' c' => (∃ x ch, e = .dir x ch) ∧ c' = { c with st := c.st.plus x'.share } ∧ x'.isStored.toNat + x'.isUnsaved.toNat + x'.isMetaOnly.toNat = 1 := by
  unfold bkHead at hh
  split at hh
  · split at hh
    · next hk =>
      cases hh
      cases e with
      | mirage n k =>
        simp only [BEntry.known, decide_eq_true_eq] at hk
        refine ⟨[], 1, rfl, hn, fun _ _ => rfl, fun j hj => (by cases hj), fun j hj => ?_, fun _ _ => rfl, rfl, ?_, rfl, rfl⟩
        · obtain ⟨p, m, h⟩ := hj
          cases h with
          | here h => rw [List.mem_singleton] at h; cases h; exact hk
          | inside h => rw [List.mem_singleton] at h; cases h
        · simp [Stats.plus, shareLabels, Stats.times, Stats.zero, Stats.link, shareL, BEntry.tallyL, BEntry.tally, BEntry.inode, BEntry.isIgnored, linkShare]
      | _ => cases hk
    · next hk =>
      cases hx : e.obj c.stars with
      | none => rw [hx] at hh; cases hh
      | some x =>
        rw [hx] at hh
        simp only at hh
        unfold headOne at hh
        cases hd : decideEntry o x (refObj o c.stars rstars refd e) with
        | error err => rw [hd] at hh; cases hh
        | ok x' =>
          rw [hd] at hh
          simp only [bind, Except.bind] at hh
          rw [hno] at hh
          simp only at hh
          have hxd : x.ino.dirty = false := by
            cases e with
            | node y => cases hx; exact hc
            | dir y ch => cases hx; exact hc
            | mirage n k =>
              simp only [BEntry.known, decide_eq_true_eq] at hk
              simp only [CleanEntry, if_neg hk] at hc
              cases hx; exact hc
            | detruit n k t => exact absurd hc id
            | ignored n => exact absurd hc id
            | ignoredDir n => exact absurd hc id
          rw [share_after hd hxd (o.dirty (e.name :: path).reverse) c.st] at hh
          have hy : ∀ d, (x'.setDirty d).ino.status = x'.ino.status := by intro d; unfold Obj.setDirty; split <;> rfl
          have hy := split_obj (x := x'.setDirty (o.dirty (e.name :: path).reverse && x.ino.isFile && (decide (x'.ino.status = .saved) || decide (x'.ino.status = .delta))))
            (by rw [hy]; exact (decide_dirty hd).2.2)
          generalize x'.setDirty _ = y at hh hy
          cases e with
          | node z =>
            cases hh
            refine counted_leaf hn rfl rfl ?_ ?_ <;>
            simp [Split, hy, Stats.plus, shareL, BEntry.tallyL, BEntry.tally, BEntry.inode, BEntry.isIgnored, Obj.share, BEntry.withObj]
          | dir z ch =>
            cases hh
            exact ⟨⟨z, ch, rfl⟩, rfl, hy⟩
          | mirage n k =>
            cases hh
            simp only [BEntry.known, decide_eq_true_eq] at hk
            refine ⟨[k], 0, rfl, List.nodup_cons.2 ⟨hk, hn⟩, fun j hj => ?_, fun j hj => ?_, fun j hj => ?_, fun j hj => ?_, rfl, ?_, rfl, ?_⟩
            · exact if_neg (fun h : j = k => hk (h ▸ hj))
            · rw [List.mem_singleton] at hj; subst hj; exact ⟨_, n, .here (by simp [BEntry.withObj])⟩
            · obtain ⟨p, m, h⟩ := hj
              cases h with
              | here h => rw [List.mem_singleton] at h; cases h; exact List.mem_cons_self
              | inside h => rw [List.mem_singleton] at h; cases h
            · exact if_neg (fun h : j = k => hj (h ▸ List.mem_cons_self))
            · have : (setStar c.stars (.mirage n k) y k).share = y.share := by rw [show setStar c.stars (.mirage n k) y k = { y with name := (c.stars k).name } from if_pos rfl]; rfl
              simp only [shareLabels, this]
              simp [Stats.plus, Stats.times, Stats.zero, shareL, BEntry.tallyL, BEntry.tally, BEntry.inode, BEntry.isIgnored, linkShare, BEntry.withObj]
            · have : (setStar c.stars (.mirage n k) y k).share = y.share := by rw [show setStar c.stars (.mirage n k) y k = { y with name := (c.stars k).name } from if_pos rfl]; rfl
              simp only [shareLabels, this]
              simp [Split, Stats.plus, Stats.zero, Obj.share, hy]
          | detruit n k t => cases hx
          | ignored n => cases hx
          | ignoredDir n => exact absurd hc id
  · unfold headSkip at hh
    have ig : ∀ e' : BEntry, e'.isIgnored = true → c.st.ign = c.st.plus (shareL [e']) := by
      intro e' h
      cases e' with
      | ignored n => simp [Stats.plus, Stats.ign, shareL, BEntry.tallyL, BEntry.tally, BEntry.inode, BEntry.isIgnored]
      | ignoredDir n => simp [Stats.plus, Stats.ign, shareL, BEntry.tallyL, BEntry.tally, BEntry.inode, BEntry.isIgnored]
      | _ => cases h
    cases e with
    | dir x ch =>
      simp only at hh
      split at hh
      · cases hs : emptyDirStatus o x (refObj o c.stars rstars refd (.dir x ch)) with
        | error err => rw [hs] at hh; cases hh
        | ok s => rw [hs] at hh; cases hh; exact counted_leaf hn rfl rfl (ig _ rfl) rfl
      · cases hh; exact counted_leaf hn rfl rfl (ig _ rfl) rfl
    | _ => cases hh; exact counted_leaf hn rfl rfl (ig _ rfl) rfl

/-- a directory, from its head and its contents -/
theorem Counted.dir {c c1 : BkCore} {x : Obj} {l : List BEntry} (hx : x.isStored.toNat + x.isUnsaved.toNat + x.isMetaOnly.toNat = 1) (h : Counted { c with st := c.st.plus x.share } l c1) : Counted c [.dir x l] c1 := by
  have hlink : ∀ k, linked [.dir x l] k ↔ linked l k := by
    intro k
    constructor
    · rintro ⟨p, n, h⟩
      cases h with
      | here h => rw [List.mem_singleton] at h; cases h
      | inside h h2 => rw [List.mem_singleton] at h; cases h; exact ⟨_, n, h2⟩
    · rintro ⟨p, n, h⟩
      exact ⟨_, n, .inside (List.mem_singleton.2 rfl) h⟩
  obtain ⟨L, n, w, d, s, o, k, u, t, e, g1, g2⟩ := h
  refine ⟨L, n, w, d, s, fun j hj => (hlink j).2 (o j hj), fun j hj => k j ((hlink j).1 hj), u, ?_, ?_, ?_, g2⟩
  · rw [t]; simp [BEntry.tallyL, BEntry.tally, BEntry.isLink]
  · rw [e]
    simp only [Stats.plus, Stats.times, linkShare, shareL, Obj.share, BEntry.tallyL, BEntry.tally, BEntry.inode, BEntry.isIgnored, Stats.mk.injEq]
    refine ⟨?_, ?_, ?_, ?_, ?_, ?_, ?_, ?_, ?_, ?_⟩ <;> (try simp only [Bool.toNat_false]) <;> ring
  · simp [Split, shareL, BEntry.tallyL, BEntry.tally, BEntry.inode, BEntry.isIgnored, BEntry.isLink] at g1 ⊢
    omega

/-- all the entries are clean, the inodes already saved excepted -/
def cleanAt (c : BkCore) : Nat → Obj := fun k => if k ∈ c.wrote then { c.stars k with ino := { (c.stars k).ino with dirty := false } } else c.stars k

theorem clean_step {c c' : BkCore} {l : List BEntry} (h : Counted c l c') {e : BEntry} (hc : CleanEntry (cleanAt c) e) : CleanEntry (cleanAt c') e := by
  obtain ⟨L, n, w, d, s, o, k, u, t, e', -⟩ := h
  cases e with
  | mirage m j =>
    show (cleanAt c' j).ino.dirty = false
    have hc' : (cleanAt c j).ino.dirty = false := hc
    unfold cleanAt at hc' ⊢
    by_cases h1 : j ∈ c'.wrote
    · rw [if_pos h1]
    · rw [if_neg h1, u j h1]
      rw [if_neg (fun h => h1 (by rw [w]; simp [h]))] at hc'
      exact hc'
  | _ => exact hc

mutual
theorem entry_counted {o : BkOpts} {rstars : Nat → Obj} (hno : ∀ p, o.fails p = none) (e : BEntry) (refd : Option (List BEntry)) (path : List Bytes) (c : BkCore) (e' : BEntry) (c' : BkCore)
    (hn : c.wrote.Nodup) (hc : ∀ q f, OccursIn [e] q f → CleanEntry (cleanAt c) f) (h : bkEntry o rstars refd path e c = .ok (e', c')) : Counted c [e'] c' := by
  have hce : CleanEntry (cleanAt c) e := hc _ _ (.here (List.mem_singleton.2 rfl))
  have key : ∀ e, CleanEntry (cleanAt c) e → (do
      let h ← bkHead o rstars refd path e c
      match h with
      | .leaf e' c' => .ok (e', c')
      | .down _ _ => .error .bug) = .ok (e', c') → Counted c [e'] c' := by
    intro e hce h
    cases hh : bkHead o rstars refd path e c with
    | error err => rw [hh] at h; cases h
    | ok r =>
      rw [hh] at h
      have := head_counted hno hn hce hh
      cases r with
      | leaf e1 c1 => cases h; exact this
      | down x1 c1 => cases h
  match e, hc, hce with
  | .dir x ch, hc, hce =>
    rw [bkEntry] at h
    cases hh : bkHead o rstars refd path (.dir x ch) c with
    | error err => rw [hh] at h; cases h
    | ok r =>
      rw [hh] at h
      have hd := head_counted hno hn hce hh
      cases r with
      | leaf e1 c1 => cases h; exact hd
      | down x1 c1 =>
        simp only [bind, Except.bind] at h
        cases hl : bkList o rstars (refSub refd x.name) (x.name :: path) ch c1 with
        | error err => rw [hl] at h; cases h
        | ok r2 =>
          obtain ⟨l2, c2⟩ := r2
          rw [hl] at h
          cases h
          obtain ⟨-, hc1, hx1⟩ := hd
          subst hc1
          refine Counted.dir hx1 (list_counted hno ch _ _ _ _ _ hn (fun q f hq => ?_) hl)
          exact hc _ _ (.inside (List.mem_singleton.2 rfl) hq)
  | .node x, hc, hce => exact key _ hce h
  | .mirage n k, hc, hce => exact key _ hce h
  | .detruit n k d, hc, hce => exact key _ hce h
  | .ignored n, hc, hce => exact key _ hce h
  | .ignoredDir x, hc, hce => exact key _ hce h
theorem list_counted {o : BkOpts} {rstars : Nat → Obj} (hno : ∀ p, o.fails p = none) (l : List BEntry) (refd : Option (List BEntry)) (path : List Bytes) (c : BkCore) (l' : List BEntry) (c' : BkCore)
    (hn : c.wrote.Nodup) (hc : ∀ q f, OccursIn l q f → CleanEntry (cleanAt c) f) (h : bkList o rstars refd path l c = .ok (l', c')) : Counted c l' c' := by
  match l with
  | [] => rw [bkList] at h; cases h; exact Counted.refl hn
  | e :: l =>
    rw [bkList] at h
    cases h1 : bkEntry o rstars refd path e c with
    | error err => rw [h1] at h; cases h
    | ok r =>
      obtain ⟨e1, c1⟩ := r
      rw [h1] at h
      simp only [bind, Except.bind] at h
      cases h2 : bkList o rstars refd path l c1 with
      | error err => rw [h2] at h; cases h
      | ok r2 =>
        obtain ⟨l2, c2⟩ := r2
        rw [h2] at h
        cases h
        have g1 := entry_counted hno e refd path c e1 c1 hn (fun q f hq => hc q f hq.single) h1
        have hn1 : c1.wrote.Nodup := by obtain ⟨L, n, w, d, -⟩ := g1; rw [w]; exact d
        exact g1.trans (list_counted hno l refd path c1 l2 _ hn1 (fun q f hq => clean_step g1 (hc q f hq.cons)) h2)
end

theorem shareLabels_count (stars : Nat → Obj) (L : List Nat) : shareLabels stars L = ⟨L.countP (fun k => (stars k).isStored), 0, L.countP (fun k => (stars k).isUnsaved),
    L.countP (fun k => (stars k).isMetaOnly), 0, L.countP (fun k => (stars k).ino.dirty), 0, 0, L.countP (fun k => (stars k).hasEa), L.countP (fun k => (stars k).hasFsa)⟩ := by
  have key : ∀ (b : Bool) (n : Nat), (n + if b = true then 1 else 0) = b.toNat + n := by intro b n; cases b <;> simp [Nat.add_comm]
  induction L with
  | nil => rfl
  | cons k l ih =>
    rw [shareLabels, ih]
    simp only [Stats.plus, Obj.share, List.countP_cons, key, Nat.add_zero, Nat.zero_add]

theorem tally_links (l : List BEntry) : BEntry.tallyL (fun _ => true) l = BEntry.tallyL (fun e => !e.isLink) l + BEntry.tallyL BEntry.isLink l := by
  induction l using BEntry.rec_1 (motive_1 := fun e => BEntry.tally (fun _ => true) e = BEntry.tally (fun e => !e.isLink) e + BEntry.tally BEntry.isLink e) with
  | node x => rfl
  | dir x c ih => simp only [BEntry.tally, ih, BEntry.isLink, Bool.not_false, Bool.toNat_true, Bool.toNat_false]; omega
  | mirage n k => rfl
  | detruit n k d => rfl
  | ignored n => rfl
  | ignoredDir n => rfl
  | nil => rfl
  | cons e l ih1 ih2 => simp only [BEntry.tallyL, ih1, ih2]; omega

/-- C46: the counters of a backup during which nothing fails.  Each entry found in the directories covered by the filters (`cat` has one entry for each) is in exactly one of the
counters: stored, unchanged, metadata only, ignored; a hard linked inode is counted for its first name according to what has been decided for it, and its other names are counted
as treated and as hard links.  The files modified while they were read are counted a second time. -/
theorem C46_backup (o : BkOpts) (src ref cat : BCat) (st : Stats) (hno : ∀ p, o.fails p = none) (hc : ∀ p e, OccursIn src.root p e → CleanEntry src.stars e)
    (h : backup o src ref = .ok (cat, st)) :
    ∃ labels, Labels cat labels ∧
      st.treated = inodes cat labels Obj.isStored + st.hardLinks ∧
      st.hardLinks + labels.length = BEntry.tallyL BEntry.isLink cat.root ∧
      st.skipped = inodes cat labels Obj.isUnsaved ∧
      st.inodeOnly = inodes cat labels Obj.isMetaOnly ∧
      st.ignored = BEntry.tallyL BEntry.isIgnored cat.root ∧
      st.tooold = inodes cat labels (fun x => x.ino.dirty) ∧
      st.eaTreated = inodes cat labels Obj.hasEa ∧
      st.fsaTreated = inodes cat labels Obj.hasFsa ∧
      st.errored = 0 ∧ st.deleted = 0 ∧
      st.total = BEntry.tallyL (fun _ => true) cat.root + st.tooold := by
  rw [backup_eq] at h
  cases hb : bkList o ref.stars (some ref.root) [] src.root ⟨src.stars, [], Stats.zero⟩ with
  | error e => rw [hb] at h; cases h
  | ok r =>
    obtain ⟨l, c⟩ := r
    rw [hb] at h
    cases h
    have hcl : cleanAt ⟨src.stars, [], Stats.zero⟩ = src.stars := by funext k; unfold cleanAt; rw [if_neg (by simp)]
    obtain ⟨L, n, w, d, -, o1, k1, -, t, e, g1, g2⟩ := list_counted hno src.root _ _ ⟨src.stars, [], Stats.zero⟩ _ _ (by simp) (fun q f hq => by rw [hcl]; exact hc q f hq) hb
    rw [List.append_nil] at w d
    rw [w] at k1
    refine ⟨L, ⟨d, fun k => ⟨o1 k, k1 k⟩⟩, ?_⟩
    have hl := tally_links l
    rw [shareLabels_count] at e g2
    simp only [Stats.plus, Stats.times, linkShare, shareL, Stats.zero] at e
    simp only [Split, shareL] at g1 g2
    have e' : c.st = _ := e
    simp only [e', inodes, Stats.total]
    refine ⟨?_, ?_, ?_, ?_, ?_, ?_, ?_, ?_, ?_, ?_, ?_⟩ <;> omega

/-! ### with failures -/

/-- what is in exactly one counter when nothing fails -/
def Stats.seen (s : Stats) : Nat := s.treated + s.skipped + s.inodeOnly + s.ignored

theorem head_bound {o : BkOpts} {rstars : Nat → Obj} {refd : Option (List BEntry)} {path : List Bytes} {e : BEntry} {c : BkCore} {h : BkHead}
    (hh : bkHead o rstars refd path e c = .ok h) :
    match h with
    | .leaf e' c' => e'.isDir = false ∧ c.st.seen + c.st.errored + 1 ≤ c'.st.seen + c'.st.errored ∧ c'.st.seen ≤ c.st.seen + 1 ∧ c.st.errored ≤ c'.st.errored
    | .down _ c' => c'.st.seen = c.st.seen + 1 ∧ c'.st.errored = c.st.errored := by
  have attr : ∀ (st : Stats) a f, (st.afterAttr a f).seen = st.seen ∧ (st.afterAttr a f).errored = st.errored := by
    intro st a f; unfold Stats.afterAttr Stats.seen; by_cases ha : a = .full <;> by_cases hb : f = .full <;> simp [ha, hb]
  have ino : ∀ (st : Stats) s d, (st.afterInode s d).seen = st.seen + 1 ∧ (st.afterInode s d).errored = st.errored := by
    intro st s d; unfold Stats.afterInode Stats.seen; cases s <;> cases d <;> simp <;> omega
  have fai : ∀ (st : Stats) s, st.seen ≤ (st.failInode s).seen ∧ (st.failInode s).seen ≤ st.seen + 1 ∧ (st.failInode s).errored = st.errored := by
    intro st s; unfold Stats.failInode Stats.seen; cases s <;> simp <;> omega
  have err : ∀ st : Stats, st.err.seen = st.seen ∧ st.err.errored = st.errored + 1 := fun st => ⟨rfl, rfl⟩
  have ign : ∀ st : Stats, st.ign.seen = st.seen + 1 ∧ st.ign.errored = st.errored := fun st => ⟨rfl, rfl⟩
  unfold bkHead at hh
  split at hh
  · split at hh
    · next hk =>
      cases hh
      cases e with
      | mirage n k => refine ⟨rfl, ?_, ?_, ?_⟩ <;> simp only [Stats.link, Stats.seen] <;> omega
      | _ => cases hk
    · cases hx : e.obj c.stars with
      | none => rw [hx] at hh; cases hh
      | some x =>
        rw [hx] at hh
        simp only at hh
        unfold headOne at hh
        cases hd : decideEntry o x (refObj o c.stars rstars refd e) with
        | error err => rw [hd] at hh; cases hh
        | ok x' =>
          rw [hd] at hh
          simp only [bind, Except.bind] at hh
          cases hfl : o.fails (e.name :: path).reverse with
          | some w =>
            rw [hfl] at hh
            cases hh
            cases w with
            | inode =>
              have h1 := fai c.st x'.ino.status
              have h2 := err (c.st.failInode x'.ino.status)
              refine ⟨rfl, ?_, ?_, ?_⟩ <;> simp only [h2.1, h2.2] <;> omega
            | ea =>
              have h1 := ino c.st x'.ino.status (o.dirty (e.name :: path).reverse && x.ino.isFile && (decide (x'.ino.status = .saved) || decide (x'.ino.status = .delta)))
              have h2 := err (c.st.afterInode x'.ino.status (o.dirty (e.name :: path).reverse && x.ino.isFile && (decide (x'.ino.status = .saved) || decide (x'.ino.status = .delta))))
              refine ⟨rfl, ?_, ?_, ?_⟩ <;> simp only [h2.1, h2.2] <;> omega
          | none =>
            rw [hfl] at hh
            simp only at hh
            have h1 := ino c.st x'.ino.status (o.dirty (e.name :: path).reverse && x.ino.isFile && (decide (x'.ino.status = .saved) || decide (x'.ino.status = .delta)))
            have h2 := attr (c.st.afterInode x'.ino.status (o.dirty (e.name :: path).reverse && x.ino.isFile && (decide (x'.ino.status = .saved) || decide (x'.ino.status = .delta)))) x'.ino.eaStatus x'.fsa
            by_cases hdir : e.isDir = true
            · rw [if_pos hdir] at hh
              cases hh
              exact ⟨h2.1.trans h1.1, h2.2.trans h1.2⟩
            · rw [if_neg hdir] at hh
              cases hh
              refine ⟨?_, ?_, ?_, ?_⟩
              · cases e with
                | dir x ch => exact absurd rfl hdir
                | _ => rfl
              all_goals simp only [h2.1, h2.2] <;> omega
  · unfold headSkip at hh
    have h1 := ign c.st
    cases e with
    | dir x ch =>
      simp only at hh
      split at hh
      · cases hs : emptyDirStatus o x (refObj o c.stars rstars refd (.dir x ch)) with
        | error err => rw [hs] at hh; cases hh
        | ok s => rw [hs] at hh; cases hh; refine ⟨rfl, ?_, ?_, ?_⟩ <;> simp only [h1.1, h1.2] <;> omega
      · cases hh; refine ⟨rfl, ?_, ?_, ?_⟩ <;> simp only [h1.1, h1.2] <;> omega
    | _ => cases hh; refine ⟨rfl, ?_, ?_, ?_⟩ <;> simp only [h1.1, h1.2] <;> omega

/-- the counters and the number of entries -/
def Bounded (c : BkCore) (n : Nat) (c' : BkCore) : Prop := c.st.seen + c.st.errored + n ≤ c'.st.seen + c'.st.errored ∧ c'.st.seen ≤ c.st.seen + n ∧ c.st.errored ≤ c'.st.errored

theorem tally_leaf {e : BEntry} (h : e.isDir = false) : BEntry.tally (fun _ => true) e = 1 := by
  cases e with
  | dir x c => cases h
  | _ => rfl

mutual
theorem entry_bound (o : BkOpts) (rstars : Nat → Obj) (e : BEntry) (refd : Option (List BEntry)) (path : List Bytes) (c : BkCore) (e' : BEntry) (c' : BkCore)
    (h : bkEntry o rstars refd path e c = .ok (e', c')) : Bounded c (BEntry.tally (fun _ => true) e') c' := by
  have key : ∀ e, (do
      let h ← bkHead o rstars refd path e c
      match h with
      | .leaf e' c' => .ok (e', c')
      | .down _ _ => .error .bug) = .ok (e', c') → Bounded c (BEntry.tally (fun _ => true) e') c' := by
    intro e h
    cases hh : bkHead o rstars refd path e c with
    | error err => rw [hh] at h; cases h
    | ok r =>
      rw [hh] at h
      have := head_bound hh
      cases r with
      | leaf e1 c1 => cases h; rw [tally_leaf this.1]; exact this.2
      | down x1 c1 => cases h
  match e with
  | .dir x ch =>
    rw [bkEntry] at h
    cases hh : bkHead o rstars refd path (.dir x ch) c with
    | error err => rw [hh] at h; cases h
    | ok r =>
      rw [hh] at h
      have hb := head_bound hh
      cases r with
      | leaf e1 c1 => cases h; rw [tally_leaf hb.1]; exact hb.2
      | down x1 c1 =>
        simp only [bind, Except.bind] at h
        cases hl : bkList o rstars (refSub refd x.name) (x.name :: path) ch c1 with
        | error err => rw [hl] at h; cases h
        | ok r2 =>
          obtain ⟨l2, c2⟩ := r2
          rw [hl] at h
          cases h
          have := list_bound o rstars ch _ _ c1 l2 _ hl
          simp only [Bounded, BEntry.tally, Bool.toNat_true] at *
          omega
  | .node x => exact key _ h
  | .mirage n k => exact key _ h
  | .detruit n k d => exact key _ h
  | .ignored n => exact key _ h
  | .ignoredDir x => exact key _ h
theorem list_bound (o : BkOpts) (rstars : Nat → Obj) (l : List BEntry) (refd : Option (List BEntry)) (path : List Bytes) (c : BkCore) (l' : List BEntry) (c' : BkCore)
    (h : bkList o rstars refd path l c = .ok (l', c')) : Bounded c (BEntry.tallyL (fun _ => true) l') c' := by
  match l with
  | [] => rw [bkList] at h; cases h; simp [Bounded, BEntry.tallyL]
  | e :: l =>
    rw [bkList] at h
    cases h1 : bkEntry o rstars refd path e c with
    | error err => rw [h1] at h; cases h
    | ok r =>
      obtain ⟨e1, c1⟩ := r
      rw [h1] at h
      simp only [bind, Except.bind] at h
      cases h2 : bkList o rstars refd path l c1 with
      | error err => rw [h2] at h; cases h
      | ok r2 =>
        obtain ⟨l2, c2⟩ := r2
        rw [h2] at h
        cases h
        have g1 := entry_bound o rstars e refd path c e1 c1 h1
        have g2 := list_bound o rstars l refd path c1 l2 _ h2
        simp only [Bounded, BEntry.tallyL] at *
        omega
end

/-- C46, when some files cannot be saved: no entry is forgotten by the counters, and no entry is in two of the counters "treated, unchanged, metadata only, ignored"; an entry
that failed may be counted in one of them in addition to the errors (see the counterexample). -/
theorem C46_failures (o : BkOpts) (src ref cat : BCat) (st : Stats) (h : backup o src ref = .ok (cat, st)) :
    let n := BEntry.tallyL (fun _ => true) cat.root
    st.treated + st.skipped + st.inodeOnly + st.ignored ≤ n ∧ n ≤ st.treated + st.skipped + st.inodeOnly + st.ignored + st.errored := by
  rw [backup_eq] at h
  cases hb : bkList o ref.stars (some ref.root) [] src.root ⟨src.stars, [], Stats.zero⟩ with
  | error e => rw [hb] at h; cases h
  | ok r =>
    obtain ⟨l, c⟩ := r
    rw [hb] at h
    cases h
    have := list_bound o ref.stars src.root _ _ _ _ _ hb
    simp only [Bounded, Stats.seen, Stats.zero] at this
    dsimp only
    omega

/-! ### restoration -/

def entryEvents (l : List BEv) : Nat := l.countP (fun ev => match ev with | .entry _ => true | .eod => false)

theorem entryEvents_append (a b : List BEv) : entryEvents (a ++ b) = entryEvents a + entryEvents b := List.countP_append

mutual
theorem events_tally (e : BEntry) : entryEvents e.events = BEntry.tally (fun _ => true) e := by
  match e with
  | .dir x c =>
    rw [BEntry.events, BEntry.tally, ← eventsL_tally c, show ∀ (a : BEv) l, a :: l = [a] ++ l from fun _ _ => rfl, entryEvents_append, entryEvents_append]
    rfl
  | .node x => rfl
  | .mirage n k => rfl
  | .detruit n k d => rfl
  | .ignored n => rfl
  | .ignoredDir x => rfl
theorem eventsL_tally (l : List BEntry) : entryEvents (BEntry.eventsList l) = BEntry.tallyL (fun _ => true) l := by
  match l with
  | [] => rfl
  | e :: l => rw [BEntry.eventsList, entryEvents_append, events_tally e, eventsL_tally l, BEntry.tallyL]
end

/-- what one turn of the loop does to the counters -/
def Turn (o : RsOpts) (s s' : RsSt) (ev : BEv) : Prop :=
  s'.st.total ≤ s.st.total + (entryEvents [ev]) ∧ s.st.errored + s.st.ignored ≤ s'.st.errored + s'.st.ignored ∧
  (o.notDeleted = false → o.onlyDeleted = false → s.skip = 0 → s'.st.errored + s'.st.ignored = s.st.errored + s.st.ignored →
    s'.skip = 0 ∧ s'.st.total = s.st.total + (entryEvents [ev]))

/-- the functions writing to the filesystem leave the counters and the skipping as they are -/
def Keeps (s : RsSt) {α : Type} (f : α → RsSt) (r : RsM α) : Prop :=
  match r with
  | .ok a => (f a).st = s.st ∧ (f a).skip = s.skip
  | .error (_, s') => s'.st = s.st ∧ s'.skip = s.skip

theorem Keeps.bind {s : RsSt} {α β : Type} {f : α → RsSt} {g : β → RsSt} {r : RsM α} {k : α → RsM β} (h : Keeps s f r) (hk : ∀ a, (f a).st = s.st → (f a).skip = s.skip → Keeps s g (k a)) :
    Keeps s g (r >>= k) := by
  cases r with
  | ok a => exact hk a h.1 h.2
  | error e => exact h
theorem Keeps.mono {s s1 : RsSt} {α : Type} {f : α → RsSt} {r : RsM α} (h : Keeps s1 f r) (h1 : s1.st = s.st) (h2 : s1.skip = s.skip) : Keeps s f r := by
  cases r with
  | ok a => exact ⟨h.1.trans h1, h.2.trans h2⟩
  | error e => exact ⟨h.1.trans h1, h.2.trans h2⟩
theorem keeps_throw {s : RsSt} {α : Type} {f : α → RsSt} (e : Err) : Keeps s f (s.throw e) := ⟨rfl, rfl⟩
theorem keeps_ok {s : RsSt} {α : Type} {f : α → RsSt} {a : α} (h : (f a).st = s.st) (h2 : (f a).skip = s.skip) : Keeps s f (.ok a) := ⟨h, h2⟩

theorem keeps_create (o : RsOpts) (s : RsSt) (p : List Bytes) (x : Obj) : Keeps s id (s.create o p x) := by
  unfold RsSt.create
  split
  · split <;> exact ⟨rfl, rfl⟩
  · exact ⟨rfl, rfl⟩
theorem keeps_first (o : RsOpts) (s : RsSt) (p : List Bytes) (k : Nat) (x : Obj) : Keeps s id (s.createFirst o p k x) :=
  Keeps.bind (keeps_create o s p x) fun _ h1 h2 => ⟨h1, h2⟩
theorem keeps_make (o : RsOpts) (s : RsSt) (e : BEntry) (x : Obj) (p : List Bytes) : Keeps s id (s.makeFile o e x p) := by
  unfold RsSt.makeFile
  cases e with
  | mirage n k =>
    simp only
    split
    · exact keeps_first ..
    · split
      · split <;> exact ⟨rfl, rfl⟩
      · exact Keeps.mono (keeps_first ..) rfl rfl
      · split
        · exact Keeps.mono (keeps_first ..) rfl rfl
        · exact ⟨rfl, rfl⟩
  | _ => exact keeps_create ..
theorem keep_flag (s : RsSt) : s.flag.st = s.st ∧ s.flag.skip = s.skip := by
  unfold RsSt.flag; split <;> exact ⟨rfl, rfl⟩
theorem keep_setEa (o : RsOpts) (s : RsSt) (e : BEntry) (ea : Bytes) (p : List Bytes) : (s.setEa o e ea p).1.st = s.st ∧ (s.setEa o e ea p).1.skip = s.skip := by
  unfold RsSt.setEa
  cases e with
  | mirage n k => simp only; split <;> exact ⟨rfl, rfl⟩
  | _ => exact ⟨rfl, rfl⟩
theorem keep_clearEa (s : RsSt) (e : BEntry) (p : List Bytes) : (s.clearEa e p).1.st = s.st ∧ (s.clearEa e p).1.skip = s.skip := by
  unfold RsSt.clearEa
  cases e with
  | mirage n k => simp only; split <;> exact ⟨rfl, rfl⟩
  | _ => exact ⟨rfl, rfl⟩
theorem keeps_setDate (o : RsOpts) (s : RsSt) (x : Obj) (p : List Bytes) : Keeps s id (s.setDate o x p) := by
  unfold RsSt.setDate; split
  · split <;> exact ⟨rfl, rfl⟩
  · exact ⟨rfl, rfl⟩

theorem keeps_new (o : RsOpts) (s : RsSt) (e : BEntry) (x : Obj) (p : List Bytes) : Keeps s Prod.fst (s.writeNew o e x p) := by
  unfold RsSt.writeNew
  split
  · refine Keeps.bind (keeps_make o s e x p) fun s1 h1 h2 => ?_
    simp only [id] at h1 h2
    have f1 := keep_flag s1
    dsimp only
    generalize hs2 : (if x.eaSaved = true then (s1.flag.setEa o e x.getEa p).1 else s1.flag) = s2
    have g2 : s2.st = s.st ∧ s2.skip = s.skip := by
      subst hs2
      split
      · have := keep_setEa o s1.flag e x.getEa p; exact ⟨this.1.trans (f1.1.trans h1), this.2.trans (f1.2.trans h2)⟩
      · exact ⟨f1.1.trans h1, f1.2.trans h2⟩
    generalize hs3 : (if x.fsa = .full then s2.setFsa o x.fsas p else s2) = s3
    have g3 : s3.st = s.st ∧ s3.skip = s.skip := by
      subst hs3
      split
      · exact ⟨g2.1, g2.2⟩
      · exact g2
    refine Keeps.bind (f := id) ?_ fun s4 h3 h4 => ?_
    · split
      · exact ⟨g3.1, g3.2⟩
      · exact Keeps.mono (Keeps.bind (f := id) (g := id) (keeps_setDate o s3 x p) fun _ a b => ⟨a, b⟩) g3.1 g3.2
    · simp only [id] at h3 h4
      refine ⟨?_, ?_⟩
      · show (if x.eaSaved = true then (s4.setEa o e x.getEa p).1 else s4).st = s.st
        split
        · exact (keep_setEa ..).1.trans h3
        · exact h3
      · show (if x.eaSaved = true then (s4.setEa o e x.getEa p).1 else s4).skip = s.skip
        split
        · exact (keep_setEa ..).2.trans h4
        · exact h4
  · exact ⟨rfl, rfl⟩

theorem keeps_replace (o : RsOpts) (s : RsSt) (e : BEntry) (x y : Obj) (p : List Bytes) : Keeps s id (s.replace o e x y p) := by
  unfold RsSt.replace
  refine Keeps.bind (Keeps.mono (keeps_make o _ e x p) rfl rfl) fun s1 h1 h2 => ?_
  simp only [id] at h1 h2
  by_cases hy : y.eas = []
  · simp only [hy, if_true]; exact ⟨h1, h2⟩
  · simp only [hy, if_false]; exact ⟨h1, h2⟩

theorem keeps_overData (o : RsOpts) (s : RsSt) (e : BEntry) (x y : Obj) (p : List Bytes) (a : OverData) : Keeps s Prod.fst (s.overData o e x y p a) := by
  unfold RsSt.overData
  simp only
  have hp : Keeps s Prod.fst (if (e.isDir && !(sameInPlace x y)) = true then s.throw .range else (.ok (s, .policy) : RsM (RsSt × RsDone))) := by split <;> exact ⟨rfl, rfl⟩
  have ho : Keeps s Prod.fst (if ((e.isDir || decide (x.ino.status = .inodeOnly)) && sameInPlace x y) = true then (.ok ({ s with fs := s.fs.upd p (o.widen x) }, .restored) : RsM (RsSt × RsDone))
    else if x.ino.status = .inodeOnly then s.throw .range
    else do
      let s ← s.replace o e x y p
      .ok (s, .restored)) := by
    split
    · exact ⟨rfl, rfl⟩
    · split
      · exact ⟨rfl, rfl⟩
      · exact Keeps.bind (keeps_replace o s e x y p) fun _ a b => ⟨a, b⟩
  cases a with
  | preserve => exact hp
  | preserveMark => exact hp
  | overwrite => exact ho
  | overwriteMark => exact ho
  | _ => exact ⟨rfl, rfl⟩

theorem keeps_overContent (o : RsOpts) (s : RsSt) (e : BEntry) (x y : Obj) (p : List Bytes) (a : OverData) : Keeps s Prod.fst (s.overContent o e x y p a) := by
  unfold RsSt.overContent
  split
  · exact keeps_overData ..
  · split
    · split
      · split <;> exact ⟨rfl, rfl⟩
      · exact ⟨rfl, rfl⟩
    · cases e with
      | mirage n k =>
        simp only
        split <;> exact ⟨rfl, rfl⟩
      | _ => exact ⟨rfl, rfl⟩

theorem keeps_overEa (o : RsOpts) (s : RsSt) (e : BEntry) (x y : Obj) (p : List Bytes) (a : OverEa) : Keeps s Prod.fst (s.overEa o e x y p a) := by
  unfold RsSt.overEa
  simp only
  generalize (if y.eas = [] ∧ (a = .mergePreserve ∨ a = .mergeOverwrite) then OverEa.overwrite else a) = c
  generalize (if x.ino.eaStatus = .removed ∧ (c = .mergePreserve ∨ c = .mergeOverwrite) then OverEa.clear else c) = b
  have ho : Keeps s Prod.fst (match s.clearEa e p with
    | (s, false) => (.ok (s, false) : RsM (RsSt × Bool))
    | (s, true) => .ok (s.setEa o e x.getEa p)) := by
    have := keep_clearEa s e p
    generalize s.clearEa e p = r at this
    obtain ⟨s1, b⟩ := r
    cases b with
    | false => exact ⟨this.1, this.2⟩
    | true => have h2 := keep_setEa o s1 e x.getEa p; exact ⟨h2.1.trans this.1, h2.2.trans this.2⟩
  cases b with
  | overwrite => exact ho
  | overwriteMark => exact ho
  | clear => exact keep_clearEa s e p
  | mergePreserve => simp only; split; exacts [keep_setEa .., ⟨rfl, rfl⟩]
  | mergeOverwrite => simp only; split; exacts [keep_setEa .., ⟨rfl, rfl⟩]
  | _ => exact ⟨rfl, rfl⟩

theorem keeps_overFsa (o : RsOpts) (s : RsSt) (e : BEntry) (x y : Obj) (p : List Bytes) (a : OverEa) : Keeps s Prod.fst (s.overFsa o e x y p a) := by
  unfold RsSt.overFsa
  simp only
  generalize (if y.fsas = [] ∧ (a = .mergePreserve ∨ a = .mergeOverwrite) then OverEa.overwrite else a) = b
  cases b with
  | overwrite => simp only; split <;> exact ⟨rfl, rfl⟩
  | overwriteMark => simp only; split <;> exact ⟨rfl, rfl⟩
  | _ => exact ⟨rfl, rfl⟩

theorem keeps_caught {s : RsSt} {r : RsM (RsSt × Bool)} (h : Keeps s Prod.fst r) : Keeps s Prod.fst (caught s r) := by
  unfold caught
  split
  · exact h
  · exact ⟨rfl, rfl⟩
  · exact h

theorem keeps_over (o : RsOpts) (s : RsSt) (e : BEntry) (x y : Obj) (p : List Bytes) (ad : OverData) (ae : OverEa) : Keeps s Prod.fst (s.writeOver o e x y p ad ae) := by
  unfold RsSt.writeOver
  refine Keeps.bind (keeps_overContent o s e x y p ad) fun r1 h1 h2 => ?_
  obtain ⟨s1, d⟩ := r1
  simp only at h1 h2 ⊢
  refine Keeps.bind (f := Prod.fst) ?_ fun r2 h3 h4 => ?_
  · split
    · exact Keeps.mono (keeps_caught (keeps_overEa ..)) h1 h2
    · exact ⟨h1, h2⟩
  obtain ⟨s2, ea⟩ := r2
  simp only at h3 h4 ⊢
  refine Keeps.bind (f := Prod.fst) ?_ fun r3 h5 h6 => ?_
  · split
    · exact Keeps.mono (keeps_caught (keeps_overFsa ..)) h3 h4
    · exact ⟨h3, h4⟩
  obtain ⟨s3, fa⟩ := r3
  simp only at h5 h6 ⊢
  refine Keeps.bind (f := id) ?_ fun s4 h7 h8 => ?_
  · split
    · split
      · split
        · exact ⟨h5, h6⟩
        · exact Keeps.mono (Keeps.bind (keeps_setDate o s3 x p) fun _ a b => ⟨a, b⟩) h5 h6
      · exact Keeps.mono (keeps_setDate o s3 y p) h5 h6
    · exact ⟨h5, h6⟩
  simp only [id] at h7 h8
  refine Keeps.bind (f := Prod.fst) ?_ fun r5 h9 h10 => ?_
  · split
    · exact Keeps.mono (keeps_caught (keeps_overEa ..)) h7 h8
    · exact ⟨h7, h8⟩
  obtain ⟨s5, fb⟩ := r5
  simp only at h9 h10 ⊢
  by_cases hc : ad = .remove ∨ d = .restored
  · rw [if_pos hc]
    exact ⟨(keep_flag s5).1.trans h9, (keep_flag s5).2.trans h10⟩
  · rw [if_neg hc]
    exact ⟨h9, h10⟩

theorem keep_enter (s : RsSt) (e : BEntry) (x : Obj) (old : Option Obj) (d : RsDone) : (s.enter e x old d).st = s.st ∧ (s.enter e x old d).skip = s.skip := by
  unfold RsSt.enter; dsimp only; generalize (e.isDir && _) = b; cases b <;> exact ⟨rfl, rfl⟩

theorem keeps_write (o : RsOpts) (stars : Nat → Obj) (s : RsSt) (e : BEntry) : Keeps s Prod.fst (s.write o stars e) := by
  have hi : ∀ e x, Keeps s Prod.fst (s.writeInode o e x) := by
    intro e x
    unfold RsSt.writeInode
    simp only
    split
    · split
      · exact ⟨rfl, rfl⟩
      · refine Keeps.bind (keeps_new ..) fun r h1 h2 => ?_
        exact ⟨(keep_enter ..).1.trans h1, (keep_enter ..).2.trans h2⟩
    · split
      · exact ⟨rfl, rfl⟩
      · refine Keeps.bind (keeps_over ..) fun r h1 h2 => ?_
        exact ⟨(keep_enter ..).1.trans h1, (keep_enter ..).2.trans h2⟩
  unfold RsSt.write
  cases e with
  | node x => exact hi _ _
  | dir x c => exact hi _ _
  | mirage n k => exact hi _ _
  | detruit n k d =>
    simp only
    unfold RsSt.writeDet
    simp only
    split
    · exact ⟨rfl, rfl⟩
    · split
      · exact ⟨rfl, rfl⟩
      · refine Keeps.bind (f := id) (r := s.overRemove o _ _) ?_ fun s1 h1 h2 => ?_
        · unfold RsSt.overRemove; split <;> exact ⟨rfl, rfl⟩
        · exact ⟨(keep_flag s1).1.trans h1, (keep_flag s1).2.trans h2⟩
  | ignored n => exact ⟨rfl, rfl⟩
  | ignoredDir n => exact ⟨rfl, rfl⟩

theorem step_turn {o : RsOpts} {stars : Nat → Obj} {s s' : RsSt} {ev : BEv} (h : rsStep o stars s ev = .ok s') : Turn o s s' ev := by
  unfold rsStep at h
  by_cases hs : s.skip > 0
  · rw [if_pos hs] at h
    have hst : s'.st = s.st := by
      cases ev with
      | entry e =>
        simp only at h
        cases h
        split <;> rfl
      | eod => cases h; rfl
    unfold Turn
    rw [hst]
    exact ⟨by omega, le_rfl, fun _ _ h0 => by omega⟩
  · rw [if_neg hs] at h
    cases ev with
    | eod =>
      simp only at h
      have hk : ∃ s1, s.writeEod o = .ok s1 ∧ s1 = s' := by
        cases hw : s.writeEod o with
        | ok s1 => rw [hw] at h; cases h; exact ⟨_, rfl, rfl⟩
        | error e => rw [hw] at h; cases h
      obtain ⟨s1, hw, rfl⟩ := hk
      have : Keeps s id (s.writeEod o) := by
        unfold RsSt.writeEod
        simp only
        split
        · exact ⟨rfl, rfl⟩
        · split
          · exact Keeps.mono (Keeps.bind (keeps_setDate o _ _ _) fun _ a b => ⟨a, b⟩) rfl rfl
          · exact ⟨rfl, rfl⟩
      rw [hw] at this
      have hst : s1.st = s.st := this.1
      unfold Turn
      rw [hst]
      exact ⟨by omega, le_rfl, fun _ _ h0 _ => ⟨this.2.trans h0, rfl⟩⟩
    | entry e =>
      simp only at h
      have one : entryEvents [BEv.entry e] = 1 := rfl
      unfold Turn
      rw [one]
      by_cases hd : (e.isDet && o.notDeleted) = true
      · rw [if_pos hd] at h
        cases h
        refine ⟨by omega, le_rfl, fun h1 => ?_⟩
        rw [h1, Bool.and_false] at hd; cases hd
      · rw [if_neg hd] at h
        by_cases hc : (o.cov (s.cdir ++ [e.name]) e && (!o.onlyDeleted || e.isDir || e.isDet)) = true
        · rw [if_pos hc] at h
          have hk := keeps_write o stars s e
          cases hw : s.write o stars e with
          | ok r =>
            obtain ⟨s1, d⟩ := r
            rw [hw] at h hk
            cases h
            have hst : s1.st = s.st := hk.1
            simp only [hst]
            have hdn : (s.st.done d).total = s.st.total + 1 ∧ (s.st.done d).errored = s.st.errored ∧ (s.st.done d).ignored = s.st.ignored := by
              cases d <;> refine ⟨?_, rfl, rfl⟩ <;> simp only [Stats.done, Stats.total] <;> omega
            exact ⟨by omega, by omega, fun _ _ h0 _ => ⟨hk.2.trans h0, hdn.1⟩⟩
          | error er =>
            obtain ⟨err, s1⟩ := er
            rw [hw] at h hk
            have hst : s1.st = s.st := hk.1
            have key : s' = { s1 with st := if o.onlyDeleted then s1.st else s1.st.err, skip := if e.isDir then 1 else 0 } := by
              cases err <;> first | (cases h; done) | (exact (Except.ok.inj h).symm)
            subst key
            simp only [hst]
            by_cases hod : o.onlyDeleted = true
            · rw [if_pos hod]
              exact ⟨by omega, le_rfl, fun _ h1 => by rw [hod] at h1; cases h1⟩
            · rw [if_neg hod]
              refine ⟨by simp only [Stats.err, Stats.total]; omega, by simp only [Stats.err]; omega, fun _ _ _ h1 => ?_⟩
              simp only [Stats.err] at h1; omega
        · rw [if_neg hc] at h
          cases h
          refine ⟨by simp only [Stats.ign, Stats.total]; omega, by simp only [Stats.ign]; omega, fun _ _ _ h1 => ?_⟩
          simp only [Stats.ign] at h1; omega

theorem loop_turn {o : RsOpts} {stars : Nat → Obj} : ∀ (l : List BEv) (s s' : RsSt), rsLoop o stars s l = .ok s' →
    s'.st.total ≤ s.st.total + entryEvents l ∧ s.st.errored + s.st.ignored ≤ s'.st.errored + s'.st.ignored ∧
    (o.notDeleted = false → o.onlyDeleted = false → s.skip = 0 → s'.st.errored + s'.st.ignored = s.st.errored + s.st.ignored → s'.st.total = s.st.total + entryEvents l)
  | [], s, s', h => by cases h; exact ⟨le_rfl, le_rfl, fun _ _ _ _ => rfl⟩
  | ev :: l, s, s', h => by
    rw [rsLoop] at h
    cases h1 : rsStep o stars s ev with
    | error e => rw [h1] at h; cases h
    | ok s1 =>
      rw [h1] at h
      obtain ⟨a1, a2, a3⟩ := step_turn h1
      obtain ⟨b1, b2, b3⟩ := loop_turn l s1 s' h
      rw [show ev :: l = [ev] ++ l from rfl, entryEvents_append]
      refine ⟨by omega, by omega, fun h2 h3 h4 h5 => ?_⟩
      obtain ⟨c1, c2⟩ := a3 h2 h3 h4 (by omega)
      rw [b3 h2 h3 c1 (by omega), c2]
      omega

/-- C46, restoration: the total never exceeds the number of entries of the archive, and is equal to it when nothing was excluded by the filters and nothing
failed: each entry is then in one and only one counter. -/
theorem C46_restore (o : RsOpts) (cat : BCat) (fs fs' : FS) (st : Stats) (h : restore o cat fs = .ok (fs', st)) :
    st.total ≤ BEntry.tallyL (fun _ => true) cat.root ∧
    (o.notDeleted = false → o.onlyDeleted = false → st.errored = 0 → st.ignored = 0 → st.total = BEntry.tallyL (fun _ => true) cat.root) := by
  unfold restore at h
  cases hl : rsLoop o cat.stars ⟨fs, [], [], [], Stats.zero, 0⟩ (BEntry.eventsList cat.root) with
  | error e => rw [hl] at h; cases h
  | ok s =>
    rw [hl] at h
    cases h
    obtain ⟨a1, a2, a3⟩ := loop_turn _ _ _ hl
    rw [eventsL_tally] at a1 a3
    have hz : (Stats.zero).total = 0 := rfl
    simp only [hz, Nat.zero_add] at a1 a3
    exact ⟨a1, fun h1 h2 h3 h4 => a3 h1 h2 trivial (by rw [h3, h4]; rfl)⟩


/-! ### examples -/

private def sObj (name : Bytes) (mt : Nat) (data : Bytes) : Obj :=
  ⟨name, ⟨.file, 1000, 100, 420, ⟨mt, .s⟩, ⟨mt, .s⟩, .saved, data.length, false, false, false, 0, 0, [], .none, 0, 0⟩, .none, data, [], []⟩
private def sDir (name : Bytes) (mt : Nat) : Obj :=
  ⟨name, ⟨.dir, 1000, 100, 493, ⟨mt, .s⟩, ⟨mt, .s⟩, .saved, 0, false, false, false, 0, 0, [], .none, 0, 0⟩, .none, [], [], []⟩
private def sEa (x : Obj) : Obj := { x with ino := { x.ino with eaStatus := .full, eaCount := 1, eaSize := 1 }, eas := [5] }
private def sOpts : BkOpts := ⟨.us, 0, .all, false, 0, false, .anyInodeChange, false, fun p _ => decide (p ≠ [[120]]), fun _ => false, fun _ => none⟩
private def sStars : Nat → Obj := fun k => if k = 3 then sObj [] 40 [9] else sDir [] 0
/-- "a" modified, "b" unchanged, "d" a directory containing two names of the same inode, "x" excluded -/
private def sSrc : BCat := ⟨[.node (sObj [97] 20 [1]), .node (sObj [98] 11 [2]), .dir (sDir [100] 12) [.mirage [101] 3, .mirage [102] 3], .node (sObj [120] 9 [])], sStars⟩
private def sRef : BCat := ⟨[.node (sObj [97] 10 [0]), .node (sObj [98] 11 [2]), .dir (sDir [100] 12) []], fun _ => sDir [] 0⟩
private def sCheck (o : BkOpts) (src ref : BCat) (w : Stats) (n : Nat) : Bool :=
  match backup o src ref with
  | .ok (cat, st) => decide (st = w ∧ BEntry.tallyL (fun _ => true) cat.root = n)
  | .error _ => false
private theorem sCheck_out {o : BkOpts} {src ref : BCat} {w : Stats} {n : Nat} (h : sCheck o src ref w n = true) : ∃ cat, backup o src ref = .ok (cat, w) ∧ BEntry.tallyL (fun _ => true) cat.root = n := by
  unfold sCheck at h
  cases hb : backup o src ref with
  | error e => rw [hb] at h; cases h
  | ok r =>
    obtain ⟨cat, st⟩ := r
    rw [hb] at h
    have := of_decide_eq_true h
    exact ⟨cat, by rw [this.1], this.2⟩

/-- a case meeting the hypotheses of `C46_backup`: six entries, of which "a" and the hard linked inode (twice, once as hard link) are treated, "b" and the directory unchanged, "x" ignored -/
theorem C46_example : (∀ p, sOpts.fails p = none) ∧ (∀ p e, OccursIn sSrc.root p e → CleanEntry sSrc.stars e) ∧
    ∃ cat, backup sOpts sSrc sRef = .ok (cat, ⟨3, 1, 2, 0, 1, 0, 0, 0, 0, 0⟩) ∧ BEntry.tallyL (fun _ => true) cat.root = 6 := by
  refine ⟨fun _ => rfl, ?_, sCheck_out (by decide +kernel)⟩
  intro p e h
  have leaf : ∀ l, (∀ e ∈ l, CleanEntry sSrc.stars e ∧ ∀ x c, e = .dir x c → c = [.mirage [101] 3, .mirage [102] 3]) →
    ∀ p e, OccursIn l p e → CleanEntry sSrc.stars e := by
    intro l hl p e h
    induction h with
    | here hm => exact (hl _ hm).1
    | inside hm h2 ih =>
      have := (hl _ hm).2 _ _ rfl
      subst this
      refine ih ?_
      intro e he
      simp only [List.mem_cons, List.not_mem_nil, or_false] at he
      rcases he with rfl | rfl
      · exact ⟨rfl, fun x c h => by cases h⟩
      · exact ⟨rfl, fun x c h => by cases h⟩
  refine leaf _ ?_ p e h
  intro e he
  simp only [sSrc, List.mem_cons, List.not_mem_nil, or_false] at he
  rcases he with rfl | rfl | rfl | rfl
  · exact ⟨rfl, fun x c h => by cases h⟩
  · exact ⟨rfl, fun x c h => by cases h⟩
  · exact ⟨rfl, fun x c h => by cases h; rfl⟩
  · exact ⟨rfl, fun x c h => by cases h⟩

/-- C46, counterexample: a file modified while it is read is counted twice in the total (treated, and in the counter of the files modified during the backup), filtre.cpp:877-882. -/
theorem C46_dirty_counterexample : ∃ cat, backup { sOpts with dirty := fun p => decide (p = [[97]]) } ⟨[.node (sObj [97] 20 [1])], sStars⟩ ⟨[], sStars⟩ = .ok (cat, ⟨1, 0, 0, 0, 0, 1, 0, 0, 0, 0⟩) ∧
    BEntry.tallyL (fun _ => true) cat.root = 1 ∧ Stats.total ⟨1, 0, 0, 0, 0, 1, 0, 0, 0, 0⟩ = 2 := by
  obtain ⟨cat, h1, h2⟩ := sCheck_out (w := ⟨1, 0, 0, 0, 0, 1, 0, 0, 0, 0⟩) (n := 1)
    (show sCheck { sOpts with dirty := fun p => decide (p = [[97]]) } ⟨[.node (sObj [97] 20 [1])], sStars⟩ ⟨[], sStars⟩ _ _ = true by decide +kernel)
  exact ⟨cat, h1, h2, rfl⟩

/-- C46, counterexample: a file whose extended attributes cannot be saved is counted as treated and as failed, filtre.cpp:954-990 and 1110-1145 (in the catalogue it is an ignored entry). -/
theorem C46_ea_failure_counterexample : ∃ cat, backup { sOpts with fails := fun p => if p = [[97]] then some .ea else none } ⟨[.node (sEa (sObj [97] 20 [1]))], sStars⟩ ⟨[], sStars⟩ = .ok (cat, ⟨1, 0, 0, 0, 0, 0, 1, 0, 0, 0⟩) ∧
    BEntry.tallyL (fun _ => true) cat.root = 1 ∧ Stats.total ⟨1, 0, 0, 0, 0, 0, 1, 0, 0, 0⟩ = 2 := by
  obtain ⟨cat, h1, h2⟩ := sCheck_out (w := ⟨1, 0, 0, 0, 0, 0, 1, 0, 0, 0⟩) (n := 1)
    (show sCheck { sOpts with fails := fun p => if p = [[97]] then some .ea else none } ⟨[.node (sEa (sObj [97] 20 [1]))], sStars⟩ ⟨[], sStars⟩ _ _ = true by decide +kernel)
  exact ⟨cat, h1, h2, rfl⟩

end Dar
