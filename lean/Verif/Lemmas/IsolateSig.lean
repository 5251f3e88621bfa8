import Verif.Lemmas.IsolateDrop
import Verif.Props.ToolsText
namespace Dar

theorem sigPut_read (bl : Nat) (sg : Bytes) (hb : bl < 2 ^ 64) : ∃ b, sigPut bl sg = .ok b ∧ ReadsAs (sigRead1 sg.length) b (bl, sg) := by
  have hw := C37_crc_width sg.length
  generalize hwd : (if sg.length = 0 then 1 else 4 * ((sg.length + 2 ^ 30 - 1) / 2 ^ 30)) = w at hw
  have hw0 : w ≠ 0 := by
    rw [← hwd]
    split
    · decide
    · omega
  have h0 : crcCreate w = .ok ⟨crcImplFor w, ⟨List.replicate w 0, 0⟩⟩ := by unfold crcCreate; rw [if_neg hw0]
  have hc : ∃ c, (⟨crcImplFor w, ⟨List.replicate w 0, 0⟩⟩ : Crc).compute 0 sg = .ok c ∧ ∀ rest, ∃ c', crcRead false (c.dump ++ rest) = .ok (c', rest) ∧ c'.eqv c = .ok true := by
    obtain ⟨c, _, h1, _⟩ := C09_storage w _ h0 [(0, sg)] []
    simp only [List.foldlM_cons, List.foldlM_nil, bind_pure] at h1
    refine ⟨c, h1, fun rest => ?_⟩
    obtain ⟨c2, c', g1, g2, g3, _⟩ := C09_storage w _ h0 [(0, sg)] rest
    simp only [List.foldlM_cons, List.foldlM_nil, bind_pure] at g1
    rw [h1] at g1
    injection g1 with g1
    subst g1
    exact ⟨c', g2, eqv_symm _ _ g3⟩
  obtain ⟨c, h1, h2⟩ := hc
  refine ⟨putInt bl ++ sg ++ c.dump, ?_, ?_⟩
  · unfold sigPut
    rw [hw]
    show (do let c ← crcCreate w; let c ← c.compute 0 sg; .ok (putInt bl ++ sg ++ c.dump) : Res Bytes) = _
    rw [h0]
    show (do let c ← (⟨crcImplFor w, ⟨List.replicate w 0, 0⟩⟩ : Crc).compute 0 sg; .ok (putInt bl ++ sg ++ c.dump) : Res Bytes) = _
    rw [h1]
    rfl
  · unfold sigRead1
    rw [List.append_assoc]
    refine (getInt_putInt bl).bind ?_
    rw [if_neg (by omega)]
    refine (ReadsAs.readExact sg sg.length rfl).bind ?_
    refine ReadsAs.bind_pure (a := ()) ?_ rfl
    intro rest
    obtain ⟨c', k1, k2⟩ := h2 rest
    unfold sigCheck
    rw [k1]
    dsimp only
    rw [hw]
    dsimp only
    rw [h0]
    dsimp only
    rw [h1]
    dsimp only
    rw [k2]

/-- the signature of a file can be obtained -/
def SigGood (data : Option Bytes) (f : FileB) : Prop :=
  ∀ d, f.sig = some d → (d.size = 0 → d.magic = .none) ∧ (d.size ≠ 0 → ∃ bl sg, sigFetch data d = .ok (bl, sg) ∧ bl ≠ 0)
def Node.SigGood (data : Option Bytes) (n : Node) : Prop :=
  match n.special with
  | .file f | .door f => Dar.SigGood data f
  | _ => True

theorem sigFetch_inv (data : Option Bytes) (d : DSig) (bl : Nat) (sg : Bytes) (h : sigFetch data d = .ok (bl, sg)) : bl < 2 ^ 64 ∧ sg.length = d.size := by
  unfold sigFetch at h
  split at h
  · cases h
  · cases data with
    | none => cases h
    | some b =>
      dsimp only at h
      cases hr : sigRead1 d.size (b.drop d.offset) with
      | error e => rw [hr] at h; cases h
      | ok x =>
        obtain ⟨r, s⟩ := x
        rw [hr] at h
        injection h with h
        subst h
        unfold sigRead1 at hr
        rw [bind_run] at hr
        cases h1 : getInt (b.drop d.offset) with
        | error e => rw [h1] at hr; cases hr
        | ok y =>
          obtain ⟨n, s1⟩ := y
          rw [h1] at hr
          dsimp only at hr
          by_cases hn : n ≥ 2 ^ 64
          · rw [if_pos hn] at hr; cases hr
          · rw [if_neg hn, bind_run] at hr
            cases h2 : readExact d.size s1 with
            | error e => rw [h2] at hr; cases hr
            | ok z =>
              obtain ⟨q, s2⟩ := z
              rw [h2] at hr
              dsimp only at hr
              rw [bind_run] at hr
              have hq : q.length = d.size := by
                unfold readExact at h2
                split at h2
                · injection h2 with h2
                  injection h2 with h2 _
                  rw [← h2, List.length_take]
                  omega
                · cases h2
              cases h3 : sigCheck q s2 with
              | error e => rw [h3] at hr; cases hr
              | ok v =>
                rw [h3] at hr
                dsimp only at hr
                rw [pure_run] at hr
                injection hr with hr
                injection hr with hr _
                injection hr with e1 e2
                subst e1 e2
                exact ⟨by omega, hq⟩

theorem xferFile_good (o : IsoOpts) (ho : o.build = false) (data : Option Bytes) (p : List Bytes) (st : SavedStatus) (f : FileB) (out : Bytes) (h0 : out ≠ [])
    (hg : SigGood data f) : ∃ f' x, xferFile o data p st f out = .ok (f', out ++ x) ∧ f'.shown st = f.shown st ∧ (f.Writable false st → f'.Writable false st)
      ∧ ∀ y, (f'.sig.map fun d => (d.magic, d.result, if d.size ≠ 0 then some (sigFetch (some (out ++ x ++ y)) d) else none))
        = f.sig.map fun d => (d.magic, d.result, if d.size ≠ 0 then some (sigFetch data d) else none) := by
  unfold xferFile
  cases hs : f.sig with
  | none => exact ⟨f, [], by simp [ho], rfl, id, fun y => by rw [hs]; rfl⟩
  | some d =>
    obtain ⟨g1, g2⟩ := hg d hs
    simp only [ho, Bool.not_false, Bool.true_or, if_true]
    by_cases hz : d.size = 0
    · refine ⟨{ f with sig := some { d with magic := .none, size := 0, offset := 0 } }, [], ?_, ?_, ?_, ?_⟩
      · unfold xferSig
        rw [if_neg (by simp [hz]), List.append_nil]
        rfl
      · unfold FileB.shown; split <;> rfl
      · intro h
        refine ⟨h.hole, h.dirty, ?_, h.check, ?_⟩
        · intro hd; exact ⟨rfl, (h.base hd).2⟩
        · intro _ d' hd'
          injection hd' with hd'
          subst hd'
          exact h.sig rfl d hs
      · intro y
        simp [hz, g1 hz]
    · obtain ⟨bl, sg, hf, hb0⟩ := g2 hz
      obtain ⟨hb, hl⟩ := sigFetch_inv data d bl sg hf
      obtain ⟨b, hp, hr⟩ := sigPut_read bl sg hb
      have hsg : sg ≠ [] := by intro h; rw [h] at hl; exact hz hl.symm
      refine ⟨{ f with sig := some { d with size := sg.length, offset := out.length } }, b, ?_, ?_, ?_, ?_⟩
      · unfold xferSig
        rw [if_pos hz, hf]
        show (do let (d', out') ← (do let out' ← sigStore bl sg out; .ok ({ d with size := sg.length, offset := out.length }, out') : Res (DSig × Bytes))
                 .ok ({ f with sig := some d' }, out') : Res (FileB × Bytes)) = _
        have : sigStore bl sg out = .ok (out ++ b) := by
          unfold sigStore
          rw [if_neg (by simp [hsg, hb0]), hp]
          rfl
        rw [this]
        rfl
      · unfold FileB.shown; split <;> rfl
      · intro h
        refine ⟨h.hole, h.dirty, ?_, h.check, ?_⟩
        · intro hd; exact ⟨rfl, (h.base hd).2⟩
        · intro _ d' hd'
          injection hd' with hd'
          subst hd'
          exact h.sig rfl d hs
      · intro y
        have hfet : sigFetch (some (out ++ b ++ y)) { d with size := sg.length, offset := out.length } = .ok (bl, sg) := by
          unfold sigFetch
          rw [if_neg (by simpa using h0)]
          dsimp only
          rw [List.append_assoc, List.drop_left', hr y]
          rfl
        have hl0 : sg.length ≠ 0 := by rw [hl]; exact hz
        simp only [Option.map_some, hfet]
        rw [if_pos hl0, if_pos hz, hf]

/-- a node and what the transfer makes of it: the same, with the same signature found in what has been written -/
structure NodeSame (data : Option Bytes) (out : Bytes) (n n' : Node) : Prop where
  name : n'.name = n.name
  shown : ∀ name, n'.shown name = n.shown name
  sig : ∀ y, sigShown (some (out ++ y)) n' = sigShown data n
  wr : n.Writable false → n'.Writable false
theorem NodeSame.sig_at {data : Option Bytes} {out : Bytes} {n n' : Node} (y : Bytes) (h : NodeSame data (out ++ y) n n') :
    sigShown (some (out ++ y)) n' = sigShown data n := by simpa using h.sig []
theorem NodeSame.more {data : Option Bytes} {out : Bytes} {n n' : Node} (h : NodeSame data out n n') (x : Bytes) : NodeSame data (out ++ x) n n' :=
  ⟨h.name, h.shown, fun y => by rw [List.append_assoc]; exact h.sig (x ++ y), h.wr⟩

theorem xferNode_good (o : IsoOpts) (ho : o.build = false) (data : Option Bytes) (p : List Bytes) (n : Node) (out : Bytes) (h0 : out ≠ [])
    (hg : n.SigGood data) : ∃ n' x, xferNode o data p n out = .ok (n', out ++ x) ∧ NodeSame data (out ++ x) n n' := by
  obtain ⟨nm, st, i, s⟩ := n
  have hkeep : ∀ s', (∀ f, s' ≠ .file f) → (∀ f, s' ≠ .door f) → NodeSame data (out ++ []) ⟨nm, st, i, s'⟩ ⟨nm, st, i, s'⟩ := by
    intro s' h1 h2
    refine ⟨rfl, fun _ => rfl, fun y => ?_, id⟩
    cases s' with
    | file f => exact absurd rfl (h1 f)
    | door f => exact absurd rfl (h2 f)
    | _ => rfl
  unfold xferNode
  cases s with
  | file f =>
    obtain ⟨f', x, h1, h2, h3, h4⟩ := xferFile_good o ho data p st f out h0 hg
    refine ⟨⟨nm, st, i, .file f'⟩, x, ?_, rfl, ?_, h4, fun h => ⟨h.name, h.inode, h3 h.special⟩⟩
    · simp only [xferSpecial, h1]; rfl
    · intro name; simp [Node.shown, Special.shown, h2]
  | door f =>
    obtain ⟨f', x, h1, h2, h3, h4⟩ := xferFile_good o ho data p st f out h0 hg
    refine ⟨⟨nm, st, i, .door f'⟩, x, ?_, rfl, ?_, h4, fun h => ⟨h.name, h.inode, h3 h.special⟩⟩
    · simp only [xferSpecial, h1]; rfl
    · intro name; simp [Node.shown, Special.shown, h2]
  | _ => exact ⟨_, [], by simp only [xferSpecial, List.append_nil]; rfl, hkeep _ (by simp) (by simp)⟩

/-- an inode several names lead to -/
structure StarSame (data : Option Bytes) (out : Bytes) (s s' : Star) : Prop where
  refs : s'.refs = s.refs
  keep : s'.keep = s.keep
  node : NodeSame data out s.node s'.node
theorem StarSame.more {data : Option Bytes} {out : Bytes} {n n' : Star} (h : StarSame data out n n') (x : Bytes) : StarSame data (out ++ x) n n' :=
  ⟨h.refs, h.keep, h.node.more x⟩

mutual
/-- every signature of the entry can be obtained -/
def Entry.SigGood (data : Option Bytes) (stars : Nat → Star) (e : Entry) : Prop :=
  match e with
  | .node n => n.SigGood data
  | .dir _ _ _ l => Entry.SigGoodL data stars l
  | .mirage _ k => (stars k).node.SigGood data
  | _ => True
def Entry.SigGoodL (data : Option Bytes) (stars : Nat → Star) (l : List Entry) : Prop :=
  match l with
  | [] => True
  | e :: l => Entry.SigGood data stars e ∧ Entry.SigGoodL data stars l
end

/-- the inodes treated so far -/
structure XferOk (data : Option Bytes) (stars : Nat → Star) (s : XferSt) : Prop where
  out : s.out ≠ []
  seen : ∀ k ∈ s.seen, StarSame data s.out (stars k) (s.stars k)
  rest : ∀ k, k ∉ s.seen → s.stars k = stars k
/-- one step goes further -/
structure XferMore (s s' : XferSt) : Prop where
  out : ∃ x, s'.out = s.out ++ x
  seen : ∀ k ∈ s.seen, k ∈ s'.seen
theorem XferMore.trans {a b c : XferSt} (h1 : XferMore a b) (h2 : XferMore b c) : XferMore a c := by
  obtain ⟨x, hx⟩ := h1.out
  obtain ⟨y, hy⟩ := h2.out
  exact ⟨⟨x ++ y, by rw [hy, hx, List.append_assoc]⟩, fun k hk => h2.seen k (h1.seen k hk)⟩

theorem xferStar_good (o : IsoOpts) (ho : o.build = false) (data : Option Bytes) (p : List Bytes) (stars : Nat → Star) (k : Nat) (s : XferSt) (hs : XferOk data stars s)
    (hg : (stars k).node.SigGood data) : ∃ s', xferStar o data p k s = .ok s' ∧ XferOk data stars s' ∧ XferMore s s' ∧ k ∈ s'.seen := by
  unfold xferStar
  by_cases hk : k ∈ s.seen
  · rw [if_pos hk]
    exact ⟨s, rfl, hs, ⟨⟨[], by simp⟩, fun _ h => h⟩, hk⟩
  · rw [if_neg hk, hs.rest k hk]
    obtain ⟨n', x, h1, h2⟩ := xferNode_good o ho data p (stars k).node s.out hs.out hg
    rw [h1]
    refine ⟨_, rfl, ⟨?_, ?_, ?_⟩, ⟨⟨x, rfl⟩, fun j hj => List.mem_cons_of_mem _ hj⟩, by simp⟩
    · simp [hs.out]
    · intro j hj
      dsimp only
      by_cases hjk : j = k
      · subst hjk
        rw [if_pos rfl]
        exact ⟨rfl, rfl, h2⟩
      · rw [if_neg hjk]
        exact (hs.seen j (by simpa [hjk] using hj)).more x
    · intro j hj
      dsimp only at hj ⊢
      simp only [List.mem_cons, not_or] at hj
      rw [if_neg hj.1]
      exact hs.rest j hj.2

/-- what is known of the entries once treated, whatever is written afterwards -/
structure XferRes (data : Option Bytes) (stars : Nat → Star) (l l' : List Entry) (s' : XferSt) : Prop where
  links : ∀ k, Entry.linksToL k l' = Entry.linksToL k l
  all : ∀ k, Entry.linksToL k l ≠ 0 → k ∈ s'.seen
  same : ∀ y starsF, (∀ k ∈ s'.seen, StarSame data (s'.out ++ y) (stars k) (starsF k)) →
    Entry.shownL (sigShown (some (s'.out ++ y))) starsF l' = Entry.shownL (sigShown data) stars l ∧ (Entry.WritableList stars l → Entry.WritableList starsF l')
structure XferRes1 (data : Option Bytes) (stars : Nat → Star) (e e' : Entry) (s' : XferSt) : Prop where
  links : ∀ k, Entry.linksTo k e' = Entry.linksTo k e
  all : ∀ k, Entry.linksTo k e ≠ 0 → k ∈ s'.seen
  ign : ∀ n, e' = .ignored n ↔ e = .ignored n
  same : ∀ y starsF, (∀ k ∈ s'.seen, StarSame data (s'.out ++ y) (stars k) (starsF k)) →
    Entry.shown (sigShown (some (s'.out ++ y))) starsF e' = Entry.shown (sigShown data) stars e ∧ (Entry.Writable stars e → Entry.Writable starsF e')

theorem writableList_cons (stars : Nat → Star) (e : Entry) (l : List Entry) (h : ∀ n, e ≠ .ignored n) :
    Entry.WritableList stars (e :: l) ↔ Entry.Writable stars e ∧ Entry.WritableList stars l := by
  cases e with
  | ignored n => exact absurd rfl (h n)
  | _ => simp only [Entry.WritableList]

mutual
theorem xferEntry_good (o : IsoOpts) (ho : o.build = false) (data : Option Bytes) (stars : Nat → Star) (p : List Bytes) (e : Entry) (s : XferSt)
    (hs : XferOk data stars s) (hg : Entry.SigGood data stars e) :
    ∃ e' s', xferEntry o data p e s = .ok (e', s') ∧ XferOk data stars s' ∧ XferMore s s' ∧ XferRes1 data stars e e' s' := by
  cases e with
  | node n =>
    simp only [Entry.SigGood] at hg
    obtain ⟨n', x, h1, h2⟩ := xferNode_good o ho data (p ++ [n.name]) n s.out hs.out hg
    refine ⟨.node n', { s with out := s.out ++ x }, ?_, ?_, ⟨⟨x, rfl⟩, fun _ h => h⟩, ?_⟩
    · simp only [xferEntry, h1]; rfl
    · exact ⟨by simp [hs.out], fun k hk => (hs.seen k hk).more x, hs.rest⟩
    · refine ⟨fun k => by simp only [Entry.linksTo], fun k h => by simp [Entry.linksTo] at h, by simp, fun y starsF _ => ?_⟩
      refine ⟨by simp only [Entry.shown, h2.name, h2.shown, h2.sig y], fun h => ?_⟩
      simp only [Entry.Writable] at h ⊢
      exact h2.wr h
  | dir name st i l =>
    simp only [Entry.SigGood] at hg
    obtain ⟨l', s', h1, h2, h3, h4⟩ := xferEntries_good o ho data stars (p ++ [name]) l s hs hg
    refine ⟨.dir name st i l', s', ?_, h2, h3, ?_⟩
    · simp only [xferEntry, h1]; rfl
    · refine ⟨fun k => by simp only [Entry.linksTo]; exact h4.links k, fun k h => h4.all k (by simpa only [Entry.linksTo] using h), by simp, fun y starsF hF => ?_⟩
      obtain ⟨a, b⟩ := h4.same y starsF hF
      refine ⟨by simp only [Entry.shown, a], fun h => ?_⟩
      simp only [Entry.Writable] at h ⊢
      exact ⟨h.1, h.2.1, b h.2.2⟩
  | detruit name sg d =>
    refine ⟨_, s, by simp only [xferEntry], hs, ⟨⟨[], by simp⟩, fun _ h => h⟩, fun k => rfl, fun k h => by simp [Entry.linksTo] at h, by simp, fun y starsF _ => ?_⟩
    exact ⟨by simp only [Entry.shown], fun h => by simpa only [Entry.Writable] using h⟩
  | mirage name k =>
    simp only [Entry.SigGood] at hg
    obtain ⟨s', h1, h2, h3, h4⟩ := xferStar_good o ho data (p ++ [name]) stars k s hs hg
    refine ⟨.mirage name k, s', ?_, h2, h3, fun k => rfl, ?_, by simp, ?_⟩
    · simp only [xferEntry, h1]; rfl
    · intro j hj
      have : k = j := by by_contra hh; simp [Entry.linksTo, hh] at hj
      rw [← this]; exact h4
    · intro y starsF hF
      have hk := hF k h4
      refine ⟨by simp only [Entry.shown, hk.refs, hk.node.shown, hk.node.sig_at y], fun h => ?_⟩
      simp only [Entry.Writable] at h ⊢
      exact ⟨h.1, hk.node.wr h.2⟩
  | ignored name =>
    refine ⟨_, s, by simp only [xferEntry], hs, ⟨⟨[], by simp⟩, fun _ h => h⟩, fun k => rfl, fun k h => by simp [Entry.linksTo] at h, by simp, fun y starsF _ => ?_⟩
    exact ⟨by simp only [Entry.shown], fun h => by simp only [Entry.Writable] at h⟩
theorem xferEntries_good (o : IsoOpts) (ho : o.build = false) (data : Option Bytes) (stars : Nat → Star) (p : List Bytes) (l : List Entry) (s : XferSt)
    (hs : XferOk data stars s) (hg : Entry.SigGoodL data stars l) :
    ∃ l' s', xferEntries o data p l s = .ok (l', s') ∧ XferOk data stars s' ∧ XferMore s s' ∧ XferRes data stars l l' s' := by
  cases l with
  | nil =>
    refine ⟨[], s, by simp only [xferEntries], hs, ⟨⟨[], by simp⟩, fun _ h => h⟩, fun k => rfl, fun k h => by simp [Entry.linksToL] at h, fun y starsF _ => ?_⟩
    exact ⟨by simp only [Entry.shownL], fun _ => by simp only [Entry.WritableList]⟩
  | cons e l =>
    simp only [Entry.SigGoodL] at hg
    obtain ⟨e', s1, a1, a2, a3, a4⟩ := xferEntry_good o ho data stars p e s hs hg.1
    obtain ⟨l', s2, b1, b2, b3, b4⟩ := xferEntries_good o ho data stars p l s1 a2 hg.2
    refine ⟨e' :: l', s2, ?_, b2, a3.trans b3, ?_, ?_, ?_⟩
    · simp only [xferEntries, a1]
      show (do let (l', s'') ← xferEntries o data p l s1; .ok (e' :: l', s'') : Res (List Entry × XferSt)) = _
      rw [b1]
      rfl
    · intro k; simp only [Entry.linksToL, a4.links k, b4.links k]
    · intro k hk
      by_cases h1 : Entry.linksTo k e = 0
      · exact b4.all k (by intro h2; simp [Entry.linksToL, h1, h2] at hk)
      · exact b3.seen k (a4.all k h1)
    · intro y starsF hF
      obtain ⟨x, hx⟩ := b3.out
      obtain ⟨c1, c2⟩ := a4.same (x ++ y) starsF (fun k hk => by rw [← List.append_assoc, ← hx]; exact hF k (b3.seen k hk))
      obtain ⟨d1, d2⟩ := b4.same y starsF hF
      rw [← List.append_assoc, ← hx] at c1
      refine ⟨by simp only [Entry.shownL, c1, d1], fun h => ?_⟩
      by_cases hi : ∃ n, e = .ignored n
      · obtain ⟨n, hn⟩ := hi
        have := (a4.ign n).2 hn
        subst hn; subst this
        simp only [Entry.WritableList] at h ⊢
        exact d2 h
      · push Not at hi
        rw [writableList_cons _ _ _ hi] at h
        rw [writableList_cons _ _ _ (fun n hn => hi n ((a4.ign n).1 hn))]
        exact ⟨c2 h.1, d2 h.2⟩
end

end Dar
