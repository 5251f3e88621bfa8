import Verif.Lemmas.SignedCheck
import Verif.Props.SeqReadExample
/- C60: what the comparison of the in-line entries of a signed archive with its catalogue establishes, and what it does not. -/
namespace Dar

/-! ### auxiliary -/

theorem Node.Agree.refl (a : Node) : a.Agree a := by
  obtain ⟨_, _, _, s⟩ := a
  cases s <;> simp [Node.Agree]
theorem Node.Agree.symm {a b : Node} (h : a.Agree b) : b.Agree a := by
  obtain ⟨_, _, _, s⟩ := a
  obtain ⟨_, _, _, s'⟩ := b
  cases s <;> cases s' <;> simp_all [Node.Agree]
theorem Node.Agree.trans {a b c : Node} (h : a.Agree b) (h' : b.Agree c) : a.Agree c := by
  obtain ⟨_, _, _, s⟩ := a
  obtain ⟨_, _, _, s'⟩ := b
  obtain ⟨_, _, _, s''⟩ := c
  cases s <;> cases s' <;> cases s'' <;> simp_all [Node.Agree]

theorem Node.Agree.kept (a b : Node) (dalgo : Compr) (small small' : Bool) (hn : a.name = b.name) (hs : a.special = b.special) (ht : a.status = b.status) :
    (a.kept small dalgo).Agree (b.kept small' dalgo) := by
  obtain ⟨an, ast, ai, as⟩ := a
  obtain ⟨bn, bst, bi, bs⟩ := b
  dsimp at hn hs ht
  subst hn hs ht
  by_cases h : ast = .saved
  · cases as <;> simp [Node.kept, Special.kept, Node.Agree, h]
  · cases as <;> simp [Node.kept, Special.kept, Node.Agree, h]

theorem agree_title {mine mine' theirs : Nat → Node} {a b : Node} {f : Entry} (h : a.Agree b)
    (ha : Entry.Agree mine theirs (.node a) f) : Entry.Agree mine' theirs (.node b) f := by
  cases ha with
  | nodes h1 h2 ab =>
    simp only [Entry.nodeOf, Option.some.injEq] at h1
    subst h1
    exact .nodes rfl h2 (h.symm.trans ab)

theorem agree_tables {mine mine' theirs : Nat → Node} (hm : ∀ k, (mine k).Agree (mine' k)) {e f : Entry}
    (ha : Entry.Agree mine theirs e f) : Entry.Agree mine' theirs e f := by
  cases ha with
  | dirs => exact .dirs _ _ _ _ _ _ _
  | deleted => exact .deleted _ _ _
  | nodes h1 h2 ab =>
    cases e with
    | node n => exact .nodes h1 h2 ab
    | mirage n k =>
      simp only [Entry.nodeOf, Option.some.injEq] at h1
      subst h1
      exact .nodes rfl h2 ((hm k).symm.trans ab)
    | dir => cases h1
    | detruit => cases h1
    | ignored => cases h1

theorem other_agree {mine mine' theirs : Nat → Node} (hm : ∀ k, (mine k).Agree (mine' k)) {me me' : List Entry} (h : OtherAttributes me me') :
    ∀ ref : List Entry, AllAgree mine theirs me ref → AllAgree mine' theirs me' ref := by
  induction h with
  | nil => intro ref _; exact allAgree_nil _ _ _
  | node h next ih =>
    rename_i a b l l'
    intro ref hh
    rw [allAgree_leaf _ _ _ _ _ rfl] at hh ⊢
    obtain ⟨⟨f, h1, h2⟩, h3⟩ := hh
    refine ⟨⟨f, ?_, agree_title h h2⟩, ih ref h3⟩
    show findNamed b.name ref = _
    rw [← h.1]
    exact h1
  | dir inner next ih1 ih2 =>
    intro ref hh
    rw [allAgree_dir] at hh ⊢
    obtain ⟨⟨st', i', ch', h1, h2⟩, h3⟩ := hh
    exact ⟨⟨st', i', ch', h1, ih1 _ h2⟩, ih2 _ h3⟩
  | same next ih =>
    rename_i e l l'
    intro ref hh
    by_cases hx : e.isFolder = true
    · cases e with
      | dir n st i ch =>
        rw [allAgree_dir] at hh ⊢
        obtain ⟨⟨st', i', ch', h1, h2⟩, h3⟩ := hh
        refine ⟨⟨st', i', ch', h1, fun p e ho => ?_⟩, ih _ h3⟩
        obtain ⟨e', g1, g2⟩ := h2 p e ho
        exact ⟨e', g1, agree_tables hm g2⟩
      | node => cases hx
      | mirage => cases hx
      | detruit => cases hx
      | ignored => cases hx
    · have hx : e.isFolder = false := by simpa using hx
      rw [allAgree_leaf _ _ _ _ _ hx] at hh ⊢
      obtain ⟨⟨f, h1, h2⟩, h3⟩ := hh
      exact ⟨⟨f, h1, agree_tables hm h2⟩, ih _ h3⟩

theorem other_symm {me me' : List Entry} (h : OtherAttributes me me') : OtherAttributes me' me := by
  induction h with
  | nil => exact .nil
  | node h _ ih => exact .node h.symm ih
  | dir _ _ ih1 ih2 => exact .dir ih1 ih2
  | same _ ih => exact .same ih

/-! ### the theorems -/

/-- **C60, what is checked.**  The check of a signed archive is positive exactly when each entry met in line has, at the same path of the signed
catalogue, an entry of the same type, with the same link target, the same device numbers, the same deletion record. -/
theorem C60_what_is_checked (mine theirs : Nat → Node) (inline signed : List Entry) :
    isSubset mine theirs inline signed = .ok true ↔
      ∀ path e, Occurs inline path e → ∃ e', lookupPath signed path = some e' ∧ Entry.Agree mine theirs e e' :=
  isSubset_iff mine theirs inline signed

/-- **C60, a bad archive is refused.**  Outside lax mode, when something has been read in line that the signed catalogue does not have, the reading stops with an
error before it says that the end has been reached. -/
theorem C60_refused (env : SeqEnv) (mine theirs : Nat → Node) (st : EC) (cat : List Entry) (hs : env.subset = subsetOf mine theirs) (hlax : env.lax = false)
    (hsig : env.isSigned = true) (hread : st.hasRead = true) (hcat : env.readCat (match st.pos with | .here s => s | .behind => st.floor) = .ok cat)
    (path : List Bytes) (e : Entry) (ho : Occurs st.built.root path e)
    (hbad : ∀ e', lookupPath cat path = some e' → ¬ Entry.Agree mine theirs e e') : EC.signatureStep env st = .error .data := by
  have hno : ¬ AllAgree mine theirs st.built.root cat := fun h => by
    obtain ⟨e', h1, h2⟩ := h path e ho
    exact hbad e' h1 h2
  have hfalse : env.subset st.built.root cat = false := by
    rw [hs]
    unfold subsetOf
    rw [← isSubset_iff] at hno
    cases h : isSubset mine theirs st.built.root cat with
    | error x => rfl
    | ok b =>
      cases b with
      | false => rfl
      | true => exact absurd h hno
  have hc2 : env.complain (env.isSigned && st.hasRead && !env.subset st.built.root cat) = .error .data := by
    unfold SeqEnv.complain
    rw [hsig, hread, hfalse, hlax]
    rfl
  have fin : ∀ f : Res EcStep, (do env.complain (!env.sameSig); env.complain (env.isSigned && st.hasRead && !env.subset st.built.root cat); f) = .error .data := by
    intro f
    rw [hc2]
    cases hk : env.complain (!env.sameSig) with
    | ok u => rfl
    | error x =>
      unfold SeqEnv.complain at hk
      rw [hlax] at hk
      cases hq : env.sameSig with
      | true => rw [hq] at hk; cases hk
      | false => rw [hq] at hk; cases hk; rfl
  unfold EC.signatureStep
  dsimp only
  have hcat' : ∀ s, (match st.pos with | .here s => s | .behind => st.floor) = s → env.readCat s = .ok cat := fun s h => by rw [← h]; exact hcat
  cases hp : st.pos with
  | here s =>
    rw [hp] at hcat'
    dsimp only
    rw [hcat' s rfl]
    dsimp only
    exact fin _
  | behind =>
    rw [hp] at hcat'
    dsimp only
    rw [hcat' _ rfl]
    dsimp only
    exact fin _

/-- when the in-line copies were made and when the catalogue was written: the same hard linked inodes; where an inode has ceased to be shared in between
its own name is that of the only entry that remains -/
structure SameLinks (stars fstars : Nat → Star) (tree : List Entry) : Prop where
  name : ∀ k, (fstars k).node.name = (stars k).node.name
  special : ∀ k, (fstars k).node.special = (stars k).node.special
  status : ∀ k, (fstars k).node.status = (stars k).node.status
  own : ∀ path n k, Occurs tree path (.mirage n k) → shared stars k ≠ shared fstars k → (stars k).node.name = n

theorem SameLinks.tail {stars fstars : Nat → Star} {x : Entry} {l : List Entry} (h : SameLinks stars fstars (x :: l)) : SameLinks stars fstars l :=
  ⟨h.name, h.special, h.status, fun p n k ho => h.own p n k (by
    cases ho with
    | here h => exact .here (List.mem_cons_of_mem _ h)
    | inside h next => exact .inside (List.mem_cons_of_mem _ h) next)⟩
theorem SameLinks.child {stars fstars : Nat → Star} {n : Bytes} {st : SavedStatus} {i : InodeB} {ch l : List Entry}
    (h : SameLinks stars fstars (.dir n st i ch :: l)) : SameLinks stars fstars ch :=
  ⟨h.name, h.special, h.status, fun p m k ho => h.own (n :: p) m k (.inside (st := st) (i := i) (ch := ch) (by simp) ho)⟩

theorem kept_title (fstars : Nat → Star) (dalgo : Compr) (e : Entry) : (Entry.kept fstars dalgo e).title = e.title := by
  cases e with
  | node => simp [Entry.kept, Entry.title, Node.kept]
  | dir => simp [Entry.kept, Entry.title]
  | detruit => simp [Entry.kept, Entry.title]
  | ignored => simp [Entry.kept, Entry.title]
  | mirage n k => simp only [Entry.kept]; split <;> simp [Entry.title]

theorem keptList_mem (fstars : Nat → Star) (dalgo : Compr) : ∀ (l : List Entry) (f : Entry), f ∈ Entry.keptList fstars dalgo l → ∃ e ∈ l, f = Entry.kept fstars dalgo e := by
  intro l
  induction l with
  | nil => intro f hf; simp [Entry.keptList] at hf
  | cons x l ih =>
    intro f hf
    have go : f = Entry.kept fstars dalgo x ∨ f ∈ Entry.keptList fstars dalgo l → ∃ e ∈ x :: l, f = Entry.kept fstars dalgo e := by
      rintro (h | h)
      · exact ⟨x, by simp, h⟩
      · obtain ⟨e, h1, h2⟩ := ih f h
        exact ⟨e, List.mem_cons_of_mem _ h1, h2⟩
    cases x with
    | ignored => simp only [Entry.keptList] at hf; exact go (.inr hf)
    | node => simp only [Entry.keptList] at hf; exact go (List.mem_cons.1 hf)
    | dir => simp only [Entry.keptList] at hf; exact go (List.mem_cons.1 hf)
    | detruit => simp only [Entry.keptList] at hf; exact go (List.mem_cons.1 hf)
    | mirage => simp only [Entry.keptList] at hf; exact go (List.mem_cons.1 hf)

theorem keptList_cons (fstars : Nat → Star) (dalgo : Compr) (x : Entry) (l : List Entry) (h : ∀ n, x ≠ .ignored n) :
    Entry.keptList fstars dalgo (x :: l) = Entry.kept fstars dalgo x :: Entry.keptList fstars dalgo l := by
  cases x with
  | ignored n => exact absurd rfl (h n)
  | node => simp [Entry.keptList]
  | dir => simp [Entry.keptList]
  | detruit => simp [Entry.keptList]
  | mirage => simp [Entry.keptList]

/-- `ref` has the entries of the directory `all` -/
def FindsAll (fstars : Nat → Star) (dalgo : Compr) (all ref : List Entry) : Prop :=
  ∀ e ∈ all, (∀ n, e ≠ .ignored n) → findNamed e.title ref = some (Entry.kept fstars dalgo e)

theorem findsAll_kept (fstars : Nat → Star) (dalgo : Compr) : ∀ l : List Entry, DistinctNames l → FindsAll fstars dalgo l (Entry.keptList fstars dalgo l) := by
  intro l
  induction l with
  | nil => intro _ e he; cases he
  | cons x l ih =>
    intro hd e he hne
    unfold DistinctNames at hd
    have hrec := ih hd.2.2
    by_cases hx : ∃ n, x = .ignored n
    · obtain ⟨n, rfl⟩ := hx
      rcases List.mem_cons.1 he with rfl | he
      · exact absurd rfl (hne n)
      · simp only [Entry.keptList]; exact hrec e he hne
    · rw [keptList_cons fstars dalgo x l (fun n h => hx ⟨n, h⟩)]
      unfold findNamed
      rw [List.find?_cons]
      rcases List.mem_cons.1 he with rfl | he
      · rw [kept_title]; simp
      · rw [kept_title, decide_eq_false (fun h => hd.1 e he h.symm)]
        exact hrec e he hne

theorem untouched_agree (stars fstars : Nat → Star) (dalgo : Compr) : ∀ (l all ref : List Entry), (∀ e ∈ l, e ∈ all) → FindsAll fstars dalgo all ref →
    DistinctNames l → SameLinks stars fstars l → AllAgree (linksInline stars dalgo) (linksKept fstars dalgo) (seenTree stars dalgo l) ref := by
  intro l
  induction hl : sizeOf l using Nat.strongRecOn generalizing l with
  | _ k ih =>
    intro all ref hsub hf hd hs
    cases l with
    | nil => simp only [seenTree]; exact allAgree_nil _ _ _
    | cons x l =>
      have hrec := ih (sizeOf l) (by subst hl; simp) l rfl all ref (fun e he => hsub e (List.mem_cons_of_mem _ he)) hf (by unfold DistinctNames at hd; exact hd.2.2) hs.tail
      have hx := hf x (hsub x (by simp))
      cases x with
      | detruit => simp only [seenTree]; exact hrec
      | ignored => simp only [seenTree]; exact hrec
      | node n =>
        simp only [seenTree]
        rw [allAgree_leaf _ _ _ _ _ rfl]
        refine ⟨⟨_, hx (by intro n h; cases h), ?_⟩, hrec⟩
        simp only [Entry.inline, Entry.kept]
        exact .nodes rfl rfl (Node.Agree.kept n n dalgo true false rfl rfl rfl)
      | dir n st i ch =>
        simp only [seenTree]
        rw [allAgree_dir]
        have hd' : DistinctNames ch := by unfold DistinctNames at hd; exact hd.2.1
        have h := hx (by intro n h; cases h)
        simp only [Entry.kept] at h
        refine ⟨⟨_, _, _, h, ?_⟩, hrec⟩
        exact ih (sizeOf ch) (by subst hl; simp; omega) ch rfl ch _ (fun _ h => h) (findsAll_kept fstars dalgo ch hd') hd' hs.child
      | mirage n k' =>
        simp only [seenTree]
        rw [allAgree_leaf _ _ _ _ _ (inline_leaf' stars dalgo n k')]
        have htitle : (Entry.inline stars dalgo (.mirage n k')).title = n := by
          simp only [Entry.inline]; split <;> simp [Entry.title, Node.kept]
        refine ⟨⟨_, (by rw [htitle]; exact hx (by intro n h; cases h)), ?_⟩, hrec⟩
        have hown := hs.own [n] n k' (.here (e := .mirage n k') (by simp))
        have h1 := hs.name k'
        have h2 := hs.special k'
        have h3 := hs.status k'
        have hk : (fstars k').refs > 1 ∨ (fstars k').keep = true ↔ shared fstars k' = true := by unfold shared; simp
        simp only [Entry.inline, Entry.kept, hk]
        by_cases ha : shared stars k' = true
        · rw [if_pos ha]
          by_cases hb : shared fstars k' = true
          · rw [if_pos hb]
            exact .nodes rfl rfl (Node.Agree.kept _ _ dalgo true false h1.symm h2.symm h3.symm)
          · rw [if_neg hb]
            refine .nodes rfl rfl ?_
            exact Node.Agree.kept (stars k').node { (fstars k').node with name := n } dalgo true false (hown (by rw [ha]; exact fun h => hb h.symm)) h2.symm h3.symm
        · rw [if_neg ha]
          by_cases hb : shared fstars k' = true
          · rw [if_pos hb]
            refine .nodes rfl rfl ?_
            exact Node.Agree.kept { (stars k').node with name := n } (fstars k').node dalgo true false
              (by rw [h1]; exact (hown (by rw [hb]; exact ha)).symm) h2.symm h3.symm
          · rw [if_neg hb]
            refine .nodes rfl rfl ?_
            exact Node.Agree.kept { (stars k').node with name := n } { (fstars k').node with name := n } dalgo true false rfl h2.symm h3.symm

/-- **C60, no false alarm.**  What a backup leaves in line is accepted against the catalogue it ends with. -/
theorem C60_untouched (stars fstars : Nat → Star) (dalgo : Compr) (tree : List Entry) (hd : DistinctNames tree) (hs : SameLinks stars fstars tree) :
    isSubset (linksInline stars dalgo) (linksKept fstars dalgo) (seenTree stars dalgo tree) (Entry.keptList fstars dalgo tree) = .ok true :=
  (isSubset_iff _ _ _ _).2 (untouched_agree stars fstars dalgo tree tree _ (fun _ h => h) (findsAll_kept fstars dalgo tree hd) hd hs)

/-- **C60, a signed archive.**  The sequential reading of a signed archive, with that comparison, goes as C59 tells. -/
theorem C60_signed_archive_reads (stars fstars : Nat → Star) (env : SeqEnv) (tree : List Entry) (d : Bytes) (rest : List (SeqT × Bytes))
    (hd : DistinctNames tree) (hs : SameLinks stars fstars tree)
    (hsub : env.subset = subsetOf (linksInline stars env.dalgo) (linksKept fstars env.dalgo))
    (hcat : env.readCat (d, rest) = .ok (Entry.keptList fstars env.dalgo tree)) (hsig : env.sameSig = true) : env.Complete stars fstars tree d rest := by
  refine ⟨hcat, hsig, fun _ => ?_⟩
  rw [hsub]
  unfold subsetOf
  rw [C60_untouched stars fstars env.dalgo tree hd hs]

/-- **C60, what is not checked.**  The check gives the same answer when the owners, permissions, dates, sizes, checksums, EA, FSA, ... of the entries
read in line have been changed. -/
theorem C60_attributes_not_checked (mine mine' theirs : Nat → Node) (hm : ∀ k, (mine k).Agree (mine' k)) (inline inline' signed : List Entry)
    (h : OtherAttributes inline inline') : isSubset mine theirs inline signed = .ok true ↔ isSubset mine' theirs inline' signed = .ok true := by
  rw [isSubset_iff, isSubset_iff]
  exact ⟨other_agree hm h signed, other_agree (fun k => (hm k).symm) (other_symm h) signed⟩

theorem without_occurs {me' me : List Entry} (h : Without me' me) : ∀ path e, Occurs me' path e → ∃ e0, Occurs me path e0 ∧
    (e0 = e ∨ ∃ n st i ch ch', e0 = .dir n st i ch ∧ e = .dir n st i ch') := by
  induction h with
  | nil => intro p e ho; cases ho with
    | here h => cases h
    | inside h => cases h
  | gone next ih =>
    intro p e ho
    obtain ⟨e0, h1, h2⟩ := ih p e ho
    exact ⟨e0, (by cases h1 with
      | here h => exact .here (List.mem_cons_of_mem _ h)
      | inside h next => exact .inside (List.mem_cons_of_mem _ h) next), h2⟩
  | keep next ih =>
    intro p e ho
    have up : ∀ {x : Entry} {l : List Entry} {p e}, Occurs l p e → Occurs (x :: l) p e := fun ho => by
      cases ho with
      | here h => exact .here (List.mem_cons_of_mem _ h)
      | inside h next => exact .inside (List.mem_cons_of_mem _ h) next
    cases ho with
    | here h =>
      rcases List.mem_cons.1 h with rfl | h
      · exact ⟨_, .here (by simp), .inl rfl⟩
      · obtain ⟨e0, h1, h2⟩ := ih _ _ (.here h); exact ⟨e0, up h1, h2⟩
    | inside h nx =>
      rcases List.mem_cons.1 h with h | h
      · subst h; exact ⟨e, .inside (List.mem_cons_self) nx, .inl rfl⟩
      · obtain ⟨e0, h1, h2⟩ := ih _ _ (.inside h nx); exact ⟨e0, up h1, h2⟩
  | inside inner next ih1 ih2 =>
    rename_i n st i ch ch' l l'
    intro p e ho
    have up : ∀ {x : Entry} {l : List Entry} {p e}, Occurs l p e → Occurs (x :: l) p e := fun ho => by
      cases ho with
      | here h => exact .here (List.mem_cons_of_mem _ h)
      | inside h next => exact .inside (List.mem_cons_of_mem _ h) next
    cases ho with
    | here h =>
      rcases List.mem_cons.1 h with rfl | h
      · exact ⟨.dir n st i ch, .here (e := .dir n st i ch) (by simp), .inr ⟨n, st, i, ch, ch', rfl, rfl⟩⟩
      · obtain ⟨e0, h1, h2⟩ := ih2 _ _ (.here h); exact ⟨e0, up h1, h2⟩
    | inside h nx =>
      rcases List.mem_cons.1 h with h | h
      · injection h with a b c d
        subst a d
        obtain ⟨e0, h1, h2⟩ := ih1 _ _ nx
        exact ⟨e0, .inside (st := st) (i := i) (ch := ch) (by simp) h1, h2⟩
      · obtain ⟨e0, h1, h2⟩ := ih2 _ _ (.inside h nx); exact ⟨e0, up h1, h2⟩

/-- **C60, what is not noticed.**  Entries, or whole directories, taken out of the archive are not noticed. -/
theorem C60_missing_not_noticed (mine theirs : Nat → Node) (inline less signed : List Entry) (h : Without less inline)
    (hok : isSubset mine theirs inline signed = .ok true) : isSubset mine theirs less signed = .ok true := by
  rw [isSubset_iff] at hok ⊢
  intro p e ho
  obtain ⟨e0, h1, h2⟩ := without_occurs h p e ho
  obtain ⟨e', g1, g2⟩ := hok p e0 h1
  refine ⟨e', g1, ?_⟩
  rcases h2 with rfl | ⟨n, st, i, ch, ch', rfl, rfl⟩
  · exact g2
  · obtain ⟨st', i', c', rfl⟩ := agree_dir g2
    exact .dirs _ _ _ _ _ _ _

/-! ### concrete cases -/

/-- the archive of the examples of C59, signed -/
def sigExEnv : SeqEnv := { seqExEnv false with subset := subsetOf (linksInline exStars .none) (linksKept exStars .none) }
theorem sigEx_same : SameLinks exStars exStars seqExTree := ⟨fun _ => rfl, fun _ => rfl, fun _ => rfl, fun _ _ _ _ h => absurd rfl h⟩
example (d : Bytes) (rest : List (SeqT × Bytes)) : sigExEnv.Complete exStars exStars seqExTree d rest :=
  C60_signed_archive_reads exStars exStars sigExEnv seqExTree d rest seqEx_distinct sigEx_same rfl rfl rfl

/-- the data of the file have been replaced: other size, other place, other checksum, other owner, other dates; the check is positive -/
theorem C60_replaced_file_accepted (links : Nat → Node) (name : Bytes) (st st' : SavedStatus) (i i' : InodeB) (f f' : FileB) :
    isSubset links links [.node ⟨name, st, i, .file f⟩] [.node ⟨name, st', i', .file f'⟩] = .ok true := by
  rw [isSubset_iff, allAgree_leaf _ _ _ _ _ rfl]
  refine ⟨⟨.node ⟨name, st', i', .file f'⟩, ?_, .nodes rfl rfl ?_⟩, allAgree_nil _ _ _⟩
  · simp [findNamed, Entry.title]
  · simp [Node.Agree]
/-- a link to another target is refused -/
example (links : Nat → Node) (i : InodeB) : isSubset links links [.node ⟨[97], .saved, i, .link [98]⟩] [.node ⟨[97], .saved, i, .link [99]⟩] = .ok false := by
  simp [isSubset, walkItems, subsetLoop, CatCmp.start, CatCmp.compare, findNamed, Entry.title, compareFound, Entry.ino, CmpIno.sameAs, CmpIno.name, CmpIno.letter,
    Special.letter, lettersAgree, foundEquals, CmpIno.equals, bind, Except.bind]
/-- a file that the catalogue does not have is refused, a file instead of a directory too -/
example (links : Nat → Node) (i : InodeB) (f : FileB) : isSubset links links [.node ⟨[97], .saved, i, .file f⟩] [] = .ok false := by
  simp [isSubset, walkItems, subsetLoop, CatCmp.start, CatCmp.compare, findNamed, Entry.title, compareFound, Entry.ino, CmpIno.sameAs, CmpIno.name, CmpIno.letter,
    Special.letter, lettersAgree, foundEquals, CmpIno.equals, bind, Except.bind]
example (links : Nat → Node) (i : InodeB) (f : FileB) : isSubset links links [.node ⟨[97], .saved, i, .file f⟩] [.dir [97] .saved i []] = .ok false := by
  simp [isSubset, walkItems, subsetLoop, CatCmp.start, CatCmp.compare, findNamed, Entry.title, compareFound, Entry.ino, CmpIno.sameAs, CmpIno.name, CmpIno.letter,
    Special.letter, lettersAgree, foundEquals, CmpIno.equals, bind, Except.bind]

/-- **A false alarm.**  A file has three names: `a`, excluded from the backup by a mask, `b`, saved, and one out of the saved tree.  In line `b` is a hard link to an
inode named `a`; in the catalogue it is a plain file named `b`.  The archive is said to be compromised. -/
theorem C60_false_alarm (dalgo : Compr) (a b : Bytes) (hab : a ≠ b) (i : InodeB) (sp : Special) (st : SavedStatus) (stars fstars : Nat → Star)
    (hs : (stars 0).node = ⟨a, st, i, sp⟩) (hr : (stars 0).refs = 2) (hf : (fstars 0).node = ⟨a, st, i, sp⟩) (hfr : (fstars 0).refs = 1) (hk : (fstars 0).keep = false) :
    isSubset (linksInline stars dalgo) (linksKept fstars dalgo) (seenTree stars dalgo [.mirage b 0]) (Entry.keptList fstars dalgo [.mirage b 0]) = .ok false := by
  have h1 : seenTree stars dalgo [.mirage b 0] = [.mirage b 0] := by simp [seenTree, Entry.inline, shared, hr]
  have h2 : Entry.keptList fstars dalgo [.mirage b 0] = [.node (Node.kept false dalgo ⟨b, st, i, sp⟩)] := by
    simp [Entry.keptList, Entry.kept, hfr, hk, hf, Node.kept]
  rw [h1, h2]
  have hcmp : CatCmp.compare (linksInline stars dalgo) (linksKept fstars dalgo) ⟨[[.node (Node.kept false dalgo ⟨b, st, i, sp⟩)]], []⟩ (.entry (.mirage b 0)) =
      .ok (none, ⟨[[.node (Node.kept false dalgo ⟨b, st, i, sp⟩)]], []⟩) := by
    rw [compare_here _ _ _ _ _ (.node (Node.kept false dalgo ⟨b, st, i, sp⟩)) (by simp [findNamed, Entry.title, Node.kept])]
    rw [compareFound_nodes _ _ _ _ _ _ rfl rfl]
    have : CmpIno.sameAs (.node (linksInline stars dalgo 0)) (.node (Node.kept false dalgo ⟨b, st, i, sp⟩)) = false := by
      simp [CmpIno.sameAs, CmpIno.name, linksInline, hs, Node.kept, hab]
    rw [this]
    rfl
  unfold isSubset CatCmp.start
  rw [walk_leaf _ _ rfl, loop_compare _ _ _ _ _ _ _ hcmp]

end Dar
