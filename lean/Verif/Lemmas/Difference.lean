import Verif.Spec.Difference
import Verif.Lemmas.Crc
import Verif.Props.Checksum
import Verif.Props.Attributes
import Verif.Props.ToolsText
/- Lemmas on the comparison of inodes. -/
namespace Dar

theorem commonLen_le (a b : Bytes) : commonLen a b ≤ a.length ∧ commonLen a b ≤ b.length := by
  induction a generalizing b with
  | nil => simp [commonLen]
  | cons x a ih =>
    cases b with
    | nil => simp [commonLen]
    | cons y b =>
      unfold commonLen
      split
      · have := ih b; simp only [List.length_cons]; omega
      · simp
theorem commonLen_take (a b : Bytes) : a.take (commonLen a b) = b.take (commonLen a b) := by
  induction a generalizing b with
  | nil => simp [commonLen]
  | cons x a ih =>
    cases b with
    | nil => simp [commonLen]
    | cons y b =>
      unfold commonLen
      split
      · next h => rw [h]; simp [ih b]
      · simp
theorem commonLen_ne (a b : Bytes) (h1 : commonLen a b < a.length) (h2 : commonLen a b < b.length) : a[commonLen a b]? ≠ b[commonLen a b]? := by
  induction a generalizing b with
  | nil => simp at h1
  | cons x a ih =>
    cases b with
    | nil => simp at h2
    | cons y b =>
      by_cases h : x = y
      · have hc : commonLen (x :: a) (y :: b) = commonLen a b + 1 := by rw [commonLen, if_pos h]
        rw [hc] at h1 h2 ⊢
        simp only [List.length_cons, Nat.add_lt_add_iff_right] at h1 h2
        simpa using ih b h1 h2
      · have hc : commonLen (x :: a) (y :: b) = 0 := by rw [commonLen, if_neg h]
        rw [hc]
        simpa using h

/-- the state of a checksum after some data -/
theorem crcAfter (c : Crc) (h : c.st.Ok) (addr : Nat) (b : Bytes) : c.compute addr b = .ok { c with st := b.foldl crcUpd c.st } := Crc.compute_eq c h addr b

theorem diffLoop_spec (B addr : Nat) (hB : 0 < B) : ∀ (n : Nat) (me you : Bytes) (off : Nat) (c : Crc), me.length < n → c.st.Ok →
    (me = you → diffLoop B addr n me you off c = .ok (false, off + me.length, { c with st := me.foldl crcUpd c.st })) ∧
    (me ≠ you → ∃ k c', diffLoop B addr n me you off c = .ok (true, off + k, c') ∧ k ≤ me.length ∧ k ≤ you.length ∧
      (me.length = you.length → me.take k = you.take k ∧ me[k]? ≠ you[k]?)) := by
  intro n
  induction n with
  | zero => intro me you off c h; omega
  | succ n ih =>
    intro me you off c hn hc
    unfold diffLoop
    dsimp only
    have hsame : ∀ k : Nat, commonLen (me.take k) (me.take k) = (me.take k).length := by
      intro k
      generalize me.take k = l
      induction l with
      | nil => rfl
      | cons x l ih => unfold commonLen; rw [if_pos rfl, ih]; rfl
    constructor
    · rintro rfl
      rw [if_pos rfl, if_neg (by rw [hsame]; omega), Crc.compute_eq c hc]
      simp only [Bind.bind, Except.bind]
      by_cases hz : (me.take B).length > 0
      · rw [if_pos hz]
        have hl : (me.drop B).length < n := by
          rw [List.length_drop]; rw [List.length_take] at hz; omega
        rw [(ih (me.drop B) (me.drop B) _ _ hl (crcFold_ok _ _ hc).1).1 rfl]
        congr 3
        · rw [List.length_take, List.length_drop]; omega
        · rw [← List.foldl_append, List.take_append_drop]
      · rw [if_neg hz]
        rw [List.length_take] at hz
        have : me = [] := List.eq_nil_of_length_eq_zero (by omega)
        subst this
        simp
    · intro hne
      by_cases hlen : (me.take B).length = (you.take B).length
      · rw [if_pos hlen]
        by_cases hcm : commonLen (me.take B) (you.take B) < (me.take B).length
        · rw [if_pos hcm]
          have hle := commonLen_le (me.take B) (you.take B)
          have hb : commonLen (me.take B) (you.take B) < B := by rw [List.length_take] at hcm; omega
          refine ⟨commonLen (me.take B) (you.take B), c, rfl, ?_, ?_, fun _ => ⟨?_, ?_⟩⟩
          · have := hle.1; rw [List.length_take] at this; omega
          · have := hle.2; rw [List.length_take] at this; omega
          · have := commonLen_take (me.take B) (you.take B)
            rwa [List.take_take, List.take_take, Nat.min_eq_left (by omega)] at this
          · have := commonLen_ne (me.take B) (you.take B) hcm (by omega)
            rwa [List.getElem?_take_of_lt hb, List.getElem?_take_of_lt hb] at this
        · rw [if_neg hcm, Crc.compute_eq c hc]
          have heq : me.take B = you.take B := by
            have h1 := commonLen_take (me.take B) (you.take B)
            have h2 := (commonLen_le (me.take B) (you.take B)).1
            rw [show commonLen (me.take B) (you.take B) = (me.take B).length by omega, List.take_length, hlen, List.take_length] at h1
            exact h1
          have hd : me.drop B ≠ you.drop B := by
            intro hd
            apply hne
            rw [← List.take_append_drop B me, heq, hd, List.take_append_drop]
          simp only [Bind.bind, Except.bind]
          by_cases hz : (me.take B).length > 0
          · rw [if_pos hz]
            have hl : (me.drop B).length < n := by
              rw [List.length_drop]; rw [List.length_take] at hz; omega
            obtain ⟨k, c', h1, h2, h3, h4⟩ := (ih (me.drop B) (you.drop B) (off + (me.take B).length) { c with st := (me.take B).foldl crcUpd c.st } hl (crcFold_ok _ _ hc).1).2 hd
            refine ⟨(me.take B).length + k, c', by rw [h1, Nat.add_assoc], ?_, ?_, ?_⟩
            · rw [List.length_drop] at h2; rw [List.length_take] at *; omega
            · rw [List.length_drop] at h3; rw [List.length_take] at *; rw [List.length_take] at hlen; omega
            · intro hll
              by_cases hBm : B ≤ me.length
              · obtain ⟨h5, h6⟩ := h4 (by rw [List.length_drop, List.length_drop]; omega)
                have hbm : (me.take B).length = B := by rw [List.length_take]; omega
                rw [hbm]
                constructor
                · have : ∀ l : Bytes, l.take (B + k) = l.take B ++ (l.drop B).take k := fun l => List.take_add
                  rw [this, this, heq, h5]
                · rwa [List.getElem?_drop, List.getElem?_drop] at h6
              · exfalso
                apply hd
                rw [List.drop_eq_nil_of_le (by omega), List.drop_eq_nil_of_le (by omega)]
          · exfalso
            rw [List.length_take] at hz
            have h0 : me = [] := List.eq_nil_of_length_eq_zero (by omega)
            subst h0
            simp only [List.take_nil, List.length_nil, List.length_take] at hlen
            have : you = [] := List.eq_nil_of_length_eq_zero (by omega)
            exact hne this.symm
      · rw [if_neg hlen]
        refine ⟨_, c, rfl, ?_, ?_, ?_⟩
        · have h1 : (me.take B).length ≤ me.length := by rw [List.length_take]; omega
          split <;> omega
        · have h1 : (you.take B).length ≤ you.length := by rw [List.length_take]; omega
          split <;> omega
        · intro hll
          rw [List.length_take, List.length_take, hll] at hlen
          exact absurd rfl hlen

theorem copyLoop_spec (B addr : Nat) (hB : 0 < B) : ∀ (n : Nat) (d : Bytes) (c : Crc), d.length < n → c.st.Ok →
    copyLoop B addr n d c = .ok { c with st := d.foldl crcUpd c.st } := by
  intro n
  induction n with
  | zero => intro d c h; omega
  | succ n ih =>
    intro d c hn hc
    unfold copyLoop
    dsimp only
    rw [Crc.compute_eq c hc]
    simp only [Bind.bind, Except.bind]
    by_cases hz : (d.take B).length > 0
    · rw [if_pos hz, ih _ _ (by rw [List.length_drop]; rw [List.length_take] at hz; omega) (crcFold_ok _ _ hc).1]
      rw [← List.foldl_append, List.take_append_drop]
    · rw [if_neg hz]
      rw [List.length_take] at hz
      have : d = [] := List.eq_nil_of_length_eq_zero (by omega)
      subst this
      simp

theorem crcFold_start (w : Nat) (hw : 0 < w) (data : Bytes) : (data.foldl crcUpd ⟨List.replicate w 0, 0⟩).cyc = crcSpec w data := by
  have h := crcFold_spec data (List.replicate w 0) 0 (by simpa using hw)
  simp only [List.length_replicate, Nat.zero_mod, Nat.zero_add] at h
  rw [h]
  unfold crcSpec
  apply List.map_congr_left
  intro i hi
  have : (List.replicate w (0 : UInt8)).getD i 0 = 0 := by
    rw [List.getD_eq_getElem?_getD, List.getElem?_replicate]; split <;> rfl
  rw [this, zero_xor8]
theorem crcSpec_length (w : Nat) (data : Bytes) : (crcSpec w data).length = w := by simp [crcSpec]

/-- the comparison of a recorded checksum with the one of a content -/
theorem eqv_fits (c : Crc) (w : Nat) (d : Bytes) (hw : 0 < w) (hi : c.impl = crcImplFor w) (hl : c.st.cyc.length = w) :
    ∃ b, c.eqv ⟨crcImplFor w, d.foldl crcUpd ⟨List.replicate w 0, 0⟩⟩ = .ok b ∧ (b = true ↔ c.Fits d) := by
  unfold Crc.eqv Crc.Fits
  rw [hi, if_neg (by simp), crcFold_start w hw, crcSpec_length, hl, if_neg (by simp)]
  exact ⟨_, rfl, tCompare_iff _ _⟩

/-! ### results: success or Erange -/

/-- a step that says whether `P` holds: it goes on, or throws Erange -/
def Says (r : Res Unit) (P : Prop) : Prop := (r = .ok () ∧ P) ∨ (r = .error .range ∧ ¬ P)
theorem says_unless (b : Bool) (P : Prop) (h : b = true ↔ P) : Says (unlessRange b) P := by
  cases b with
  | true => exact Or.inl ⟨rfl, h.1 rfl⟩
  | false => exact Or.inr ⟨rfl, fun hp => by cases h.2 hp⟩
theorem says_and {a b : Res Unit} {P Q : Prop} (h1 : Says a P) (h2 : P → Says b Q) : Says (do a; b) (P ∧ Q) := by
  rcases h1 with ⟨h, hp⟩ | ⟨h, hp⟩
  · rw [h]
    show Says b _
    rcases h2 hp with ⟨h', hq⟩ | ⟨h', hq⟩
    · exact Or.inl ⟨h', hp, hq⟩
    · exact Or.inr ⟨h', fun hh => hq hh.2⟩
  · rw [h]
    exact Or.inr ⟨rfl, fun hh => hp hh.1⟩
theorem says_if {c : Prop} [Decidable c] {r : Res Unit} {P Q : Prop} (hc : c ↔ ¬ P) (h : P → Says r Q) : Says (if c then .error .range else r) (P ∧ Q) := by
  by_cases hh : c
  · rw [if_pos hh]; exact Or.inr ⟨rfl, fun h => (hc.1 hh) h.1⟩
  · rw [if_neg hh]
    have hp : P := by by_contra hn; exact hh (hc.2 hn)
    rcases h hp with ⟨h', hq⟩ | ⟨h', hq⟩
    · exact Or.inl ⟨h', hp, hq⟩
    · exact Or.inr ⟨h', fun hh => hq hh.2⟩
theorem says_iff {r : Res Unit} {P Q : Prop} (h : Says r P) (hpq : P ↔ Q) : Says r Q := by
  rcases h with ⟨h, hp⟩ | ⟨h, hp⟩
  · exact Or.inl ⟨h, hpq.1 hp⟩
  · exact Or.inr ⟨h, fun hq => hp (hpq.2 hq)⟩
theorem says_ok {P : Prop} (h : P) : Says (.ok ()) P := Or.inl ⟨rfl, h⟩
theorem says_no {P : Prop} (h : ¬ P) : Says (.error .range) P := Or.inr ⟨rfl, h⟩

theorem says_data (o : DfOpts) (x y : Obj) (hw : Comparable o x y) : Says (cmpData o x y) (y.data = x.data ∧ ∀ c, o.crcOf x = some c → c.Fits y.data) := by
  unfold cmpData
  cases hc : o.crcOf x with
  | none =>
    have hwid := C37_crc_width y.ino.size
    dsimp only
    rw [hwid]
    generalize hwd : (if y.ino.size = 0 then 1 else 4 * ((y.ino.size + 2 ^ 30 - 1) / 2 ^ 30)) = w
    have hpos : 0 < w := by rw [← hwd]; split <;> omega
    simp only [Bind.bind, Except.bind]
    unfold genericDiff crcCreate
    rw [if_neg (by omega)]
    simp only [Bind.bind, Except.bind]
    have hsp := diffLoop_spec genericBuffer o.addr (by decide) (x.data.length + 1) x.data y.data 0 ⟨crcImplFor w, ⟨List.replicate w 0, 0⟩⟩ (by omega)
      (by simpa [CrcSt.Ok] using hpos)
    by_cases he : x.data = y.data
    · rw [hsp.1 he]
      exact Or.inl ⟨rfl, he.symm, fun c h => by cases h⟩
    · obtain ⟨k, c', h1, -⟩ := hsp.2 he
      rw [h1]
      exact Or.inr ⟨rfl, fun h => he h.1.symm⟩
  | some c =>
    obtain ⟨hpos, himpl⟩ := hw.crc c (Or.inl hc)
    simp only [Bind.bind, Except.bind]
    unfold genericDiff crcCreate
    rw [if_neg (by omega)]
    simp only [Bind.bind, Except.bind]
    generalize hw : c.st.cyc.length = w at *
    have hsp := diffLoop_spec genericBuffer o.addr (by decide) (x.data.length + 1) x.data y.data 0 ⟨crcImplFor w, ⟨List.replicate w 0, 0⟩⟩ (by omega)
      (by simpa [CrcSt.Ok] using hpos)
    by_cases he : x.data = y.data
    · rw [hsp.1 he]
      have hlen : (x.data.foldl crcUpd ⟨List.replicate w 0, 0⟩).cyc.length = w := by rw [crcFold_start w hpos, crcSpec_length]
      obtain ⟨b, h1, h2⟩ := eqv_fits c w x.data hpos himpl hw
      simp only [hlen, ne_eq, not_true, if_false, h1, Bool.false_eq_true]
      refine says_iff (says_unless b _ h2) ⟨fun h => ⟨he.symm, fun c' hc' => ?_⟩, fun h => ?_⟩
      · cases hc'; rw [← he]; exact h
      · rw [he]; exact h.2 c rfl
    · obtain ⟨k, c', h1, -⟩ := hsp.2 he
      rw [h1]
      exact Or.inr ⟨rfl, fun h => he h.1.symm⟩

theorem says_crcOf (o : DfOpts) (c : Crc) (d : Bytes) (hp : 0 < c.st.cyc.length) (hi : c.impl = crcImplFor c.st.cyc.length) :
    Says (do
      let value ← genericCopyCrc genericBuffer o.addr d c.st.cyc.length
      if c.st.cyc.length ≠ value.st.cyc.length then .error .range
      else do
        let e ← c.eqv value
        unlessRange e) (c.Fits d) := by
  unfold genericCopyCrc crcCreate
  rw [if_neg (by omega)]
  simp only [Bind.bind, Except.bind]
  generalize hw : c.st.cyc.length = w at *
  rw [copyLoop_spec genericBuffer o.addr (by decide) _ _ _ (by omega) (by simpa [CrcSt.Ok] using hp)]
  have hlen : (d.foldl crcUpd ⟨List.replicate w 0, 0⟩).cyc.length = w := by rw [crcFold_start w hp, crcSpec_length]
  obtain ⟨b, h1, h2⟩ := eqv_fits c w d hp hi hw
  simp only [hlen, ne_eq, not_true, if_false, h1]
  exact says_unless b _ h2

theorem says_crc (o : DfOpts) (x y : Obj) (hw : Comparable o x y) :
    Says (cmpCrc o x y) (if x.ino.status = .delta then o.crcOf x ≠ none ∧ ∀ c, o.patchCrc x = some c → c.Fits y.data else ∀ c, o.crcOf x = some c → c.Fits y.data) := by
  unfold cmpCrc
  by_cases hd : x.ino.status = .delta
  · rw [if_pos hd, if_pos hd, if_pos hd]
    cases h1 : o.crcOf x with
    | none => exact Or.inr ⟨rfl, fun h => h.1 rfl⟩
    | some c1 =>
      cases h2 : o.patchCrc x with
      | none => exact absurd h2 (hw.patch hd)
      | some c =>
        obtain ⟨hp, hi⟩ := hw.crc c (Or.inr h2)
        refine says_iff (says_crcOf o c y.data hp hi) ⟨fun h => ⟨by simp, fun c' hc' => by cases hc'; exact h⟩, fun h => h.2 c rfl⟩
  · rw [if_neg hd, if_neg hd, if_neg hd]
    cases h1 : o.crcOf x with
    | none => exact Or.inl ⟨rfl, fun c h => by cases h⟩
    | some c =>
      obtain ⟨hp, hi⟩ := hw.crc c (Or.inl h1)
      refine says_iff (says_crcOf o c y.data hp hi) ⟨fun h => fun c' hc' => by cases hc'; exact h, fun h => h c rfl⟩

/-- the comparison of dates -/
theorem hours_spec (capa : TimeUnit) (hs : Nat) (a b : DateT) : ∃ r, equalHourshift capa hs a b = .ok r ∧ (r = true ↔ SameHours capa hs a b) := C22_hourshift capa hs a b

theorem says_file (o : DfOpts) (x y : Obj) (hw : Comparable o x y) : Says (cmpFile o x y) (FileAgrees o x y) := by
  unfold cmpFile FileAgrees
  refine says_if (P := y.ino.size = x.ino.size) (by constructor <;> intro h h' <;> exact h h'.symm) (fun _ => ?_)
  obtain ⟨r, h1, h2⟩ := hours_spec o.capa 0 x.ino.mtime y.ino.mtime
  rw [h1]
  simp only [Bind.bind, Except.bind]
  refine says_if (by rw [← h2]; simp) (fun _ => ?_)
  by_cases hs : x.ino.status = .saved ∧ o.isolated = false
  · rw [if_pos hs, if_pos hs]; exact says_data o x y hw
  · rw [if_neg hs, if_neg hs]
    by_cases hd : x.ino.deltaSig = true
    · rw [if_pos hd, if_pos hd]
      refine says_unless _ _ ?_
      rw [Bool.and_eq_true, decide_eq_true_iff, decide_eq_true_iff]
      exact ⟨fun h => h.2.symm, fun h => ⟨by rw [h], h.symm⟩⟩
    · rw [if_neg hd, if_neg hd]; exact says_crc o x y hw

theorem says_sub (o : DfOpts) (x y : Obj) (hw : Comparable o x y) :
    Says (subCompare o x y) ((x.ino.isFile = true → FileAgrees o x y) ∧ (x.ino.kind = .symlink → x.ino.status = .saved → y.ino.target = x.ino.target) ∧
      (x.ino.isDevice = true → x.ino.status = .saved → y.ino.major = x.ino.major ∧ y.ino.minor = x.ino.minor)) := by
  unfold subCompare
  by_cases hf : x.ino.isFile = true
  · rw [if_pos hf]
    have hk : x.ino.kind ≠ .symlink ∧ ¬ x.ino.isDevice = true := by
      revert hf
      simp only [Ino.isFile, Ino.isDevice]
      cases x.ino.kind <;> simp
    exact says_iff (says_file o x y hw) ⟨fun h => ⟨fun _ => h, fun h => absurd h hk.1, fun h => absurd h hk.2⟩, fun h => h.1 hf⟩
  · rw [if_neg hf]
    by_cases hk : x.ino.kind = .symlink
    · rw [if_pos hk]
      have hd : ¬ x.ino.isDevice = true := by simp [Ino.isDevice, hk]
      by_cases hs : x.ino.status = .saved
      · rw [if_pos hs]
        refine says_iff (says_unless _ _ decide_eq_true_iff) ⟨fun h => ⟨fun h => absurd h hf, fun _ _ => h.symm, fun h => absurd h hd⟩, fun h => (h.2.1 hk hs).symm⟩
      · rw [if_neg hs]; exact says_ok ⟨fun h => absurd h hf, fun _ h => absurd h hs, fun h => absurd h hd⟩
    · rw [if_neg hk]
      by_cases hd : x.ino.isDevice = true
      · rw [if_pos hd]
        by_cases hs : x.ino.status = .saved
        · rw [if_pos hs]
          refine says_iff (says_unless _ (x.ino.major = y.ino.major ∧ x.ino.minor = y.ino.minor) (by rw [Bool.and_eq_true, decide_eq_true_iff, decide_eq_true_iff])) ⟨fun h =>
            ⟨fun h => absurd h hf, fun h => absurd h hk, fun _ _ => ⟨h.1.symm, h.2.symm⟩⟩, fun h => ⟨(h.2.2 hd hs).1.symm, (h.2.2 hd hs).2.symm⟩⟩
        · rw [if_neg hs]; exact says_ok ⟨fun h => absurd h hf, fun h => absurd h hk, fun _ h => absurd h hs⟩
      · rw [if_neg hd]; exact says_ok ⟨fun h => absurd h hf, fun h => absurd h hk, fun h => absurd h hd⟩

/-! ### attributes -/

theorem eaFind_filter (m : EaMap) (f : Bytes → Bool) (k : Bytes) (hk : f k = true) : eaFind (m.filter (fun p => f p.1)) k = eaFind m k := by
  induction m with
  | nil => rfl
  | cons p m ih =>
    obtain ⟨k', v'⟩ := p
    rw [List.filter_cons]
    by_cases h : f k' = true
    · rw [if_pos h]; unfold eaFind; rw [ih]
    · rw [if_neg h, ih, eaFind, if_neg (by rintro rfl; exact h hk)]
theorem eaFind_some_mem (m : EaMap) (k v : Bytes) (h : eaFind m k = some v) : (k, v) ∈ m := by
  induction m with
  | nil => cases h
  | cons p m ih =>
    obtain ⟨k', v'⟩ := p
    unfold eaFind at h
    by_cases hk : k = k'
    · rw [if_pos hk] at h; cases h; rw [hk]; exact List.mem_cons_self
    · rw [if_neg hk] at h; exact List.mem_cons_of_mem _ (ih h)
theorem eaFind_mem_some (m : EaMap) (p : Bytes × Bytes) (h : p ∈ m) : ∃ v, eaFind m p.1 = some v := by
  induction m with
  | nil => cases h
  | cons q m ih =>
    obtain ⟨k', v'⟩ := q
    unfold eaFind
    by_cases hk : p.1 = k'
    · exact ⟨v', by rw [if_pos hk]⟩
    · rw [if_neg hk]
      rcases List.mem_cons.1 h with h | h
      · exact absurd (by rw [h]) hk
      · exact ih h
theorem eaThere_iff (o : DfOpts) (y : Obj) : o.eaThere y = [] ↔ ¬ HasEa o y := by
  unfold DfOpts.eaThere HasEa
  constructor
  · rintro h ⟨k, v, h1, h2⟩
    have := eaFind_filter (o.eaOf y.eas) o.eaMask k h1
    rw [h, h2] at this
    cases this
  · intro h
    rw [List.filter_eq_nil_iff]
    intro p hp hm
    obtain ⟨v, hv⟩ := eaFind_mem_some _ p hp
    exact h ⟨p.1, v, hm, hv⟩
theorem eaDiff_spec (a b : EaMap) (f : Bytes → Bool) (ha : EaSorted a) : eaDiff a b f = false ↔ ∀ k v, f k = true → eaFind a k = some v → eaFind b k = some v := by
  have h := C47_ea_diff a b f
  have h2 := eaFold_self a [] (by simpa using ha)
  simp only [List.nil_append] at h2
  simp only [h2] at h
  exact h

theorem says_ctime (o : DfOpts) (x y : Obj) : Says (ctimeCheck o x y) (¬ ChangedAfter o x y) := by
  unfold ctimeCheck ChangedAfter
  obtain ⟨r, h1, h2⟩ := hours_spec o.capa o.hourshift x.ino.ctime y.ino.ctime
  rw [h1]
  simp only [Bind.bind, Except.bind]
  by_cases hr : r = true
  · rw [if_pos hr]; exact says_ok (fun h => h.1 (h2.1 hr))
  · rw [if_neg hr]
    obtain ⟨b, h3, h4⟩ := C22_lt x.ino.ctime y.ino.ctime
    rw [h3]
    refine says_unless (!b) _ ?_
    rw [Bool.not_eq_true']
    constructor
    · intro h hh
      rw [h4.2 hh.2] at h; cases h
    · intro h
      by_contra hb
      exact h ⟨fun hs => hr (h2.2 hs), h4.1 (by simpa using hb)⟩

theorem says_ea (o : DfOpts) (x y : Obj) (hw : Comparable o x y) :
    Says (cmpEa o x y) ((x.ino.eaStatus = .full → HasEa o y ∧ (o.isolated = false → ∀ k v, o.eaMask k = true → eaFind (o.eaOf x.eas) k = some v → eaFind (o.eaOf y.eas) k = some v)) ∧
      (x.ino.eaStatus = .part ∨ x.ino.eaStatus = .fake → HasEa o y ∧ ¬ ChangedAfter o x y)) := by
  unfold cmpEa
  have part : Says (if o.eaThere y = [] then .error .range else ctimeCheck o x y) (HasEa o y ∧ ¬ ChangedAfter o x y) :=
    says_if (eaThere_iff o y) (fun _ => says_ctime o x y)
  cases hs : x.ino.eaStatus with
  | full =>
    dsimp only
    refine says_iff (says_if (Q := o.isolated = false → ∀ k v, o.eaMask k = true → eaFind (o.eaOf x.eas) k = some v → eaFind (o.eaOf y.eas) k = some v) (eaThere_iff o y) (fun _ => ?_)) ?_
    · by_cases hi : o.isolated = true
      · rw [if_pos hi]; exact says_ok (fun h => by rw [hi] at h; cases h)
      · rw [if_neg hi]
        have hi' : o.isolated = false := by simpa using hi
        refine says_unless _ _ ?_
        rw [Bool.not_eq_true', eaDiff_spec _ _ _ hw.eaMe]
        constructor
        · intro h _ k v hk hv
          have := h k v hk hv
          rwa [DfOpts.eaThere, eaFind_filter _ _ _ hk] at this
        · intro h k v hk hv
          rw [DfOpts.eaThere, eaFind_filter _ _ _ hk]
          exact h hi' k v hk hv
    · exact ⟨fun h => ⟨fun _ => h, by simp⟩, fun h => h.1 rfl⟩
  | part => exact says_iff part ⟨fun h => ⟨by simp, fun _ => h⟩, fun h => h.2 (Or.inl rfl)⟩
  | fake => exact says_iff part ⟨fun h => ⟨by simp, fun _ => h⟩, fun h => h.2 (Or.inr rfl)⟩
  | none => exact says_ok ⟨by simp, by simp⟩
  | removed => exact says_ok ⟨by simp, by simp⟩

theorem fsaThere_iff (o : DfOpts) (y : Obj) : o.fsaThere y = [] ↔ ¬ HasFsa o y := by
  unfold DfOpts.fsaThere HasFsa
  rw [List.filter_eq_nil_iff]
  constructor
  · rintro h ⟨a, h1, h2⟩; exact h a h1 h2
  · intro h a h1 h2; exact h ⟨a, h1, h2⟩

theorem skipLess_ok (x : Fsa) : ∀ (l : List Fsa), (∃ b ∈ l, b.lt x = false) → ∃ r, fsaSkipLess x l = .ok r
  | [], h => by obtain ⟨b, hb, -⟩ := h; cases hb
  | y :: l, h => by
    unfold fsaSkipLess
    by_cases hy : y.lt x = true
    · rw [if_pos hy]
      have h' : ∃ b ∈ l, b.lt x = false := by
        obtain ⟨b, hb, hl⟩ := h
        rcases List.mem_cons.1 hb with rfl | hb
        · rw [hy] at hl; cases hl
        · exact ⟨b, hb, hl⟩
      rw [if_neg (by rintro rfl; obtain ⟨b, hb, -⟩ := h'; cases hb)]
      exact skipLess_ok x l h'
    · rw [if_neg hy]; exact ⟨_, rfl⟩

theorem included_ok (scope : FsaFam → Bool) : ∀ (a b : List Fsa), a.Pairwise (fun a b => a.key < b.key) → (∀ x ∈ a, scope x.fam = true → ∃ z ∈ b, z.lt x = false) →
    ∃ r, fsaIncluded scope a b = .ok r
  | [], _, _, _ => ⟨true, rfl⟩
  | _ :: _, [], _, _ => ⟨false, rfl⟩
  | x :: it, y :: rt, hs, h => by
    rw [List.pairwise_cons] at hs
    unfold fsaIncluded
    by_cases hx : scope x.fam = true
    · rw [if_pos hx]
      obtain ⟨r, hr⟩ := skipLess_ok x (y :: rt) (h x List.mem_cons_self hx)
      rw [hr]
      simp only [Bind.bind, Except.bind]
      obtain ⟨d, h1, h2, -, -⟩ := skipLess_spec x _ _ hr
      cases r with
      | nil => exact ⟨false, rfl⟩
      | cons z r =>
        dsimp only
        by_cases hz : z.eq x = true
        · rw [if_pos hz]
          refine included_ok scope it (z :: r) hs.2 (fun w hw hwf => ?_)
          obtain ⟨b, hb, hbl⟩ := h w (List.mem_cons_of_mem _ hw) hwf
          rw [h1] at hb
          rcases List.mem_append.1 hb with hb | hb
          · exfalso
            have hlt := h2 b hb
            have := hs.1 w hw
            rw [(lt_key b w).2 (by omega)] at hbl
            cases hbl
          · exact ⟨b, hb, hbl⟩
        · rw [if_neg hz]; exact ⟨false, rfl⟩
    · rw [if_neg hx]
      exact included_ok scope it (y :: rt) hs.2 (fun w hw hwf => h w (List.mem_cons_of_mem _ hw) hwf)

theorem says_fsa (o : DfOpts) (x y : Obj) (hw : Comparable o x y) :
    Says (cmpFsa o x y) ((x.fsa = .full → (HasFsa o y ∧ (o.isolated = false → ∀ a ∈ o.fsaOf x.fsas, o.scope a.fam = true → a ∈ o.fsaOf y.fsas)) ∨ (¬ HasFsa o y ∧ ∀ f, o.scope f = false)) ∧
      (x.fsa = .part → (HasFsa o y ∧ ¬ ChangedAfter o x y) ∨ (¬ HasFsa o y ∧ ∀ f, o.scope f = false))) := by
  unfold cmpFsa
  dsimp only
  have two : ∀ (r : Res Unit) (Q : Prop), (HasFsa o y → Says r Q) →
      Says (if o.fsaThere y = [] then (if (o.scope .hfs || o.scope .extX) = true then .error .range else .ok ()) else r) ((HasFsa o y ∧ Q) ∨ (¬ HasFsa o y ∧ ∀ f, o.scope f = false)) := by
    intro r Q h
    by_cases hh : o.fsaThere y = []
    · rw [if_pos hh]
      have hn := (fsaThere_iff o y).1 hh
      by_cases hs : (o.scope .hfs || o.scope .extX) = true
      · rw [if_pos hs]
        refine says_no ?_
        rintro (h | h)
        · exact hn h.1
        · rw [h.2, h.2] at hs; cases hs
      · rw [if_neg hs]
        refine says_ok (Or.inr ⟨hn, ?_⟩)
        simp only [Bool.or_eq_true, not_or, Bool.not_eq_true] at hs
        intro f; cases f
        · exact hs.1
        · exact hs.2
    · rw [if_neg hh]
      have hn : HasFsa o y := by by_contra hc; exact hh ((fsaThere_iff o y).2 hc)
      exact says_iff (h hn) ⟨fun h => Or.inl ⟨hn, h⟩, fun h => h.elim (fun h => h.2) (fun h => absurd hn h.1)⟩
  cases hs : x.fsa with
  | full =>
    dsimp only
    refine says_iff (two _ (o.isolated = false → ∀ a ∈ o.fsaOf x.fsas, o.scope a.fam = true → a ∈ o.fsaOf y.fsas) (fun hy => ?_)) ⟨fun h => ⟨fun _ => h, by simp⟩, fun h => h.1 rfl⟩
    by_cases hi : o.isolated = true
    · rw [if_pos hi]; exact says_ok (fun h => by rw [hi] at h; cases h)
    · rw [if_neg hi]
      have hi' : o.isolated = false := by simpa using hi
      have hset : FsaSet (o.fsaThere y) := List.Pairwise.filter _ (hw.fsaYou hs).1
      have hty : ∀ a ∈ o.fsaThere y, a.Typed := fun a ha => (hw.fsaYou hs).2 a ((List.mem_filter.1 ha).1)
      obtain ⟨r, hr⟩ := included_ok o.scope (o.fsaOf x.fsas) (o.fsaThere y) ((fsaSet_key _).1 hw.fsaMe.1) (fun a ha hsc => by
        obtain ⟨b, hb, h1, h2⟩ := hw.fsaTypes hs hy a ha hsc
        exact ⟨b, List.mem_filter.2 ⟨hb, h1⟩, h2⟩)
      rw [hr]
      simp only [Bind.bind, Except.bind]
      refine says_unless _ _ ?_
      rw [C47_fsa_included_partial o.scope _ _ hw.fsaMe.1 hset hw.fsaMe.2 hty (fun h => (fsaThere_iff o y).1 h hy) r hr]
      constructor
      · intro h _ a ha hsc; exact (List.mem_filter.1 (h a ha hsc)).1
      · intro h a ha hsc; exact List.mem_filter.2 ⟨h hi' a ha hsc, hsc⟩
  | part =>
    dsimp only
    exact says_iff (two _ _ (fun _ => says_ctime o x y)) ⟨fun h => ⟨by simp, fun _ => h⟩, fun h => h.2 rfl⟩
  | none => exact says_ok ⟨by simp, by simp⟩

theorem says_inode (o : DfOpts) (x y : Obj) (hw : Comparable o x y) : Says (cmpInode o x y) (Agrees o x y) := by
  unfold cmpInode
  have hdates : o.what.dates = true ↔ o.what ≠ .inodeType := by cases o.what <;> simp [CmpFields.dates]
  have fin : (y.ino.kind = x.ino.kind ∧ (o.what = .all → y.ino.uid = x.ino.uid) ∧ (o.what = .all → y.ino.gid = x.ino.gid) ∧
      (o.what = .all ∨ o.what = .ignoreOwner → y.ino.perm = x.ino.perm) ∧
      (o.what ≠ .inodeType → x.ino.kind ≠ .symlink ∨ o.symlinkDate = true → SameHours o.capa o.hourshift x.ino.mtime y.ino.mtime) ∧
      ((x.ino.isFile = true → FileAgrees o x y) ∧ (x.ino.kind = .symlink → x.ino.status = .saved → y.ino.target = x.ino.target) ∧
      (x.ino.isDevice = true → x.ino.status = .saved → y.ino.major = x.ino.major ∧ y.ino.minor = x.ino.minor)) ∧
      ((x.ino.eaStatus = .full → HasEa o y ∧ (o.isolated = false → ∀ k v, o.eaMask k = true → eaFind (o.eaOf x.eas) k = some v → eaFind (o.eaOf y.eas) k = some v)) ∧
      (x.ino.eaStatus = .part ∨ x.ino.eaStatus = .fake → HasEa o y ∧ ¬ ChangedAfter o x y)) ∧
      ((x.fsa = .full → (HasFsa o y ∧ (o.isolated = false → ∀ a ∈ o.fsaOf x.fsas, o.scope a.fam = true → a ∈ o.fsaOf y.fsas)) ∨ (¬ HasFsa o y ∧ ∀ f, o.scope f = false)) ∧
      (x.fsa = .part → (HasFsa o y ∧ ¬ ChangedAfter o x y) ∨ (¬ HasFsa o y ∧ ∀ f, o.scope f = false)))) ↔ Agrees o x y := by
    constructor
    · rintro ⟨h1, h2, h3, h4, h5, ⟨h6, h7, h8⟩, ⟨h9, h10⟩, h11, h12⟩
      exact ⟨h1, fun h => ⟨h2 h, h3 h⟩, h4, h5, h6, h7, h8, h9, h10, h11, h12⟩
    · intro h
      exact ⟨h.kind, fun hh => (h.owner hh).1, fun hh => (h.owner hh).2, h.perm, h.mtime, ⟨h.file, h.target, h.device⟩, ⟨h.eaFull, h.eaPart⟩, h.fsaFull, h.fsaPart⟩
  refine says_iff ?_ fin
  refine says_if ?_ (fun hk => says_if ?_ (fun _ => says_if ?_ (fun _ => says_if ?_ (fun _ => ?_))))
  · unfold sameInPlace
    rw [decide_eq_false_iff_not]
    exact ⟨fun h hh => h hh.symm, fun h hh => h hh.symm⟩
  · constructor
    · rintro ⟨h1, h2⟩ h; exact h2 (h h1).symm
    · intro h; by_contra hc; apply h; intro hh; by_contra hn; exact hc ⟨hh, fun e => hn e.symm⟩
  · constructor
    · rintro ⟨h1, h2⟩ h; exact h2 (h h1).symm
    · intro h; by_contra hc; apply h; intro hh; by_contra hn; exact hc ⟨hh, fun e => hn e.symm⟩
  · constructor
    · rintro ⟨h1, h2⟩ h; exact h2 (h h1).symm
    · intro h; by_contra hc; apply h; intro hh; by_contra hn; exact hc ⟨hh, fun e => hn e.symm⟩
  · have rest : Says (do subCompare o x y; cmpEa o x y; cmpFsa o x y) _ := says_and (says_sub o x y hw) (fun _ => says_and (says_ea o x y hw) (fun _ => says_fsa o x y hw))
    by_cases hc : (y.ino.kind ≠ .symlink ∨ o.symlinkDate = true) ∧ o.what.dates = true
    · rw [if_pos hc]
      obtain ⟨r, h1, h2⟩ := hours_spec o.capa o.hourshift x.ino.mtime y.ino.mtime
      rw [h1]
      refine says_if (c := r = false) (r := do subCompare o x y; cmpEa o x y; cmpFsa o x y) ?_ (fun _ => rest)
      rw [hk] at hc
      constructor
      · intro h hh
        have := h2.2 (hh (hdates.1 hc.2) hc.1)
        rw [h] at this; cases this
      · intro h
        by_contra hr
        exact h (fun _ _ => h2.1 (by simpa using hr))
    · rw [if_neg hc]
      refine says_if (c := true = false) (r := do subCompare o x y; cmpEa o x y; cmpFsa o x y) ?_ (fun _ => rest)
      constructor
      · intro h; cases h
      · intro h
        exfalso
        apply h
        intro hw hs
        exact absurd ⟨by rw [hk]; exact hs, hdates.2 hw⟩ hc

end Dar
