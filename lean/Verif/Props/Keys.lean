import Verif.Model.Keys
import Verif.Spec.Keys
import Verif.Props.BlockCipher
/- Property theorems C73: keys and initial vectors of encrypted archives. -/
namespace Dar

/-! ### initial vectors -/

private theorem ivSect_length : ∀ (size n : Nat), (ivSect size n).length = size := by
  intro size
  induction size with
  | zero => intro n; rfl
  | succ s ih => intro n; simp [ivSect, ih]

private theorem ofNat_mod_inj {a b : Nat} (h : UInt8.ofNat (a % 256) = UInt8.ofNat (b % 256)) : a % 256 = b % 256 := by
  have := congrArg UInt8.toNat h
  simpa using this

private theorem ivSect_iff : ∀ (size a b : Nat), ivSect size a = ivSect size b ↔ a % 256 ^ size = b % 256 ^ size := by
  intro size
  induction size with
  | zero => intro a b; simp [ivSect, Nat.mod_one]
  | succ s ih =>
    intro a b
    unfold ivSect
    rw [show (256 : Nat) ^ (s + 1) = 256 * 256 ^ s by rw [Nat.pow_succ, Nat.mul_comm], Nat.mod_mul, Nat.mod_mul]
    constructor
    · intro h
      obtain ⟨h1, h2⟩ := List.append_inj' h rfl
      have h3 := (ih _ _).mp h1
      have h4 := ofNat_mod_inj (List.cons.inj h2).1
      rw [h3, h4]
    · intro h
      have h1 : a % 256 = b % 256 := by
        have := congrArg (· % 256) h
        simpa [Nat.add_mul_mod_self_left] using this
      have h2 : a / 256 % 256 ^ s = b / 256 % 256 ^ s := by rw [h1] at h; omega
      rw [(ih _ _).mpr h2, h1]

/-- **C73**: two blocks of an archive have the same initial vector exactly when their numbers are the same modulo 256 to the size of a block of the cipher (2^64 for blowfish, 2^128 for the others). -/
theorem C73_iv (essiv : Bytes → Bytes) (size : Nat) (hinj : ∀ x y, x.length = size → y.length = size → essiv x = essiv y → x = y) (n m : Nat) :
    makeIvec essiv size n = makeIvec essiv size m ↔ n % 256 ^ size = m % 256 ^ size := by
  unfold makeIvec
  constructor
  · intro h; exact (ivSect_iff size n m).mp (hinj _ _ (ivSect_length _ _) (ivSect_length _ _) h)
  · intro h; rw [(ivSect_iff size n m).mpr h]

/-! ### CBC -/

private theorem xor_cancel (a b : UInt8) : a ^^^ b ^^^ b = a := by rw [UInt8.xor_assoc, UInt8.xor_self, UInt8.xor_zero]
private theorem zip_xor_cancel : ∀ (a b : Bytes), a.length = b.length → (a.zipWith (· ^^^ ·) b).zipWith (· ^^^ ·) b = a := by
  intro a
  induction a with
  | nil => intro b _; simp
  | cons x a ih =>
    intro b h
    cases b with
    | nil => cases h
    | cons y b => simp only [List.zipWith_cons_cons, xor_cancel, ih b (by simpa using h)]
private theorem memxor_full {d s : Bytes} {n : Nat} (hd : d.length = n) (hs : s.length = n) : memxor d s n = d.zipWith (· ^^^ ·) s := by
  unfold memxor
  rw [List.take_of_length_le (by omega), List.take_of_length_le (by omega), List.drop_eq_nil_of_le (by omega), List.append_nil]
private theorem memxor_len {d s : Bytes} {n : Nat} (hd : d.length = n) (hs : s.length = n) : (memxor d s n).length = n := by
  rw [memxor_full hd hs]; simp; omega
private theorem memxor_cancel {d s : Bytes} {n : Nat} (hd : d.length = n) (hs : s.length = n) : memxor (memxor d s n) s n = d := by
  rw [memxor_full (memxor_len hd hs) hs, memxor_full hd hs, zip_xor_cancel d s (by omega)]
private theorem zip_xor_left : ∀ (a b c : Bytes), a.length = b.length → a.length = c.length → a.zipWith (· ^^^ ·) b = a.zipWith (· ^^^ ·) c → b = c := by
  intro a
  induction a with
  | nil => intro b c h1 h2 _; rw [List.length_eq_zero_iff.mp h1.symm, List.length_eq_zero_iff.mp h2.symm]
  | cons x a ih =>
    intro b c h1 h2 h
    cases b with
    | nil => cases h1
    | cons y b => cases c with
      | nil => cases h2
      | cons z c =>
        simp only [List.zipWith_cons_cons, List.cons.injEq] at h
        have hyz : y = z := by
          have := congrArg (fun t => x ^^^ t) h.1
          simp only [← UInt8.xor_assoc, UInt8.xor_self, UInt8.zero_xor] at this
          exact this
        rw [hyz, ih b c (by simpa using h1) (by simpa using h2) h.2]

section CBC
variable {e d : Bytes → Bytes} {size : Nat}

private theorem cbc_len (he : ∀ x, x.length = size → (e x).length = size) : ∀ (n : Nat) (iv x : Bytes), iv.length = size → (cbcEnc e size n iv x).length = x.length := by
  intro n
  induction n with
  | zero => intro iv x _; rfl
  | succ n ih =>
    intro iv x hiv
    unfold cbcEnc
    by_cases h : size ≤ x.length
    · rw [if_pos h]
      have hl := he (memxor (x.take size) iv size) (memxor_len (by simp; omega) hiv)
      simp only [List.length_append, hl, ih _ _ hl, List.length_drop]
      omega
    · rw [if_neg h]

private theorem cbc_inv (he : ∀ x, x.length = size → (e x).length = size) (hd : ∀ x, x.length = size → d (e x) = x) :
    ∀ (n : Nat) (iv x : Bytes), iv.length = size → cbcDec d size n iv (cbcEnc e size n iv x) = x := by
  intro n
  induction n with
  | zero => intro iv x _; rfl
  | succ n ih =>
    intro iv x hiv
    unfold cbcEnc
    by_cases h : size ≤ x.length
    · rw [if_pos h]
      have hx : (x.take size).length = size := by simp; omega
      have hl := he (memxor (x.take size) iv size) (memxor_len hx hiv)
      unfold cbcDec
      simp only
      rw [if_pos (by simp; omega), List.take_append_of_le_length (by omega), List.take_of_length_le (by omega), List.drop_append_of_le_length (by omega),
        List.drop_eq_nil_of_le (by omega), List.nil_append, hd _ (memxor_len hx hiv), memxor_cancel hx hiv, ih _ _ hl, List.take_append_drop]
    · rw [if_neg h]
      unfold cbcDec
      rw [if_neg h]

/-- **C73**: the decryption of a block, by the key and initial vector of its number, gives the block back, and encryption keeps the size. -/
theorem C73_block (essiv : Bytes → Bytes) (he : ∀ x, x.length = size → (e x).length = size) (hd : ∀ x, x.length = size → d (e x) = x)
    (hs : ∀ x, x.length = size → (essiv x).length = size) (n : Nat) (x : Bytes) : symDec d essiv size n (symEnc e essiv size n x) = x ∧ (symEnc e essiv size n x).length = x.length := by
  have hiv : (makeIvec essiv size n).length = size := hs _ (ivSect_length _ _)
  have hl : (symEnc e essiv size n x).length = x.length := cbc_len he _ _ _ hiv
  refine ⟨?_, hl⟩
  unfold symDec
  rw [hl]
  exact cbc_inv he hd _ _ _ hiv

/-- **C73**: so the encryption layer of the program, with any cipher of blocks, satisfies what C18 requires. -/
theorem C73_layer (essiv : Bytes → Bytes) (he : ∀ x, x.length = size → (e x).length = size) (hd : ∀ x, x.length = size → d (e x) = x)
    (hs : ∀ x, x.length = size → (essiv x).length = size) (h1 : 1 ≤ size) (h2 : size ≤ 254 ^ 4 - 1) (B : Nat) (hB : B + size < 2 ^ 32 - 1) (r : Nat → Nat) (rnd : Nat → Nat → UInt8)
    (hr : ∀ n, RndOk (rnd n)) : (symCipher (symEnc e essiv size) (symDec d essiv size) size B r rnd).Lawful B :=
  (C18_cipher (symEnc e essiv size) (symDec d essiv size) (fun n x => (C73_block essiv he hd hs n x).1) (fun n x => (C73_block essiv he hd hs n x).2) size B h1 h2 hB r rnd hr).1

/-- **C73**: the same data in two blocks of an archive is never encrypted the same way: already the first block of the cipher differs. -/
theorem C73_distinct (essiv : Bytes → Bytes) (he : ∀ x, x.length = size → (e x).length = size) (hd : ∀ x, x.length = size → d (e x) = x)
    (hs : ∀ x, x.length = size → (essiv x).length = size) (hinj : ∀ x y, x.length = size → y.length = size → essiv x = essiv y → x = y) (h1 : 1 ≤ size) (n m : Nat)
    (hnm : n % 256 ^ size ≠ m % 256 ^ size) (x : Bytes) (hx : size ≤ x.length) : (symEnc e essiv size n x).take size ≠ (symEnc e essiv size m x).take size := by
  have hxt : (x.take size).length = size := by simp; omega
  have hiv : ∀ n, (makeIvec essiv size n).length = size := fun n => hs _ (ivSect_length _ _)
  have hfirst : ∀ n, (symEnc e essiv size n x).take size = e (memxor (x.take size) (makeIvec essiv size n) size) := by
    intro n
    unfold symEnc
    obtain ⟨k, hk⟩ : ∃ k, x.length = k + 1 := ⟨x.length - 1, by omega⟩
    rw [hk]
    unfold cbcEnc
    rw [if_pos hx]
    have hl := he (memxor (x.take size) (makeIvec essiv size n) size) (memxor_len hxt (hiv n))
    simp only
    rw [List.take_append_of_le_length (by omega), List.take_of_length_le (by omega)]
  rw [hfirst, hfirst]
  intro h
  have h2 := congrArg d h
  rw [hd _ (memxor_len hxt (hiv n)), hd _ (memxor_len hxt (hiv m)), memxor_full hxt (hiv n), memxor_full hxt (hiv m)] at h2
  have h3 := zip_xor_left _ _ _ (by rw [hxt, hiv]) (by rw [hxt, hiv]) h2
  exact hnm ((C73_iv essiv size hinj n m).mp h3)
end CBC

/-! ### key derivation -/

private theorem rfcU_len {prf : Bytes → Bytes} {hLen : Nat} (hp : ∀ x, (prf x).length = hLen) (salt : Bytes) (i c : Nat) : (rfcU prf salt i c).length = hLen := by
  cases c <;> exact hp _
private theorem rfcF_len {prf : Bytes → Bytes} {hLen : Nat} (hp : ∀ x, (prf x).length = hLen) (salt : Bytes) (i c : Nat) : (rfcF prf salt i c).length = hLen := by
  induction c with
  | zero => exact rfcU_len hp salt i 0
  | succ c ih => unfold rfcF; rw [List.length_zipWith, ih, rfcU_len hp]; simp

private theorem inner_spec {prf : Bytes → Bytes} {hLen : Nat} (hp : ∀ x, (prf x).length = hLen) (salt : Bytes) (i it : Nat) (hit : it < 2 ^ 32 - 1) :
    ∀ (fuel k : Nat), k + 1 ≤ max it 1 → it - k < fuel → pkcsInner prf hLen it fuel (k + 2) (rfcU prf salt i k) (rfcF prf salt i k) = .ok (rfcF prf salt i (max it 1 - 1)) := by
  intro fuel
  induction fuel with
  | zero => intro k _ h; omega
  | succ fuel ih =>
    intro k hk hf
    unfold pkcsInner
    by_cases hj : k + 2 ≤ it
    · rw [if_pos hj]
      simp only
      rw [Nat.mod_eq_of_lt (by omega), memxor_full (rfcF_len hp salt i k) (hp _)]
      exact ih (k + 1) (by omega) (by omega)
    · rw [if_neg hj]
      have : max it 1 - 1 = k := by omega
      rw [this]

private theorem index_eq (i : Nat) : pkcsIndex i = rfcInt i := by
  have h : ∀ n : Nat, UInt8.ofNat (n % 256) = UInt8.ofNat n := by
    intro n; apply UInt8.toNat.inj; simp
  simp only [pkcsIndex, rfcInt, List.map_cons, List.map_nil, Nat.shiftRight_eq_div_pow, Nat.pow_zero, Nat.div_one, h]

private theorem flat_len {f : Nat → Bytes} {k : Nat} (h : ∀ i, (f i).length = k) (n : Nat) : ((List.range n).flatMap f).length = n * k := by
  induction n with
  | zero => simp
  | succ n ih => rw [List.range_succ, List.flatMap_append, List.length_append, ih]; simp [h, Nat.succ_mul]

private theorem outer_spec {prf : Bytes → Bytes} {hLen : Nat} (hp : ∀ x, (prf x).length = hLen) (salt : Bytes) (it : Nat) (hit : it < 2 ^ 32 - 1) (fuel : Nat) (hf : it < fuel) (l r : Nat)
    (hr : r ≤ hLen) : ∀ (n k : Nat), k + n + 1 = l →
    pkcsOuter prf salt hLen it l r ((l - 1) * hLen + r) fuel (n + 1) (k + 1) ((List.range k).flatMap fun k => rfcF prf salt (k + 1) (max it 1 - 1)) =
      .ok (((List.range l).flatMap fun k => rfcF prf salt (k + 1) (max it 1 - 1)).take ((l - 1) * hLen + r)) := by
  have hF : ∀ i, (rfcF prf salt (i + 1) (max it 1 - 1)).length = hLen := fun i => rfcF_len hp salt _ _
  intro n
  induction n with
  | zero =>
    intro k hk
    have hk : l = k + 1 := by omega
    subst hk
    unfold pkcsOuter
    simp only [index_eq]
    have := inner_spec hp salt (k + 1) it hit fuel 0 (by omega) (by omega)
    simp only [rfcF, rfcU] at this
    rw [this]; simp only; rw [if_neg (by omega)]
    have hl : ((rfcF prf salt (k + 1) (max it 1 - 1)).take r).length = r := by rw [List.length_take, hF]; omega
    have hres : ((List.range (k + 1)).flatMap fun k => rfcF prf salt (k + 1) (max it 1 - 1)).take (k * hLen + r) =
        ((List.range k).flatMap fun k => rfcF prf salt (k + 1) (max it 1 - 1)) ++ (rfcF prf salt (k + 1) (max it 1 - 1)).take r := by
      rw [List.range_succ, List.flatMap_append, List.take_append, flat_len hF, List.take_of_length_le (by rw [flat_len hF]; omega)]
      simp [List.flatMap_cons]
    simp only [Nat.add_sub_cancel]
    rw [hres]
    unfold secuAppend
    by_cases he : (rfcF prf salt (k + 1) (max it 1 - 1)).take r = []
    · rw [if_pos he, he, List.append_nil]; rfl
    · rw [if_neg he, if_neg (by rw [flat_len hF, hl]; omega)]; rfl
  | succ n ih =>
    intro k hk
    unfold pkcsOuter
    simp only [index_eq]
    have := inner_spec hp salt (k + 1) it hit fuel 0 (by omega) (by omega)
    simp only [rfcF, rfcU] at this
    rw [this]; simp only; rw [if_pos (by omega)]
    have hacc : ((List.range (k + 1)).flatMap fun k => rfcF prf salt (k + 1) (max it 1 - 1)) =
        ((List.range k).flatMap fun k => rfcF prf salt (k + 1) (max it 1 - 1)) ++ rfcF prf salt (k + 1) (max it 1 - 1) := by
      rw [List.range_succ, List.flatMap_append]; simp [List.flatMap_cons]
    have hsec : secuAppend ((l - 1) * hLen + r) ((List.range k).flatMap fun k => rfcF prf salt (k + 1) (max it 1 - 1)) ((rfcF prf salt (k + 1) (max it 1 - 1)).take hLen) =
        .ok ((List.range (k + 1)).flatMap fun k => rfcF prf salt (k + 1) (max it 1 - 1)) := by
      rw [List.take_of_length_le (by rw [hF]), hacc]
      unfold secuAppend
      by_cases he : rfcF prf salt (k + 1) (max it 1 - 1) = []
      · rw [if_pos he, he, List.append_nil]
      · rw [if_neg he, if_neg]
        rw [flat_len hF, hF]
        have : (k + 1) * hLen ≤ (l - 1) * hLen := Nat.mul_le_mul_right _ (by omega)
        rw [Nat.succ_mul] at this
        omega
    rw [hsec]
    exact ih (k + 1) (by omega)

/-- **C73**: the key is the one PKCS#5 defines for the password, the salt, the number of iterations and the length asked for (a number of iterations that fits the counter; 0 is taken for 1). -/
theorem C73_pbkdf2 (hmac : Bytes → Bytes → Bytes) (hLen : Nat) (hpos : 0 < hLen) (hp : ∀ k x, (hmac k x).length = hLen) (password salt : Bytes) (it outLen fuel : Nat)
    (hit : it < 2 ^ 32 - 1) (hf : it < fuel) :
    pkcs5 hmac hLen password salt it outLen fuel = .ok (rfcPbkdf2 (hmac password) hLen salt (max it 1) outLen) ∧
      (rfcPbkdf2 (hmac password) hLen salt (max it 1) outLen).length = outLen := by
  have hdm := Nat.div_add_mod outLen hLen
  have hmlt := Nat.mod_lt outLen hpos
  have hceil : (outLen + hLen - 1) / hLen = outLen / hLen + (if outLen % hLen = 0 then 0 else 1) := by
    rw [Nat.div_eq_iff hpos]
    by_cases h0 : outLen % hLen = 0
    · rw [if_pos h0, Nat.add_zero, Nat.mul_comm]; omega
    · rw [if_neg h0, Nat.add_mul, Nat.mul_comm]; omega
  have hlen : (rfcPbkdf2 (hmac password) hLen salt (max it 1) outLen).length = outLen := by
    unfold rfcPbkdf2
    rw [List.length_take, flat_len (fun i => rfcF_len (hp password) salt _ _), hceil, Nat.min_eq_left]
    by_cases h0 : outLen % hLen = 0
    · rw [if_pos h0, Nat.add_zero, Nat.mul_comm]; omega
    · rw [if_neg h0, Nat.add_mul, Nat.mul_comm]; omega
  refine ⟨?_, hlen⟩
  unfold pkcs5
  by_cases ho : outLen = 0
  · rw [if_pos ho]
    subst ho
    rw [List.length_eq_zero_iff.mp hlen]
  · rw [if_neg ho]
    simp only
    have hl : ∃ n, outLen / hLen + (if outLen % hLen = 0 then 0 else 1) = n + 1 := by
      by_cases h0 : outLen % hLen = 0
      · rw [if_pos h0]
        have : outLen / hLen ≠ 0 := fun h => by rw [h, Nat.mul_zero] at hdm; omega
        exact Nat.exists_eq_succ_of_ne_zero this
      · rw [if_neg h0]; exact ⟨outLen / hLen, rfl⟩
    obtain ⟨n, hn⟩ := hl
    have hcap : outLen = (n + 1 - 1) * hLen + (if outLen % hLen = 0 then hLen else outLen % hLen) := by
      rw [Nat.add_sub_cancel, Nat.mul_comm]
      by_cases h0 : outLen % hLen = 0
      · rw [if_pos h0] at hn ⊢
        have : outLen / hLen = n + 1 := by omega
        rw [this, Nat.mul_add] at hdm; omega
      · rw [if_neg h0] at hn ⊢
        have : outLen / hLen = n := by omega
        rw [this] at hdm; omega
    have hos := outer_spec (hp password) salt it hit fuel hf (n + 1) (if outLen % hLen = 0 then hLen else outLen % hLen) (by split <;> omega) n 0 (by omega)
    rw [← hcap] at hos
    rw [hn]
    unfold rfcPbkdf2
    rw [hceil, hn]
    exact hos

/-! ### salts and weak keys -/

private theorem symKey_strong {L : CryptoLib} {W fuel : Nat} {password : Bytes} {v o : Bool} {salt : Bytes} {count : Nat} {h : HashAlgo} {u : Bool} {nonces : Nat → Bytes} {key sel : Bytes}
    (hk : symKey L W fuel password v o salt count h u nonces = .ok (key, sel)) : L.strong key = true := by
  unfold symKey at hk
  by_cases h1 : o = true
  · rw [if_pos h1] at hk; cases hk
  · rw [if_neg h1] at hk
    by_cases h2 : h = .none ∧ u = true
    · rw [if_pos h2] at hk; cases hk
    · rw [if_neg h2] at hk
      simp only at hk
      split at hk
      · cases hk
      · split at hk
        · next hs => cases hk; exact hs
        · cases hk

/-- **C73**: no weak key is ever used. -/
theorem C73_strong (L : CryptoLib) (W fuel : Nat) (password : Bytes) (count : Nat) (h : HashAlgo) (usePkcs5 : Bool) (nonces : Nat → Bytes) (key : Bytes) (rec : Bytes × Nat × HashAlgo)
    (hk : writerKey L W fuel password count h usePkcs5 nonces = .ok (key, rec)) : L.strong key = true := by
  unfold writerKey at hk
  cases hs : symKey L W fuel password true false [] count h usePkcs5 nonces with
  | error e => rw [hs] at hk; cases hk
  | ok p =>
    obtain ⟨k, sel⟩ := p
    rw [hs] at hk
    cases hk
    exact symKey_strong hs

private theorem saltLoop_ok {L : CryptoLib} {mk : Bytes → Res Bytes} {nonces : Nat → Bytes} : ∀ (retry k : Nat) (key sel : Bytes), saltLoop L mk nonces retry k = .ok (key, sel) →
    (∃ j, sel = nonces j) ∧ mk sel = .ok key := by
  intro retry
  induction retry with
  | zero =>
    intro k key sel h
    unfold saltLoop at h
    cases hm : mk (nonces k) with
    | error e => rw [hm] at h; cases h
    | ok key' =>
      rw [hm] at h
      simp only at h
      by_cases hs : L.strong key' = true
      · rw [if_pos hs] at h; cases h; exact ⟨⟨k, rfl⟩, hm⟩
      · rw [if_neg hs] at h; cases h
  | succ retry ih =>
    intro k key sel h
    unfold saltLoop at h
    cases hm : mk (nonces k) with
    | error e => rw [hm] at h; cases h
    | ok key' =>
      rw [hm] at h
      simp only at h
      by_cases hs : L.strong key' = true
      · rw [if_pos hs] at h; cases h; exact ⟨⟨k, rfl⟩, hm⟩
      · rw [if_neg hs] at h; exact ih _ _ _ h

/-- **C73**: the same passphrase, with what the header of the archive records, gives the key the archive was encrypted with. -/
theorem C73_reader (L : CryptoLib) (W fuel : Nat) (password : Bytes) (count : Nat) (h : HashAlgo) (usePkcs5 : Bool) (nonces nonces' : Nat → Bytes) (hn : ∀ k, nonces k ≠ []) (key : Bytes)
    (rec : Bytes × Nat × HashAlgo) (hk : writerKey L W fuel password count h usePkcs5 nonces = .ok (key, rec)) : readerKey L W fuel password rec usePkcs5 nonces' = .ok key := by
  unfold writerKey at hk
  cases hs : symKey L W fuel password true false [] count h usePkcs5 nonces with
  | error e => rw [hs] at hk; cases hk
  | ok p =>
    obtain ⟨k, sel⟩ := p
    rw [hs] at hk
    cases hk
    have hst := symKey_strong hs
    unfold symKey at hs
    rw [if_neg (by simp)] at hs
    unfold readerKey symKey
    rw [if_neg (by simp)]
    cases usePkcs5 with
    | false =>
      simp only [Bool.false_eq_true, false_and, and_false, if_false, hashedPassword, kdfRecord] at hs ⊢
      by_cases hstp : L.strong password = true
      · rw [if_pos hstp] at hs ⊢; cases hs; rfl
      · rw [if_neg hstp] at hs; cases hs
    | true =>
      by_cases hnone : h = .none
      · rw [if_pos ⟨hnone, rfl⟩] at hs; cases hs
      · rw [if_neg (fun hh => hnone hh.1), if_pos ⟨rfl, rfl, rfl⟩] at hs
        simp only at hs
        cases hl : saltLoop L (fun s => hashedPassword L W fuel password true s count h) nonces maxRetry 0 with
        | error e => rw [hl] at hs; cases hs
        | ok q =>
          obtain ⟨k', s'⟩ := q
          rw [hl] at hs
          simp only at hs
          have heq : k' = key ∧ s' = sel := by
            by_cases hx : L.strong k' = true
            · rw [if_pos hx] at hs; cases hs; exact ⟨rfl, rfl⟩
            · rw [if_neg hx] at hs; cases hs
          obtain ⟨rfl, rfl⟩ := heq
          obtain ⟨⟨j, hj⟩, hmk⟩ := saltLoop_ok _ _ _ _ hl
          have hne : s' ≠ [] := by rw [hj]; exact hn j
          simp only [kdfRecord, hne, ne_eq, not_false_eq_true, and_self, if_true, false_and, if_false, hnone, hmk, hst]

/-- **C73**: the salts tried: if the first strong key comes with the salt number `k`, at most the sixth, this one is used; if the six keys are weak, the operation fails. -/
theorem C73_salts (L : CryptoLib) (W fuel : Nat) (password : Bytes) (count : Nat) (h : HashAlgo) (hh : h ≠ .none) (nonces : Nat → Bytes) (keys : Nat → Bytes)
    (hm : ∀ k, hashedPassword L W fuel password true (nonces k) count h = .ok (keys k)) :
    (∀ k, k ≤ 5 → L.strong (keys k) = true → (∀ j, j < k → L.strong (keys j) = false) → symKey L W fuel password true false [] count h true nonces = .ok (keys k, nonces k)) ∧
    ((∀ j, j ≤ 5 → L.strong (keys j) = false) → symKey L W fuel password true false [] count h true nonces = .error .range) := by
  have hloop : ∀ retry k, (∀ i, i ≤ retry → L.strong (keys (k + i)) = true → (∀ j, j < i → L.strong (keys (k + j)) = false) →
      saltLoop L (fun s => hashedPassword L W fuel password true s count h) nonces retry k = .ok (keys (k + i), nonces (k + i))) ∧
      ((∀ j, j ≤ retry → L.strong (keys (k + j)) = false) → saltLoop L (fun s => hashedPassword L W fuel password true s count h) nonces retry k = .error .range) := by
    intro retry
    induction retry with
    | zero =>
      intro k
      refine ⟨fun i hi hs _ => ?_, fun hw => ?_⟩
      · have : i = 0 := by omega
        subst this
        unfold saltLoop
        simp only [hm]
        rw [if_pos (by simpa using hs)]; rfl
      · unfold saltLoop
        simp only [hm]
        rw [if_neg (by rw [show L.strong (keys k) = false from hw 0 (by omega)]; simp)]
    | succ retry ih =>
      intro k
      refine ⟨fun i hi hs hw => ?_, fun hw => ?_⟩
      · unfold saltLoop
        simp only [hm]
        cases i with
        | zero => rw [if_pos (by simpa using hs)]; rfl
        | succ i =>
          rw [if_neg (by rw [show L.strong (keys k) = false from hw 0 (by omega)]; simp)]
          have := (ih (k + 1)).1 i (by omega) (by rw [show k + 1 + i = k + (i + 1) by omega]; exact hs)
            (fun j hj => by rw [show k + 1 + j = k + (j + 1) by omega]; exact hw (j + 1) (by omega))
          rw [show k + 1 + i = k + (i + 1) by omega] at this
          exact this
      · unfold saltLoop
        simp only [hm]
        rw [if_neg (by rw [show L.strong (keys k) = false from hw 0 (by omega)]; simp)]
        exact (ih (k + 1)).2 (fun j hj => by rw [show k + 1 + j = k + (j + 1) by omega]; exact hw (j + 1) (by omega))
  refine ⟨fun k hk hs hw => ?_, fun hw => ?_⟩
  · have := (hloop 5 0).1 k hk (by simpa using hs) (by simpa using hw)
    rw [Nat.zero_add] at this
    unfold symKey
    rw [if_neg (by simp), if_neg (fun h' => hh h'.1), if_pos ⟨rfl, rfl, rfl⟩]
    simp only [maxRetry, this, hs, if_true]
  · have := (hloop 5 0).2 (by simpa using hw)
    unfold symKey
    rw [if_neg (by simp), if_neg (fun h' => hh h'.1), if_pos ⟨rfl, rfl, rfl⟩]
    simp only [maxRetry, this]

/-- **C73**: what is refused: a number of iterations that does not fit a machine integer, no hash algorithm, old blowfish archives. -/
theorem C73_refused (L : CryptoLib) (W fuel : Nat) (password salt : Bytes) (count : Nat) (h : HashAlgo) (v : Bool) (nonces : Nat → Bytes) :
    (2 ^ W ≤ count → hashedPassword L W fuel password true salt count h = .error .range) ∧
    symKey L W fuel password v false salt count .none true nonces = .error .range ∧
    (∀ u, symKey L W fuel password v true salt count h u nonces = .error .range) := by
  refine ⟨fun hc => ?_, ?_, fun u => ?_⟩
  · unfold hashedPassword; rw [if_pos rfl, if_pos hc]
  · unfold symKey; simp
  · unfold symKey; simp

/-- **C73**: the key is made with the algorithm asked for: PBKDF2 over the HMAC of the hash selected, or argon2 with the passphrase, the salt, the count and the size in that order. -/
theorem C73_algorithms (L : CryptoLib) (W fuel : Nat) (password salt : Bytes) (count : Nat) (hc : count < 2 ^ W) (hit : count < 2 ^ 32 - 1) (hf : count < fuel) :
    (∀ h, h = .md5 ∨ h = .sha1 ∨ h = .sha512 → 0 < L.dlen h → (∀ k x, (L.hmac h k x).length = L.dlen h) →
      hashedPassword L W fuel password true salt count h = .ok (rfcPbkdf2 (L.hmac h password) (L.dlen h) salt (max count 1) L.keyLen)) ∧
    hashedPassword L W fuel password true salt count .argon2 = L.argon2 password salt count L.keyLen := by
  constructor
  · intro h hh hd hl
    unfold hashedPassword
    rw [if_pos rfl, if_neg (by omega)]
    rcases hh with rfl | rfl | rfl <;> exact (C73_pbkdf2 _ _ hd hl password salt count L.keyLen fuel hit hf).1
  · unfold hashedPassword
    rw [if_pos rfl, if_neg (by omega)]

/-! ### where it fails -/

private theorem inner_diverge (prf : Bytes → Bytes) (dlen it : Nat) (hit : 2 ^ 32 - 1 ≤ it) : ∀ (fuel j : Nat) (uj ti : Bytes), j < 2 ^ 32 → pkcsInner prf dlen it fuel j uj ti = .error .diverge := by
  intro fuel
  induction fuel with
  | zero => intro j uj ti _; rfl
  | succ fuel ih =>
    intro j uj ti hj
    unfold pkcsInner
    rw [if_pos (by omega)]
    exact ih _ _ _ (Nat.mod_lt _ (by decide))

/-- **C73** counterexample: the iterations are counted in 32 bits but their number is kept in a larger integer: with 2^32 - 1 iterations or more (-T 4G) the derivation never ends. -/
theorem C73_iterations_counterexample (hmac : Bytes → Bytes → Bytes) (dlen : Nat) (hd : 0 < dlen) (password salt : Bytes) (it outLen : Nat) (hit : 2 ^ 32 - 1 ≤ it) (ho : 0 < outLen) (fuel : Nat) :
    pkcs5 hmac dlen password salt it outLen fuel = .error .diverge := by
  unfold pkcs5
  rw [if_neg (by omega)]
  simp only
  have hl : ∃ n, outLen / dlen + (if outLen % dlen = 0 then 0 else 1) = n + 1 := by
    have hdm := Nat.div_add_mod outLen dlen
    by_cases h0 : outLen % dlen = 0
    · rw [if_pos h0]
      have : outLen / dlen ≠ 0 := fun h => by rw [h, Nat.mul_zero] at hdm; omega
      exact Nat.exists_eq_succ_of_ne_zero this
    · rw [if_neg h0]; exact ⟨outLen / dlen, rfl⟩
  obtain ⟨n, hn⟩ := hl
  rw [hn]
  unfold pkcsOuter
  simp only [inner_diverge _ dlen it hit fuel 2 _ _ (by decide)]

/-- **C73** counterexample: the hash algorithms whirlpool, sha3-512 and blake2b-512, accepted by the option -T, end in an internal error. -/
theorem C73_hash_counterexample (L : CryptoLib) (W fuel : Nat) (password salt : Bytes) (count : Nat) (hc : count < 2 ^ W) (h : HashAlgo) (hh : h = .whirlpool ∨ h = .sha3_512 ∨ h = .blake2b_512) :
    hashedPassword L W fuel password true salt count h = .error .bug := by
  unfold hashedPassword
  rw [if_pos rfl, if_neg (by omega)]
  rcases hh with rfl | rfl | rfl <;> rfl

/-- the theorems apply to something: a (weak) "HMAC" of 4 bytes, a key of 6 bytes, 3 iterations -/
private def toyHmac (k x : Bytes) : Bytes := [k.foldl (· + ·) 1, x.foldl (· + ·) 2, x.foldl (fun a b => a * 3 + b) 0, 7]
example : pkcs5 toyHmac 4 [1, 2] [9] 3 6 10 = .ok (rfcPbkdf2 (toyHmac [1, 2]) 4 [9] 3 6) := (C73_pbkdf2 toyHmac 4 (by decide) (fun _ _ => rfl) [1, 2] [9] 3 6 10 (by decide) (by decide)).1
example : (rfcPbkdf2 (toyHmac [1, 2]) 4 [9] 3 6).length = 6 ∧ (rfcPbkdf2 (toyHmac [1, 2]) 4 [9] 3 6) ≠ (rfcPbkdf2 (toyHmac [1, 2]) 4 [8] 3 6) := by decide +kernel
private def toyLib : CryptoLib := ⟨fun _ => toyHmac, fun _ => 4, fun _ _ _ _ => .error .unsupported, 6, 6, fun k => k.getD 1 0 != 0⟩
example : (writerKey toyLib 64 10 [1, 2] 3 .sha1 true (fun k => [UInt8.ofNat k, 5])).isOk = true := by decide +kernel
example : symDec (fun b => b.reverse) (fun b => b.map (· + 1)) 2 7 (symEnc (fun b => b.reverse) (fun b => b.map (· + 1)) 2 7 [1, 2, 3, 4]) = [1, 2, 3, 4] :=
  (C73_block (e := fun b => b.reverse) (d := fun b => b.reverse) (size := 2) (fun b => b.map (· + 1)) (fun _ h => by simpa using h) (fun _ _ => by simp) (fun _ h => by simpa using h) 7 [1, 2, 3, 4]).1

end Dar
