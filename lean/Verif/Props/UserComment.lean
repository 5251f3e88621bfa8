import Verif.Model.UserComment
/- C58: the user comment stored in clear in an archive. -/
namespace Dar

/-- A comment as the manual describes it: characters, and macros made of '%' and a letter. -/
inductive CommentPiece where
  | char (c : UInt8)
  | mac (c : UInt8)
/-- the text of a comment -/
def CommentPiece.text : CommentPiece → Bytes
  | .char c => [c]
  | .mac c => [37, c]
/-- '%' begins a macro; the macros are c, d, u, g, h and % -/
def CommentPiece.Known : CommentPiece → Prop
  | .char c => c ≠ 37
  | .mac c => c ∈ [99, 100, 117, 103, 104, 37]
/-- what the macros are replaced with -/
def CommentPiece.meaning (e : CommentEnv) (cmd : Bytes) : CommentPiece → Bytes
  | .char c => [c]
  | .mac c => if c = 99 then cmd else if c = 100 then e.date else if c = 117 then e.user else if c = 103 then e.group else if c = 104 then e.host else [37]

/-- the options of dar about encryption that take an argument -/
def cryptoOptions : List Bytes := (["-K", "--key", "-J", "--ref-key", "-$", "--aux-key", "-#", "--crypto-block", "-*", "--ref-crypto-block", "-%", "--aux-crypto-block"]
  : List String).map (fun o => o.toUTF8.toList)
theorem keyOptions_iff (o : Bytes) : o ∈ keyOptions ↔ o ∈ cryptoOptions := by
  have h1 : ∀ o ∈ keyOptions, o ∈ cryptoOptions := by decide +kernel
  have h2 : ∀ o ∈ cryptoOptions, o ∈ keyOptions := by decide +kernel
  exact ⟨h1 o, h2 o⟩

/-- The arguments of a command line: an ordinary one, or an option about the encryption followed by its argument. -/
inductive ArgUnit where
  | word (a : Bytes)
  | secret (opt value : Bytes)
def ArgUnit.args : ArgUnit → List Bytes
  | .word a => [a]
  | .secret o v => [o, v]
def ArgUnit.Proper : ArgUnit → Prop
  | .word a => a ∉ cryptoOptions
  | .secret o _ => o ∈ cryptoOptions
/-- the ordinary arguments -/
def ArgUnit.plain : ArgUnit → List Bytes
  | .word a => [a]
  | .secret _ _ => []
/-- the text of a command line: each word between double quotes, separated by spaces -/
def quotedLine (prog : Bytes) (words : List Bytes) : Bytes := [34] ++ prog ++ [34] ++ words.flatMap (fun a => [32, 34] ++ a ++ [34])

theorem argsLoop_word (a : Bytes) (h : a ∉ keyOptions) (l : List Bytes) : argsLoop (a :: l) = [32, 34] ++ a ++ [34] ++ argsLoop l := by
  cases l with
  | nil => unfold argsLoop; rw [if_neg h]; simp [argsLoop]
  | cons b l => rw [argsLoop, if_neg h]
theorem argsLoop_secret (o v : Bytes) (h : o ∈ keyOptions) (l : List Bytes) : argsLoop (o :: v :: l) = argsLoop l := by
  rw [argsLoop, if_pos h]
theorem argsLoop_units (us : List ArgUnit) (h : ∀ u ∈ us, u.Proper) : argsLoop (us.flatMap ArgUnit.args) = (us.flatMap ArgUnit.plain).flatMap (fun a => [32, 34] ++ a ++ [34]) := by
  induction us with
  | nil => rfl
  | cons u us ih =>
    have hu := h u (by simp)
    have hi := ih (fun v hv => h v (by simp [hv]))
    cases u with
    | word a =>
      rw [List.flatMap_cons, show ArgUnit.args (.word a) ++ us.flatMap ArgUnit.args = a :: us.flatMap ArgUnit.args from rfl, argsLoop_word a (fun h => hu ((keyOptions_iff a).mp h)), hi]
      simp [ArgUnit.plain]
    | secret o v =>
      rw [List.flatMap_cons, show ArgUnit.args (.secret o v) ++ us.flatMap ArgUnit.args = o :: v :: us.flatMap ArgUnit.args from rfl, argsLoop_secret o v ((keyOptions_iff o).mpr hu), hi]
      rfl

theorem macro_known (e : CommentEnv) (c : UInt8) (h : CommentPiece.Known (.mac c)) :
    commentMacro e c = .ok (CommentPiece.meaning e ([34] ++ e.prog ++ [34] ++ argsLoop e.args) (.mac c)) := by
  simp only [CommentPiece.Known, List.mem_cons, List.not_mem_nil, or_false] at h
  rcases h with rfl | rfl | rfl | rfl | rfl | rfl <;> rfl
theorem macro_unknown (e : CommentEnv) (c : UInt8) (h : ¬ CommentPiece.Known (.mac c)) : commentMacro e c = .error .range := by
  simp only [CommentPiece.Known, List.mem_cons, List.not_mem_nil, or_false, not_or] at h
  obtain ⟨h1, h2, h3, h4, h5, h6⟩ := h
  unfold commentMacro
  rw [if_neg h1, if_neg h2, if_neg h3, if_neg h4, if_neg h5, if_neg h6]
theorem commentLoop_char (e : CommentEnv) (c : UInt8) (h : c ≠ 37) (pend ret l : Bytes) : commentLoop e pend ret (c :: l) = commentLoop e (pend ++ [c]) ret l := by
  cases l with
  | nil => unfold commentLoop; rw [if_neg h]
  | cons b l => rw [commentLoop, if_neg h]
theorem commentLoop_mac (e : CommentEnv) (c : UInt8) (pend ret l : Bytes) : commentLoop e pend ret (37 :: c :: l) = (commentMacro e c >>= fun t => commentLoop e [] (ret ++ pend ++ t) l) := by
  rw [commentLoop, if_pos rfl]
theorem commentLoop_pieces (e : CommentEnv) (tail : Bytes) : ∀ (ps : List CommentPiece) (_ : ∀ p ∈ ps, p.Known) (pend ret : Bytes),
    ∃ pend' ret', commentLoop e pend ret (ps.flatMap CommentPiece.text ++ tail) = commentLoop e pend' ret' tail ∧
      ret' ++ pend' = ret ++ pend ++ ps.flatMap (CommentPiece.meaning e ([34] ++ e.prog ++ [34] ++ argsLoop e.args)) := by
  intro ps
  induction ps with
  | nil => intro _ pend ret; exact ⟨pend, ret, rfl, by simp⟩
  | cons p ps ih =>
    intro h pend ret
    have hp := h p (by simp)
    have hr := fun q hq => h q (List.mem_cons_of_mem p hq)
    cases p with
    | char c =>
      obtain ⟨a, b, h1, h2⟩ := ih hr (pend ++ [c]) ret
      refine ⟨a, b, ?_, by rw [h2]; simp [CommentPiece.meaning]⟩
      rw [← h1]
      exact commentLoop_char e c hp pend ret _
    | mac c =>
      obtain ⟨a, b, h1, h2⟩ := ih hr [] (ret ++ pend ++ CommentPiece.meaning e ([34] ++ e.prog ++ [34] ++ argsLoop e.args) (.mac c))
      refine ⟨a, b, ?_, by rw [h2]; simp [List.flatMap_cons]⟩
      rw [← h1]
      refine (commentLoop_mac e c pend ret _).trans ?_
      rw [macro_known e c hp]
      rfl

/-- C58: a comment is expanded as the manual says: characters are kept, %c is the command line (see below), %d the date, %u the user, %g the group, %h the host, %% the character %. -/
theorem C58_expand (e : CommentEnv) (us : List ArgUnit) (hu : ∀ u ∈ us, u.Proper) (hargs : e.args = us.flatMap ArgUnit.args) (ps : List CommentPiece) (hp : ∀ p ∈ ps, p.Known) :
    expandComment e (ps.flatMap CommentPiece.text) = .ok (ps.flatMap (CommentPiece.meaning e (quotedLine e.prog (us.flatMap ArgUnit.plain)))) := by
  obtain ⟨a, b, h1, h2⟩ := commentLoop_pieces e [] ps hp [] []
  rw [List.append_nil] at h1
  unfold expandComment
  rw [h1]
  unfold commentLoop
  rw [h2, hargs, argsLoop_units us hu]
  rfl

/-- C58: what follows an option about encryption, given as a separate argument, has no effect on the comment stored in the archive, whatever the comment is. -/
theorem C58_secret_partial (e : CommentEnv) (us vs : List ArgUnit) (hu : ∀ u ∈ us, u.Proper) (hv : ∀ u ∈ vs, u.Proper) (hsame : us.flatMap ArgUnit.plain = vs.flatMap ArgUnit.plain) (s : Bytes) :
    expandComment { e with args := us.flatMap ArgUnit.args } s = expandComment { e with args := vs.flatMap ArgUnit.args } s := by
  have hm : ∀ c, commentMacro { e with args := us.flatMap ArgUnit.args } c = commentMacro { e with args := vs.flatMap ArgUnit.args } c := by
    intro c; unfold commentMacro; dsimp only; rw [argsLoop_units us hu, argsLoop_units vs hv, hsame]
  have : ∀ (n : Nat) (s pend ret : Bytes), s.length ≤ n → commentLoop { e with args := us.flatMap ArgUnit.args } pend ret s = commentLoop { e with args := vs.flatMap ArgUnit.args } pend ret s := by
    intro n
    induction n with
    | zero => intro s pend ret h; rw [List.length_eq_zero_iff.1 (Nat.le_zero.1 h)]; rfl
    | succ n ih =>
      intro s pend ret h
      match s with
      | [] => rfl
      | [x] => rfl
      | x :: c :: l =>
        simp only [List.length_cons] at h
        by_cases hx : x = 37
        · subst hx
          rw [commentLoop_mac, commentLoop_mac, hm]
          cases hr : commentMacro { e with args := vs.flatMap ArgUnit.args } c with
          | error e => rfl
          | ok t => exact ih l _ _ (by omega)
        · rw [commentLoop_char _ x hx, commentLoop_char _ x hx]
          exact ih (c :: l) _ _ (by simp only [List.length_cons]; omega)
  exact this s.length s [] [] (Nat.le_refl _)

/-- C58: an unknown macro is refused. -/
theorem C58_refused (e : CommentEnv) (ps : List CommentPiece) (hp : ∀ p ∈ ps, p.Known) (c : UInt8) (hc : ¬ CommentPiece.Known (.mac c)) (rest : Bytes) :
    expandComment e (ps.flatMap CommentPiece.text ++ 37 :: c :: rest) = .error .range := by
  obtain ⟨a, b, h1, -⟩ := commentLoop_pieces e (37 :: c :: rest) ps hp [] []
  unfold expandComment
  rw [h1, commentLoop_mac, macro_unknown e c hc]
  rfl
/-- C58, finding: a comment that ends with a lone '%' moves the iterator over the end of the text (undefined behaviour). -/
theorem C58_lone_counterexample (e : CommentEnv) (ps : List CommentPiece) (hp : ∀ p ∈ ps, p.Known) : expandComment e (ps.flatMap CommentPiece.text ++ [37]) = .error .ub := by
  obtain ⟨a, b, h1, -⟩ := commentLoop_pieces e [37] ps hp [] []
  unfold expandComment
  rw [h1]
  rfl
/-- C58: the three theorems above cover every comment. -/
theorem C58_every (s : Bytes) : (∃ ps : List CommentPiece, (∀ p ∈ ps, p.Known) ∧ s = ps.flatMap CommentPiece.text) ∨
    (∃ ps : List CommentPiece, (∀ p ∈ ps, p.Known) ∧ ∃ c rest, ¬ CommentPiece.Known (.mac c) ∧ s = ps.flatMap CommentPiece.text ++ 37 :: c :: rest) ∨
    ∃ ps : List CommentPiece, (∀ p ∈ ps, p.Known) ∧ s = ps.flatMap CommentPiece.text ++ [37] := by
  let Q : Bytes → Prop := fun s => (∃ ps : List CommentPiece, (∀ p ∈ ps, p.Known) ∧ s = ps.flatMap CommentPiece.text) ∨
    (∃ ps : List CommentPiece, (∀ p ∈ ps, p.Known) ∧ ∃ c rest, ¬ CommentPiece.Known (.mac c) ∧ s = ps.flatMap CommentPiece.text ++ 37 :: c :: rest) ∨
    ∃ ps : List CommentPiece, (∀ p ∈ ps, p.Known) ∧ s = ps.flatMap CommentPiece.text ++ [37]
  have cons : ∀ (p : CommentPiece) (l : Bytes), p.Known → Q l → Q (p.text ++ l) := by
    intro p l hp h
    have hk : ∀ ps : List CommentPiece, (∀ q ∈ ps, q.Known) → ∀ q ∈ p :: ps, q.Known := by
      intro ps h q hq
      rcases List.mem_cons.1 hq with rfl | hq
      · exact hp
      · exact h q hq
    rcases h with ⟨ps, h1, h2⟩ | ⟨ps, h1, c, r, h2, h3⟩ | ⟨ps, h1, h2⟩
    · exact Or.inl ⟨p :: ps, hk ps h1, by rw [h2]; rfl⟩
    · exact Or.inr (Or.inl ⟨p :: ps, hk ps h1, c, r, h2, by rw [h3, List.flatMap_cons, List.append_assoc]⟩)
    · exact Or.inr (Or.inr ⟨p :: ps, hk ps h1, by rw [h2, List.flatMap_cons, List.append_assoc]⟩)
  have : ∀ (n : Nat) (s : Bytes), s.length ≤ n → Q s := fun n => by
    induction n with
    | zero => exact fun s h => Or.inl ⟨[], by simp, List.length_eq_zero_iff.1 (Nat.le_zero.1 h)⟩
    | succ n ih =>
      intro s h
      match s, h with
      | [], _ => exact Or.inl ⟨[], by simp, rfl⟩
      | [x], _ =>
        by_cases hx : x = 37
        · subst hx; exact Or.inr (Or.inr ⟨[], by simp, rfl⟩)
        · exact Or.inl ⟨[.char x], by simpa [CommentPiece.Known] using hx, rfl⟩
      | x :: c :: l, h =>
        simp only [List.length_cons] at h
        by_cases hx : x = 37
        · subst hx
          by_cases hc : CommentPiece.Known (.mac c)
          · exact cons (.mac c) l hc (ih l (by omega))
          · exact Or.inr (Or.inl ⟨[], by simp, c, l, hc, rfl⟩)
        · exact cons (.char x) (c :: l) hx (ih (c :: l) (by simp only [List.length_cons]; omega))
  exact this s.length s (Nat.le_refl _)

private def uEnv (args : List String) : CommentEnv := ⟨"dar".toUTF8.toList, args.map (fun s => s.toUTF8.toList), "now".toUTF8.toList, "root".toUTF8.toList, "adm".toUTF8.toList, "box".toUTF8.toList⟩
private def shows (args : List String) (comment result : String) : Bool :=
  match expandComment (uEnv args) comment.toUTF8.toList with
  | .ok r => decide (r = result.toUTF8.toList)
  | .error _ => false
private theorem shows_out {args : List String} {c r : String} (h : shows args c r = true) : expandComment (uEnv args) c.toUTF8.toList = .ok r.toUTF8.toList := by
  unfold shows at h
  cases hr : expandComment (uEnv args) c.toUTF8.toList with
  | error e => rw [hr] at h; cases h
  | ok t => rw [hr] at h; rw [of_decide_eq_true h]

/-- a case meeting the hypotheses of `C58_expand` and `C58_secret_partial`: the passphrase given after -K does not appear -/
theorem C58_example : expandComment (uEnv ["-c", "arch", "-K", "aes:secret", "-R", "/"]) "%h: %c, 100%%".toUTF8.toList = .ok "box: \"dar\" \"-c\" \"arch\" \"-R\" \"/\", 100%".toUTF8.toList ∧
    (∀ u ∈ [ArgUnit.word "-c".toUTF8.toList, .word "arch".toUTF8.toList, .secret "-K".toUTF8.toList "aes:secret".toUTF8.toList, .word "-R".toUTF8.toList, .word "/".toUTF8.toList], u.Proper) := by
  refine ⟨shows_out (by decide +kernel), fun u hu => ?_⟩
  simp only [List.mem_cons, List.not_mem_nil, or_false] at hu
  rcases hu with rfl | rfl | rfl | rfl | rfl <;> (unfold ArgUnit.Proper; decide +kernel)

/-- Finding: the passphrase goes in clear in the archive when it is given in the same argument as the option, with an equal sign, or with the option --key-ref: these are forms that dar accepts
(src/dar_suite/command_line.cpp:75, 2764-2766), and the manual says that any option related to encryption is removed. -/
theorem C58_leak_counterexample :
    expandComment (uEnv ["-Kaes:secret"]) "%c".toUTF8.toList = .ok "\"dar\" \"-Kaes:secret\"".toUTF8.toList ∧
    expandComment (uEnv ["--key=aes:secret"]) "%c".toUTF8.toList = .ok "\"dar\" \"--key=aes:secret\"".toUTF8.toList ∧
    expandComment (uEnv ["--key-ref", "aes:secret"]) "%c".toUTF8.toList = .ok "\"dar\" \"--key-ref\" \"aes:secret\"".toUTF8.toList :=
  ⟨shows_out (by decide +kernel), shows_out (by decide +kernel), shows_out (by decide +kernel)⟩

end Dar
