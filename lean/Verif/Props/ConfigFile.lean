import Verif.Lemmas.ConfigFile3
/- C63: configuration files mean what the manual says: comments, conditional parts, words, inclusions. -/
namespace Dar

/-! ### comments -/

/-- C63: every text is made of lines and of what follows the last end of line, so what follows is about every file -/
theorem C63_lines (text : Bytes) : ∃ ls last, IsText text ls last := text_lines text
/-- C63: the lines whose first visible character is '#' are removed, the other ones remain, in order and unchanged (see withoutComments for the blank lines) -/
theorem C63_comments {text : Bytes} {ls : List Bytes} {last : Bytes} (h : IsText text ls last) :
    ∃ ps, ncPieces text = .ok ps ∧ PiecesFrom text.length 0 ps ∧ hideView text ps = withoutComments true [] (ls ++ [last]) := ncPieces_view h

theorem without_mem_aux (ls : List Bytes) : ∀ (fresh : Bool) (pend : Bytes) (a : UInt8), isBlank a = false → a ≠ 10 → (∀ x ∈ pend, isBlank x = true ∨ x = 10) →
    (∀ l ∈ ls, (10 : UInt8) ∉ l.dropLast) →
    (a ∈ withoutComments fresh pend ls → ∃ l ∈ ls, lineKind l = .command ∧ a ∈ l) := by
  induction ls with
  | nil => intro _ _ a _ _ _ _ h; simp [withoutComments] at h
  | cons l ls ih =>
    intro fresh pend a hb h10 hp hl h
    have hl' : ∀ x ∈ ls, (10 : UInt8) ∉ x.dropLast := fun x hx => hl x (by simp [hx])
    unfold withoutComments at h
    cases hk : lineKind l with
    | blank =>
      rw [hk] at h
      have hp' : ∀ x ∈ pend ++ l, isBlank x = true ∨ x = 10 := by
        intro x hx
        rcases List.mem_append.mp hx with hx | hx
        · exact hp x hx
        · obtain ⟨bl, r, hr, hbl, hdw⟩ := lineKind_split l
          unfold lineKind at hk
          rw [hdw] at hk
          rw [hr] at hx
          rcases List.mem_append.mp hx with hx | hx
          · exact Or.inl (hbl x hx)
          · cases r with
            | nil => cases hx
            | cons c r =>
              dsimp only at hk
              by_cases hc : c = 10
              · -- the end of the line is its last character
                have : r = [] := by
                  by_contra hne
                  have : (10 : UInt8) ∈ l.dropLast := by
                    rw [hr, List.dropLast_append_of_ne_nil (by simp), hc]
                    cases r with
                    | nil => exact absurd rfl hne
                    | cons y z => simp
                  exact hl l (by simp) this
                subst this
                simp at hx
                exact Or.inr (by rw [hx, hc])
              · rw [if_neg hc] at hk
                by_cases hc2 : c = 35
                · rw [if_pos hc2] at hk; cases hk
                · rw [if_neg hc2] at hk; cases hk
      obtain ⟨m, hm, hr⟩ := ih fresh (pend ++ l) a hb h10 hp' hl' h
      exact ⟨m, by simp [hm], hr⟩
    | comment =>
      rw [hk] at h
      obtain ⟨m, hm, hr⟩ := ih true [] a hb h10 (by simp) hl' h
      exact ⟨m, by simp [hm], hr⟩
    | command =>
      rw [hk] at h
      dsimp only at h
      rcases List.mem_append.mp h with h | h
      · refine ⟨l, by simp, hk, ?_⟩
        cases fresh with
        | true => exact (List.dropWhile_sublist _).mem h
        | false =>
          rcases List.mem_append.mp h with h | h
          · rcases hp a h with h' | h'
            · rw [hb] at h'; cases h'
            · exact absurd h' h10
          · exact h
      · obtain ⟨m, hm, hr⟩ := ih false [] a hb h10 (by simp) hl' h
        exact ⟨m, by simp [hm], hr⟩
/-- C63: nothing visible comes from a comment: each visible character that is kept is one of a line that is not a comment -/
theorem C63_comments_hidden {text : Bytes} {ls : List Bytes} {last : Bytes} (h : IsText text ls last) {ps : List Morceau} (hps : ncPieces text = .ok ps) {a : UInt8}
    (ha : a ∈ hideView text ps) (hv : a ≠ 32 ∧ a ≠ 9 ∧ a ≠ 10) : ∃ l ∈ ls ++ [last], lineKind l = .command ∧ a ∈ l := by
  obtain ⟨ps', h1, -, h3⟩ := ncPieces_view h
  rw [hps] at h1
  cases h1
  rw [h3] at ha
  refine without_mem_aux _ true [] a ?_ hv.2.2 (by simp) ?_ ha
  · simp [isBlank, hv.1, hv.2.1]
  · intro l hl
    rcases List.mem_append.mp hl with hl | hl
    · obtain ⟨b, hb, hno⟩ := h.lines l hl
      rw [hb]; simpa using hno
    · simp at hl
      subst hl
      exact fun hm => h.last ((List.dropLast_sublist _).mem hm)
theorem without_keeps_aux (ls : List Bytes) : ∀ (fresh : Bool) (pend l : Bytes), l ∈ ls → lineKind l = .command → l.dropWhile isBlank <:+: withoutComments fresh pend ls := by
  induction ls with
  | nil => intro _ _ l h; cases h
  | cons x ls ih =>
    intro fresh pend l h hk
    unfold withoutComments
    rcases List.mem_cons.mp h with rfl | h
    · rw [hk]
      dsimp only
      cases fresh with
      | true => exact ⟨[], withoutComments false [] ls, by simp⟩
      | false => exact ⟨pend ++ l.takeWhile isBlank, withoutComments false [] ls, by
          rw [List.append_assoc pend, List.takeWhile_append_dropWhile]; simp⟩
    · cases lineKind x with
      | blank => exact ih _ _ l h hk
      | comment => exact ih _ _ l h hk
      | command =>
        obtain ⟨u, v, huv⟩ := ih false [] l h hk
        exact ⟨(if fresh then x.dropWhile isBlank else pend ++ x) ++ u, v, by dsimp only; rw [← huv]; simp⟩
/-- C63: each line that is not a comment is kept, whole -/
theorem C63_commands_kept {text : Bytes} {ls : List Bytes} {last : Bytes} (h : IsText text ls last) {ps : List Morceau} (hps : ncPieces text = .ok ps) {l : Bytes}
    (hl : l ∈ ls ++ [last]) (hk : lineKind l = .command) : l.dropWhile isBlank <:+: hideView text ps := by
  obtain ⟨ps', h1, -, h3⟩ := ncPieces_view h
  rw [hps] at h1
  cases h1
  rw [h3]
  exact without_keeps_aux _ _ _ l hl hk

/-! ### conditional syntax -/

/-- C63: what is kept is what precedes the first target, and what follows each of the targets of the command up to the next target; the targets met are known -/
theorem C63_conditions (targets : List Bytes) {text : Bytes} {ls : List Bytes} {last : Bytes} (h : IsText text ls last) :
    ∃ ps seen, cfPieces targets text = .ok (ps, seen) ∧ PiecesFrom text.length 0 ps ∧ hideView text ps = keptLines targets true last ls ∧
      ∀ t, t ∈ seen ↔ t ∈ targets ∧ ∃ l ∈ ls, targetOf l.dropLast = some t := cfPieces_view targets h
/-- C63: a word followed by ':' is a target, whatever blanks are around -/
theorem C63_target_line (w sp : Bytes) (c : UInt8) (hc : isLetter c = true) (hw : ∀ a ∈ w, isLetter a = true ∨ (48 ≤ a ∧ a ≤ 57) ∨ a = 95 ∨ a = 45) (hs : ∀ a ∈ sp, a = 32 ∨ a = 9 ∨ a = 13)
    (bl : Bytes) (hb : ∀ a ∈ bl, a = 32 ∨ a = 9) : targetOf (bl ++ c :: (w ++ 58 :: sp)) = some (c :: w) := by
  replace hw : ∀ a ∈ w, isWordChar a = true := by
    intro a ha
    have h1 : isWordChar a = isTargetChar a := congrFun isWordChar_spec a
    rw [h1]
    unfold isTargetChar
    rcases hw a ha with h | h | h | h <;> simp [h]
  replace hc : isAlpha c = true := hc
  rw [targetOf_eq]
  have h1 : (bl ++ c :: (w ++ 58 :: sp)).dropWhile isBlank = c :: (w ++ 58 :: sp) := by
    rw [List.dropWhile_append_of_pos (fun a ha => (isBlank_iff a).mpr (hb a ha)), List.dropWhile_cons_of_neg]
    intro h
    exact (alpha_not_blank hc).1 ((isBlank_iff c).mp h)
  rw [h1]
  dsimp only
  rw [if_pos hc]
  have h58 : isWordChar 58 = false := by decide
  unfold targetTail
  have h2 : (w ++ 58 :: sp).dropWhile isWordChar = 58 :: sp := by
    rw [List.dropWhile_append_of_pos hw, List.dropWhile_cons_of_neg (by simp [h58])]
  have h3 : (w ++ 58 :: sp).takeWhile isWordChar = w := by
    rw [List.takeWhile_append_of_pos hw, List.takeWhile_cons_of_neg (by simp [h58])]; simp
  rw [h2, h3]
  show (if _ then _ else _) = _
  rw [if_pos]
  · rfl
  · rw [List.all_eq_true]
    intro a ha
    rcases hs a ha with rfl | rfl | rfl <;> rfl

/-! ### the pieces, as a file -/

/-- C63: read byte after byte, the pieces are the file of their content -/
theorem C63_read_byte {below : Bytes} {ps : List Morceau} (hp : PiecesFrom below.length 0 ps) {h : HidePos} (hh : HideAt ps h) :
    ∃ h', hideRead below ps h 1 = .ok (((hideView below ps).drop (hidePosition ps h)).take 1, h') ∧ HideAt ps h' ∧
      hidePosition ps h' = hidePosition ps h + (((hideView below ps).drop (hidePosition ps h)).take 1).length := hide_read_byte hp hh
/-- C63: a position inside this file is reached exactly, another one is refused and nothing moves -/
theorem C63_skip {below : Bytes} {ps : List Morceau} (hp : PiecesFrom below.length 0 ps) (h : HidePos) (pos : Nat) :
    (pos < (hideView below ps).length → ∃ h', hideSkip ps h pos = .ok (h', true) ∧ HideAt ps h' ∧ hidePosition ps h' = pos) ∧
    ((hideView below ps).length ≤ pos → hideSkip ps h pos = .ok (h, false)) := hide_skip hp h pos
/-- C63: the first position, before anything is read, is the beginning of the file -/
theorem C63_read_start {below : Bytes} {ps : List Morceau} (hp : PiecesFrom below.length 0 ps) : HideAt ps ⟨0, 0⟩ ∧ hidePosition ps ⟨0, 0⟩ = 0 := by
  cases ps with
  | nil => exact ⟨Or.inr ⟨rfl, rfl⟩, rfl⟩
  | cons p ps => exact ⟨Or.inl ⟨p, rfl, hp.2.1⟩, by unfold hidePosition; simp [hp.1]⟩
/-- hide_file::inherited_read adds to the position in a piece all that the call has read so far: a read over several pieces loses bytes.  Here four bytes are read,
"ab" of the first piece and "cd" of the second one; the next byte given is 'g': "ef" is lost.  (dar reads its configuration files byte after byte.) -/
theorem C63_read_pieces_counterexample :
    let ps : List Morceau := [⟨0, 2, 0⟩, ⟨3, 6, 2⟩, ⟨10, 2, 8⟩]
    let below : Bytes := [97, 98, 35, 99, 100, 101, 102, 103, 104, 35, 105, 106]
    PiecesFrom below.length 0 ps ∧ hideView below ps = [97, 98, 99, 100, 101, 102, 103, 104, 105, 106] ∧
      hideRead below ps ⟨0, 0⟩ 4 = .ok ([97, 98, 99, 100], ⟨1, 4⟩) ∧ hideRead below ps ⟨1, 4⟩ 1 = .ok ([103], ⟨1, 5⟩) := by
  refine ⟨⟨rfl, by decide, by decide, rfl, by decide, by decide, rfl, by decide, by decide, trivial⟩, by decide +kernel, by decide +kernel, by decide +kernel⟩

/-! ### words -/

/-- C63: the words of a text -/
theorem C63_words {text : Bytes} {ws : List Bytes} (h : Written text ws) : splitWords text = .ok ws := written_split h
/-- C63: any list of words, of any bytes, can be written (between quotes, each character after a backslash) and is read back -/
theorem C63_words_any (ws : List Bytes) : splitWords (ws.flatMap (fun w => quotedWord w ++ [32])) = .ok ws := written_split (written_all ws)
/-- C63: the words of a text are one list only -/
theorem C63_words_unique {text : Bytes} {ws ws' : List Bytes} (h : Written text ws) (h' : Written text ws') : ws = ws' := by
  have := (written_split h).symm.trans (written_split h')
  cases this; rfl
/-- C63: a text whose last word has an opening quote and no closing one is refused -/
theorem C63_open_quote {text : Bytes} {ws : List Bytes} (h : Written text ws) {q : UInt8} (hq : IsQuote q) {b w : Bytes} (hb : WordBody q b w) : splitWords (text ++ 32 :: q :: b) = .error .range := by
  unfold splitWords
  have e1 : text ++ 32 :: q :: b ++ [32] = (text ++ [32]) ++ (q :: (b ++ [32])) := by simp
  have e2 : ∀ W : List Bytes, wordStep ⟨W, [], [], false⟩ q = ⟨W, [], [q], false⟩ := by
    intro W
    simp [IsQuote] at hq
    rcases hq with rfl | rfl | rfl <;> rfl
  have e3 : ∀ W : List Bytes, wordStep ⟨W, w, [q], false⟩ 32 = ⟨W, w ++ [32], [q], false⟩ := by
    intro W
    simp [IsQuote] at hq
    rcases hq with rfl | rfl | rfl <;> rfl
  dsimp only
  rw [e1, List.foldl_append, written_fold h [], List.foldl_cons, e2, List.foldl_append, word_body hb, List.nil_append, List.nil_append, List.foldl_cons, e3, List.foldl_nil, if_neg (by simp)]
example : splitWords "-R / 'a b".toUTF8.toList = .error .range := by decide +kernel
/-- a tabulation between quotes is lost -/
theorem C63_tab_in_quotes_counterexample : splitWords [34, 97, 9, 98, 34] = .ok [[97, 98]] := by decide +kernel
/-- an end of line between quotes becomes a space -/
theorem C63_newline_in_quotes_counterexample : splitWords [34, 97, 10, 98, 34] = .ok [[97, 32, 98]] := by decide +kernel
/-- a word that begins by a backslash is not ended by the space that follows it: `\a b` is the word `ab` -/
theorem C63_leading_backslash_counterexample : splitWords [92, 97, 32, 98] = .ok [[97, 98]] := by decide +kernel
/-- a word made of one such character, alone or at the end of the text, is lost without an error -/
theorem C63_lost_word_counterexample : splitWords [97, 32, 92, 98] = .ok [[97]] := by decide +kernel

/-! ### the words of a file -/

/-- C63: the words of a file: the comments are removed, then the parts whose target is not one of the command's, then the words are those written -/
theorem C63_file (targets : List Bytes) {text : Bytes} {ls : List Bytes} {last : Bytes} (h : IsText text ls last) {ls2 : List Bytes} {last2 : Bytes}
    (h2 : IsText (withoutComments true [] (ls ++ [last])) ls2 last2) {ws : List Bytes} (hw : Written (keptLines targets true last2 ls2) ws) :
    configWords targets text = .ok ws := by
  obtain ⟨ps, h1, -, h3⟩ := ncPieces_view h
  rw [← h3] at h2
  obtain ⟨qs, seen, g1, -, g3, -⟩ := cfPieces_view targets h2
  have : configWords targets text = (ncPieces text).bind fun ps => (cfPieces targets (hideView text ps)).bind fun r => splitWords (hideView (hideView text ps) r.1) := rfl
  rw [this, h1]
  show (cfPieces targets (hideView text ps)).bind _ = _
  rw [g1]
  show splitWords (hideView (hideView text ps) qs) = _
  rw [g3]
  exact written_split hw
/-- C63: reading a file never fails but on words whose quotes do not balance -/
theorem C63_file_total (targets : List Bytes) (text : Bytes) : (∃ ws, configWords targets text = .ok ws) ∨ configWords targets text = .error .range := by
  obtain ⟨ls, last, h⟩ := text_lines text
  obtain ⟨ps, h1, -, h3⟩ := ncPieces_view h
  obtain ⟨ls2, last2, h2⟩ := text_lines (hideView text ps)
  obtain ⟨qs, seen, g1, -, g3, -⟩ := cfPieces_view targets h2
  have : configWords targets text = (ncPieces text).bind fun ps => (cfPieces targets (hideView text ps)).bind fun r => splitWords (hideView (hideView text ps) r.1) := rfl
  rw [this, h1]
  show (∃ ws, (cfPieces targets (hideView text ps)).bind _ = _) ∨ (cfPieces targets (hideView text ps)).bind _ = _
  rw [g1]
  show (∃ ws, splitWords _ = .ok ws) ∨ splitWords _ = .error .range
  unfold splitWords
  dsimp only
  generalize List.foldl wordStep _ _ = s
  by_cases hq : s.quotes = []
  · rw [if_pos hq]; exact Or.inl ⟨_, rfl⟩
  · rw [if_neg hq]; exact Or.inr rfl

/-- the file
```
# a comment
-R /
create:
 # another
 -s "1 G"
 -z
extract:
 -w
```
for the command `-c` (the targets "create" and "all") gives  -R / -s "1 G" -z ; for `-x` it gives -R / -w -/
theorem C63_file_case :
    configWords ["create".toUTF8.toList, "all".toUTF8.toList] "# a comment\n-R /\ncreate:\n # another\n -s \"1 G\"\n -z\nextract:\n -w\n".toUTF8.toList =
      .ok ["-R".toUTF8.toList, "/".toUTF8.toList, "-s".toUTF8.toList, "1 G".toUTF8.toList, "-z".toUTF8.toList] ∧
    configWords ["extract".toUTF8.toList, "all".toUTF8.toList] "# a comment\n-R /\ncreate:\n # another\n -s \"1 G\"\n -z\nextract:\n -w\n".toUTF8.toList =
      .ok ["-R".toUTF8.toList, "/".toUTF8.toList, "-w".toUTF8.toList] := by
  constructor <;> decide +kernel
/-- a target on the last line of a file that does not end by an end of line is taken for a word of the options -/
theorem C63_last_target_counterexample : configWords ["create".toUTF8.toList] "-z\nextract:".toUTF8.toList = .ok ["-z".toUTF8.toList, "extract:".toUTF8.toList] := by decide +kernel
/-- a line inside a string between quotes is removed if it begins by '#' -/
theorem C63_quoted_comment_counterexample : configWords [] "\"a\n#b\nc\"\n".toUTF8.toList = .ok ["a c".toUTF8.toList] := by decide +kernel

/-! ### inclusions -/

/-- C63: the files that include one another: the options are those of the files, each inclusion replaced by what the file included gives, in order; and the treatment is refused exactly
if there are none, that is when a file cannot be read or includes itself (directly or through others) -/
theorem C63_inclusions {files : Bytes → Option (List ConfOpt)} {names : List Bytes} {opts : List ConfOpt} (hn : NamedIn files names opts) {depth : Nat} (hd : names.length < depth) :
    (∃ ws, inclExpand files depth [] opts = .ok ws ∧ Expands files opts ws) ∨ (inclExpand files depth [] opts = .error .range ∧ ¬ ∃ ws, Expands files opts ws) := by
  have hl : namesLeft names [] < depth := by
    have : namesLeft names [] ≤ names.length := List.length_filter_le _ _
    omega
  rcases incl_ends files names depth opts [] hn hl with ⟨ws, h⟩ | h
  · exact Or.inl ⟨ws, h, incl_sound files depth opts [] ws h⟩
  · refine Or.inr ⟨h, ?_⟩
    rintro ⟨ws, hw⟩
    obtain ⟨n, hn⟩ := expands_height hw
    exact incl_complete files n opts ws hn depth [] (by intro f hf; cases hf) h
theorem C63_inclusions_iff {files : Bytes → Option (List ConfOpt)} {names : List Bytes} {opts : List ConfOpt} (hn : NamedIn files names opts) {depth : Nat} (hd : names.length < depth)
    (ws : List Bytes) : inclExpand files depth [] opts = .ok ws ↔ Expands files opts ws := by
  constructor
  · exact incl_sound files depth opts [] ws
  · intro hw
    rcases C63_inclusions hn hd with ⟨ws', h1, h2⟩ | ⟨-, h2⟩
    · rw [expands_unique hw h2]; exact h1
    · exact absurd ⟨ws, hw⟩ h2
/-- C63: a file that includes itself gives nothing -/
theorem C63_self_inclusion {files : Bytes → Option (List ConfOpt)} {f : Bytes} {a b : List ConfOpt} (hf : files f = some (a ++ .incl f :: b)) :
    ¬ ∃ ws, Expands files [.incl f] ws := by
  rintro ⟨ws, h⟩
  have key : ∀ n l r, ExpandsH files n l r → (.incl f ∈ l) → False := by
    intro n
    induction n using Nat.strongRecOn with
    | ind n ihn =>
      intro l r h
      induction h with
      | nil => intro hm; cases hm
      | opt _ ih => intro hm; exact ih ihn (by simpa using hm)
      | @incl n g opts l r1 r2 hg h1 h2 ih1 ih2 =>
        intro hm
        rcases List.mem_cons.mp hm with hm | hm
        · cases hm
          rw [hf] at hg
          cases hg
          exact ihn n (Nat.lt_succ_self n) _ _ h1 (by simp)
        · exact ih2 ihn hm
  obtain ⟨n, hn⟩ := expands_height h
  exact key n _ _ hn (by simp)
/-- two files, one included twice by the command line, the second one by the first -/
def twoFiles (f : Bytes) : Option (List ConfOpt) := if f = [97] then some [.opt [1], .incl [98], .opt [2]] else if f = [98] then some [.opt [3]] else none
theorem C63_inclusions_case : NamedIn twoFiles [[97], [98]] [.incl [97], .opt [4], .incl [98]] ∧
    inclExpand twoFiles 3 [] [.incl [97], .opt [4], .incl [98]] = .ok [[1], [3], [2], [4], [3]] := by
  refine ⟨⟨?_, ?_⟩, ?_⟩
  · intro f hf
    simp at hf
    rcases hf with rfl | rfl <;> simp
  · intro f l g hf hl hg
    simp at hf
    rcases hf with rfl | rfl
    · simp [twoFiles] at hl
      subst hl
      simp at hg
      simp [hg]
    · simp [twoFiles] at hl
      subst hl
      simp at hg
  · simp [inclExpand, twoFiles]
    rfl

end Dar
