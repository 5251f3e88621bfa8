import Verif.Lemmas.Isolate
namespace Dar

theorem FileB.dropSig_shown (st : SavedStatus) (f : FileB) : (f.dropSig st).shown st = f.shown st := by
  unfold FileB.dropSig FileB.clearSigOnly
  cases hf : f.sig with
  | none => rfl
  | some d =>
    by_cases h0 : d.size = 0
    · simp [h0]
    · by_cases hd : st = .delta
      · simp [h0, hd]
      · simp [h0, hd, FileB.shown]
theorem FileB.dropSig_writable (st : SavedStatus) (f : FileB) (h : f.Writable false st) : (f.dropSig st).Writable false st := by
  unfold FileB.dropSig FileB.clearSigOnly
  cases hf : f.sig with
  | none => exact h
  | some d =>
    by_cases h0 : d.size = 0
    · simpa [h0] using h
    · by_cases hd : st = .delta
      · simpa [h0, hd] using h
      · simp only [ne_eq, h0, not_false_eq_true, if_true, Option.isSome_some, hd, if_false]
        exact ⟨h.hole, (by intro h; cases h), fun h => absurd h hd, h.check, (by intro _ d hd; cases hd)⟩
theorem Node.dropSig_shown (name : Bytes) (n : Node) : n.dropSig.shown name = n.shown name := by
  obtain ⟨nm, st, i, s⟩ := n
  cases s <;> simp [Node.dropSig, Node.shown, Special.dropSig, Special.shown, FileB.dropSig_shown]
theorem Node.dropSig_writable (n : Node) (h : n.Writable false) : n.dropSig.Writable false := by
  obtain ⟨nm, st, i, s⟩ := n
  refine ⟨h.name, h.inode, ?_⟩
  have := h.special
  cases s with
  | file f => exact FileB.dropSig_writable st f this
  | door f => exact FileB.dropSig_writable st f this
  | _ => exact this

mutual
theorem dropSig_shown (stars : Nat → Star) (e : Entry) :
    Entry.shown noSigShown (starsDropSig stars) e.dropSig = Entry.shown noSigShown stars e := by
  cases e with
  | node n =>
    have : n.dropSig.name = n.name := rfl
    simp only [Entry.dropSig, Entry.shown, noSigShown, this, Node.dropSig_shown]
  | dir name st i l => simp only [Entry.dropSig, Entry.shown, dropSigs_shown stars l]
  | detruit name s d => simp only [Entry.dropSig, Entry.shown]
  | mirage name k => simp only [Entry.dropSig, Entry.shown, starsDropSig, Node.dropSig_shown, noSigShown]; rfl
  | ignored name => simp only [Entry.dropSig, Entry.shown]
theorem dropSigs_shown (stars : Nat → Star) (l : List Entry) :
    Entry.shownL noSigShown (starsDropSig stars) (Entry.dropSigs l) = Entry.shownL noSigShown stars l := by
  cases l with
  | nil => simp only [Entry.dropSigs, Entry.shownL]
  | cons e l => simp only [Entry.dropSigs, Entry.shownL, dropSig_shown stars e, dropSigs_shown stars l]
end
mutual
theorem dropSig_links (k : Nat) (e : Entry) : Entry.linksTo k e.dropSig = Entry.linksTo k e := by
  cases e with
  | dir name st i l => simp only [Entry.dropSig, Entry.linksTo, dropSigs_links k l]
  | _ => simp only [Entry.dropSig, Entry.linksTo]
theorem dropSigs_links (k : Nat) (l : List Entry) : Entry.linksToL k (Entry.dropSigs l) = Entry.linksToL k l := by
  cases l with
  | nil => simp only [Entry.dropSigs]
  | cons e l => simp only [Entry.dropSigs, Entry.linksToL, dropSig_links k e, dropSigs_links k l]
end
mutual
theorem dropSig_writable (stars : Nat → Star) (e : Entry) (h : Entry.Writable stars e) : Entry.Writable (starsDropSig stars) e.dropSig := by
  cases e with
  | node n => simp only [Entry.dropSig, Entry.Writable] at h ⊢; exact Node.dropSig_writable n h
  | dir name st i l =>
    simp only [Entry.dropSig, Entry.Writable] at h ⊢
    exact ⟨h.1, h.2.1, dropSigs_writable stars l h.2.2⟩
  | detruit name s d => simpa only [Entry.dropSig, Entry.Writable] using h
  | mirage name k => simp only [Entry.dropSig, Entry.Writable] at h ⊢; exact ⟨h.1, Node.dropSig_writable _ h.2⟩
  | ignored name => simp only [Entry.Writable] at h
theorem dropSigs_writable (stars : Nat → Star) (l : List Entry) (h : Entry.WritableList stars l) : Entry.WritableList (starsDropSig stars) (Entry.dropSigs l) := by
  cases l with
  | nil => simp only [Entry.dropSigs, Entry.WritableList]
  | cons e l =>
    cases e with
    | ignored name =>
      simp only [Entry.dropSigs, Entry.dropSig, Entry.WritableList] at h ⊢
      exact dropSigs_writable stars l h
    | _ =>
      simp only [Entry.WritableList] at h
      have a := dropSig_writable stars _ h.1
      have b := dropSigs_writable stars l h.2
      simp only [Entry.dropSigs]
      simp only [Entry.dropSig] at a ⊢
      simp only [Entry.WritableList]
      exact ⟨a, b⟩
end

end Dar
