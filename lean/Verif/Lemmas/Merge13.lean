import Verif.Lemmas.Merge12
/- The decremental mode, path by path. -/
namespace Dar

section
variable {o : MgOpts} {t1 t2 : Nat → Obj}

/-- the directories of both archives -/
theorem path_dir : ∀ (p : List Bytes) (l1 l2 r : List BEntry) (dt : DateT) (b : List Bytes) (x1 x2 : Obj) (c1 c2 : List BEntry), MergedB o t1 t2 b dt l1 l2 r →
    treeAt l1 p = some (.dir x1 c1) → treeAt l2 p = some (.dir x2 c2) →
    (∀ q s, p = q ++ s → q ≠ [] → ∀ e1 e2, treeAt l1 q = some e1 → treeAt l2 q = some e2 → ∀ d a, Decided o t1 t2 (b ++ q) e1 e2 d a → d ≠ .remove) →
    ∃ z c, treeAt r p = some (.dir z c) ∧ MergedB o t1 t2 (b ++ p) x2.ino.mtime c1 c2 c
  | [], _, _, _, _, _, _, _, _, _ => fun _ h => by cases h
  | n :: p, l1, l2, r, dt, b, x1, x2, c1, c2 => fun hm h1 h2 hd => by
    have step : ∀ y1 y2 k1 k2, findChild l1 n = some (.dir y1 k1) → findChild l2 n = some (.dir y2 k2) → ∃ z c, findChild r n = some (.dir z c) ∧
        MergedB o t1 t2 (b ++ [n]) y2.ino.mtime k1 k2 c := by
      intro y1 y2 k1 k2 g1 g2
      obtain ⟨d, a, hdec, hkt, _, hask⟩ := (hm.here n).conflict _ _ g1 g2 rfl rfl
      obtain ⟨e', he', hhead⟩ := hkt (keeps_or_takes (hd [n] p rfl (by simp) _ _ g1 g2 d a hdec) hask)
      obtain ⟨z, c, rfl⟩ := head_dirs hhead
      exact ⟨z, c, he', hm.below g1 g2 he'⟩
    cases p with
    | nil => exact step x1 x2 c1 c2 h1 h2
    | cons m p =>
      obtain ⟨y1, k1, g1, k1'⟩ := treeAt_inside h1
      obtain ⟨y2, k2, g2, k2'⟩ := treeAt_inside h2
      obtain ⟨z, c, g3, hm'⟩ := step _ _ _ _ g1 g2
      rw [treeAt_cons g3 (by simp)]
      obtain ⟨z', c', e1, e2⟩ := path_dir (m :: p) k1 k2 c _ _ x1 x2 c1 c2 hm' k1' k2' (by
        intro q s hq hq0 e1' e2' q1 q2 d' a' hdd
        refine hd (n :: q) s (by rw [hq]; rfl) (by simp) e1' e2' (by rw [treeAt_cons g1 hq0]; exact q1) (by rw [treeAt_cons g2 hq0]; exact q2) d' a' ?_
        simpa [List.append_assoc] using hdd)
      refine ⟨z', c', e1, ?_⟩
      simpa [List.append_assoc] using e2
end

mutual
theorem select_congr {o o' : MgOpts} (h1 : o'.subtree = o.subtree) (h2 : o'.filter = o.filter) (h3 : o'.emptyDir = o.emptyDir) (p : List Bytes) (e : BEntry) :
    e.select o' p = e.select o p := by
  match e with
  | .dir x c => rw [BEntry.select, BEntry.select, h1, h3, selectL_congr h1 h2 h3]
  | .node x => simp only [BEntry.select, h1, h2]
  | .mirage n k => simp only [BEntry.select, h1, h2]
  | .detruit n k d => simp only [BEntry.select, h1, h2]
  | .ignored n => simp only [BEntry.select, h1, h2]
  | .ignoredDir x => simp only [BEntry.select, h1, h2]
theorem selectL_congr {o o' : MgOpts} (h1 : o'.subtree = o.subtree) (h2 : o'.filter = o.filter) (h3 : o'.emptyDir = o.emptyDir) (p : List Bytes) (l : List BEntry) :
    BEntry.selectL o' p l = BEntry.selectL o p l := by
  match l with
  | [] => rw [BEntry.selectL, BEntry.selectL]
  | e :: l => rw [BEntry.selectL, BEntry.selectL, select_congr h1 h2 h3, selectL_congr h1 h2 h3]
end

mutual
theorem select_all {o : MgOpts} (h1 : ∀ p, o.subtree p = true) (h2 : ∀ n, o.filter n = true) (p : List Bytes) (e : BEntry) : e.select o p = [e] := by
  match e with
  | .dir x c => rw [BEntry.select, if_pos (h1 _), selectL_all h1 h2]
  | .node x => simp [BEntry.select, h1, h2]
  | .mirage n k => simp [BEntry.select, h1, h2]
  | .detruit n k d => simp [BEntry.select, h1, h2]
  | .ignored n => simp [BEntry.select, h1, h2]
  | .ignoredDir x => simp [BEntry.select, h1, h2]
theorem selectL_all {o : MgOpts} (h1 : ∀ p, o.subtree p = true) (h2 : ∀ n, o.filter n = true) (p : List Bytes) (l : List BEntry) : BEntry.selectL o p l = l := by
  match l with
  | [] => rw [BEntry.selectL]
  | e :: l => rw [BEntry.selectL, select_all h1 h2, selectL_all h1 h2]; rfl
end

end Dar
