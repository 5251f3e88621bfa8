import Verif.Spec.Hook
/- The commands run are those due. -/
namespace Dar

theorem ok_bind {α β : Type} (a : α) (f : α → Res β) : (Except.ok a : Res α).bind f = f a := rfl
theorem semAround_eq (cov : List Bytes → Bool) (s : SemSt) (k : HkKind) (h : HookFor) (mid : List HkEv) :
    semAround cov s k h mid = (semRaise cov s k h true).bind fun r => .ok ((semLower r.1).1, r.2 ++ mid ++ (semLower r.1).2) := rfl
/-! ### inside a covered directory -/

theorem around_inside {cov : List Bytes → Bool} {s : SemSt} (hs : 2 ≤ s.count) (h : HookFor) (mid : List HkEv) : semAround cov s .other h mid = .ok (s, mid) := by
  rw [semAround_eq]
  unfold semRaise
  rw [if_neg (by omega), if_pos (by omega)]
  show Except.ok _ = _
  unfold semLower
  rw [if_neg (show ¬ s.count = 1 by omega)]
  simp
theorem raise_inside {cov : List Bytes → Bool} {s : SemSt} (hs : 2 ≤ s.count) (h : HookFor) (b : Bool) : semRaise cov s .other h b = .ok (s, []) := by
  unfold semRaise
  rw [if_neg (by omega), if_pos (by omega)]
theorem raiseDir_inside {cov : List Bytes → Bool} {s : SemSt} (hs : 2 ≤ s.count) (h : HookFor) (b : Bool) : semRaise cov s .dir h b = .ok ({ s with count := s.count + 1 }, []) := by
  unfold semRaise
  rw [if_neg (by omega), if_pos (by omega)]
theorem aroundDir_inside {cov : List Bytes → Bool} {s : SemSt} (hs : 2 ≤ s.count) (h : HookFor) : semAround cov s .dir h [] = .ok ({ s with count := s.count + 1 }, []) := by
  rw [semAround_eq, raiseDir_inside hs]
  show Except.ok _ = _
  unfold semLower
  rw [if_neg (show ¬ s.count + 1 = 1 by omega)]
  simp
/-- the end of a directory that is inside another one -/
theorem eod_inside {cov : List Bytes → Bool} {s : SemSt} (hs : 3 ≤ s.count) (h : HookFor) : hookEod cov h s = .ok ({ s with count := s.count - 1 }, []) := by
  unfold hookEod
  rw [semAround_eq]
  unfold semRaise
  rw [if_neg (by omega), if_pos (by omega)]
  show Except.ok _ = _
  unfold semLower
  rw [if_neg (show ¬ s.count - 1 = 1 by omega)]
  simp
/-- the end of the covered directory -/
theorem eod_last {cov : List Bytes → Bool} {s : SemSt} (hs : s.count = 2) (h : HookFor) : hookEod cov h s = .ok ({ s with count := 0 }, [.stop s.hook]) := by
  unfold hookEod
  rw [semAround_eq]
  unfold semRaise
  rw [if_neg (by omega), if_pos (by omega)]
  show Except.ok _ = _
  unfold semLower
  rw [if_pos (show s.count - 1 = 1 by omega)]
  simp
theorem passes_inside {cov : List Bytes → Bool} {s : SemSt} (hs : 2 ≤ s.count) (h : HookFor) (n : Nat) : filePasses cov h n s = .ok (s, savedFile false h n) := by
  induction n with
  | zero => rw [filePasses, around_inside hs]; rfl
  | succ n ih =>
    rw [filePasses, around_inside hs]
    show (filePasses cov h n s).bind _ = _
    rw [ih]; rfl
theorem walk_dir_eq (cov : List Bytes → Bool) (p : List Bytes) (s : SemSt) (n : Bytes) (u g : Nat) (act : DirAct) (ch : List HkTree) :
    hookWalk cov p s (.dir n u g act ch) = (hookDir cov ⟨p ++ [n], n, u, g, 100⟩ s act).bind fun r =>
      if r.2.2 then (hookWalks cov (p ++ [n]) r.1 ch).bind fun r1 => (hookEod cov ⟨p ++ [n], n, u, g, 122⟩ r1.1).bind fun r2 => .ok (r2.1, r.2.1 ++ r1.2 ++ r2.2)
      else .ok (r.1, r.2.1) := by rw [hookWalk]; rfl
theorem walks_cons (cov : List Bytes → Bool) (p : List Bytes) (s : SemSt) (e : HkTree) (l : List HkTree) :
    hookWalks cov p s (e :: l) = (hookWalk cov p s e).bind fun r => (hookWalks cov p r.1 l).bind fun r' => .ok (r'.1, r.2 ++ r'.2) := by rw [hookWalks]; rfl
mutual
theorem walk_inside {cov : List Bytes → Bool} (t : HkTree) (p : List Bytes) (s : SemSt) (hs : 2 ≤ s.count) (hc : HkClean cov p true t) :
    hookWalk cov p s t = .ok (s, hooksDue cov p true t) := by
  cases t with
  | file n u g c act =>
    rw [hookWalk]
    cases act with
    | excluded => rw [hookFile, hooksDue, raise_inside hs] <;> simp
    | known => rw [hookFile, hooksDue] <;> simp
    | unchanged => rw [hookFile, hooksDue, raise_inside hs] <;> simp
    | data k => rw [hookFile, hooksDue, passes_inside hs]; simp
    | noData => rw [hookFile, hooksDue, around_inside hs]; simp
    | failed => rw [hookFile, hooksDue] <;> simp
  | dir n u g act ch =>
    rw [walk_dir_eq]
    cases act with
    | excluded => rw [HkClean] at hc; cases hc
    | failedAfter => rw [HkClean] at hc; cases hc.1
    | failedBefore => rw [hooksDue] <;> first | rfl | simp
    | unchanged =>
      rw [HkClean] at hc
      have h1 : hookDir cov ⟨p ++ [n], n, u, g, 100⟩ s .unchanged = .ok ({ s with count := s.count + 1 }, [], true) := by
        rw [hookDir, raiseDir_inside hs]; rfl
      rw [h1]
      show ((hookWalks cov (p ++ [n]) { s with count := s.count + 1 } ch).bind _) = _
      rw [walks_inside ch (p ++ [n]) _ (by dsimp only; omega) hc]
      show ((hookEod cov _ { s with count := s.count + 1 }).bind _) = _
      rw [eod_inside (by dsimp only; omega), hooksDue]
      show Except.ok _ = _
      simp
    | saved =>
      rw [HkClean] at hc
      have h1 : hookDir cov ⟨p ++ [n], n, u, g, 100⟩ s .saved = .ok ({ s with count := s.count + 1 }, [], true) := by
        rw [hookDir, aroundDir_inside hs]; rfl
      rw [h1]
      show ((hookWalks cov (p ++ [n]) { s with count := s.count + 1 } ch).bind _) = _
      rw [walks_inside ch (p ++ [n]) _ (by dsimp only; omega) (by simpa using hc)]
      show ((hookEod cov _ { s with count := s.count + 1 }).bind _) = _
      rw [eod_inside (by dsimp only; omega), hooksDue]
      show Except.ok _ = _
      simp
theorem walks_inside {cov : List Bytes → Bool} (l : List HkTree) (p : List Bytes) (s : SemSt) (hs : 2 ≤ s.count) (hc : ∀ e ∈ l, HkClean cov p true e) :
    hookWalks cov p s l = .ok (s, hooksDueAll cov p true l) := by
  cases l with
  | nil => rw [hookWalks, hooksDueAll]
  | cons e l =>
    rw [walks_cons, walk_inside e p s hs (hc e (by simp))]
    show (hookWalks cov p s l).bind _ = _
    rw [walks_inside l p s hs (fun x hx => hc x (by simp [hx])), hooksDueAll]
    rfl
end

/-! ### outside -/

theorem raise_outside {cov : List Bytes → Bool} {s : SemSt} (hs : s.count = 0) {k : HkKind} (h : HookFor) : semRaise cov s k h false = .ok (s, []) := by
  unfold semRaise
  rw [if_neg (by omega), if_neg (by omega)]
  cases k <;> simp
theorem around_outside {cov : List Bytes → Bool} {s : SemSt} (hs : s.count = 0) (h : HookFor) (mid : List HkEv) :
    ∃ s', semAround cov s .other h mid = .ok (s', if cov h.path then [.start h] ++ mid ++ [.stop h] else mid) ∧ s'.count = 0 := by
  rw [semAround_eq]
  unfold semRaise
  rw [if_neg (by omega), if_neg (by omega)]
  cases hc : cov h.path with
  | true => exact ⟨⟨0, h⟩, rfl, rfl⟩
  | false =>
    refine ⟨s, ?_, hs⟩
    show Except.ok _ = _
    unfold semLower
    rw [if_neg (show ¬ s.count = 1 by omega)]
    simp
theorem once_eq (b : Bool) (h : HookFor) : (if b then [HkEv.start h] ++ [.save h.path] ++ [.stop h] else [.save h.path]) = savedOnce b h := by cases b <;> rfl
theorem passes_outside {cov : List Bytes → Bool} (h : HookFor) (n : Nat) : ∀ {s : SemSt}, s.count = 0 → ∃ s', filePasses cov h n s = .ok (s', savedFile (cov h.path) h n) ∧ s'.count = 0 := by
  induction n with
  | zero =>
    intro s hs
    obtain ⟨s', h1, h2⟩ := around_outside (cov := cov) hs h [.save h.path]
    rw [once_eq] at h1
    exact ⟨s', (by rw [filePasses, h1]; rfl), h2⟩
  | succ n ih =>
    intro s hs
    obtain ⟨s', h1, h2⟩ := around_outside (cov := cov) hs h [.save h.path]
    rw [once_eq] at h1
    obtain ⟨s'', h3, h4⟩ := ih h2
    refine ⟨s'', ?_, h4⟩
    rw [filePasses, h1]
    show (filePasses cov h n s').bind _ = _
    rw [h3]
    rfl
theorem eod_outside {cov : List Bytes → Bool} {s : SemSt} (hs : s.count = 0) (h : HookFor) : hookEod cov h s = .ok (s, []) := by
  unfold hookEod
  rw [semAround_eq]
  unfold semRaise
  rw [if_neg (by omega), if_neg (by omega)]
  show Except.ok _ = _
  unfold semLower
  rw [if_neg (show ¬ s.count = 1 by omega)]
  simp
theorem aroundDir_outside {cov : List Bytes → Bool} {s : SemSt} (hs : s.count = 0) (h : HookFor) :
    semAround cov s .dir h [] = if cov h.path then .ok (⟨2, h⟩, [.start h]) else .ok (s, []) := by
  rw [semAround_eq]
  unfold semRaise
  rw [if_neg (by omega), if_neg (by omega)]
  cases hc : cov h.path with
  | true => rfl
  | false =>
    show Except.ok _ = _
    unfold semLower
    rw [if_neg (show ¬ s.count = 1 by omega)]
    simp
mutual
theorem walk_outside {cov : List Bytes → Bool} (t : HkTree) (p : List Bytes) (s : SemSt) (hs : s.count = 0) (hc : HkClean cov p false t) :
    ∃ s', hookWalk cov p s t = .ok (s', hooksDue cov p false t) ∧ s'.count = 0 := by
  cases t with
  | file n u g c act =>
    rw [hookWalk]
    cases act with
    | excluded => exact ⟨s, (by rw [hookFile, hooksDue, raise_outside hs] <;> simp), hs⟩
    | known => exact ⟨s, (by rw [hookFile, hooksDue] <;> simp), hs⟩
    | unchanged => exact ⟨s, (by rw [hookFile, hooksDue, raise_outside hs] <;> simp), hs⟩
    | data k =>
      obtain ⟨s', h1, h2⟩ := passes_outside (cov := cov) ⟨p ++ [n], n, u, g, c⟩ k hs
      exact ⟨s', (by rw [hookFile, hooksDue, h1]; simp), h2⟩
    | noData =>
      obtain ⟨s', h1, h2⟩ := around_outside (cov := cov) hs ⟨p ++ [n], n, u, g, c⟩ []
      exact ⟨s', (by rw [hookFile, hooksDue, h1]; simp), h2⟩
    | failed => exact ⟨s, (by rw [hookFile, hooksDue] <;> simp), hs⟩
  | dir n u g act ch =>
    rw [walk_dir_eq]
    cases act with
    | excluded => exact ⟨s, (by rw [hookDir, raise_outside hs, hooksDue] <;> first | rfl | simp), hs⟩
    | failedAfter =>
      rw [HkClean] at hc
      refine ⟨s, ?_, hs⟩
      rw [hookDir, aroundDir_outside hs, if_neg (by simp [hc.2]), hooksDue] <;> first | rfl | simp
    | failedBefore => exact ⟨s, (by rw [hooksDue] <;> first | rfl | simp), hs⟩
    | unchanged =>
      rw [HkClean] at hc
      have h1 : hookDir cov ⟨p ++ [n], n, u, g, 100⟩ s .unchanged = .ok (s, [], true) := by
        rw [hookDir, raise_outside hs]; rfl
      rw [h1]
      obtain ⟨s1, h2, h3⟩ := walks_outside ch (p ++ [n]) s hs hc
      refine ⟨s1, ?_, h3⟩
      show ((hookWalks cov (p ++ [n]) s ch).bind _) = _
      rw [h2]
      show ((hookEod cov _ s1).bind _) = _
      rw [eod_outside h3, hooksDue]
      show Except.ok _ = _
      simp
    | saved =>
      rw [HkClean] at hc
      cases hcov : cov (p ++ [n]) with
      | true =>
        have h1 : hookDir cov ⟨p ++ [n], n, u, g, 100⟩ s .saved = .ok (⟨2, ⟨p ++ [n], n, u, g, 100⟩⟩, [.start ⟨p ++ [n], n, u, g, 100⟩], true) := by
          rw [hookDir, aroundDir_outside hs, if_pos hcov]; rfl
        rw [h1]
        refine ⟨⟨0, ⟨p ++ [n], n, u, g, 100⟩⟩, ?_, rfl⟩
        show ((hookWalks cov (p ++ [n]) ⟨2, ⟨p ++ [n], n, u, g, 100⟩⟩ ch).bind _) = _
        rw [hcov] at hc
        rw [walks_inside ch (p ++ [n]) _ (by dsimp only; omega) (by simpa using hc)]
        rw [ok_bind]
        dsimp only
        rw [eod_last rfl, hooksDue]
        show Except.ok _ = _
        simp [hcov]
      | false =>
        have h1 : hookDir cov ⟨p ++ [n], n, u, g, 100⟩ s .saved = .ok (s, [], true) := by
          rw [hookDir, aroundDir_outside hs, if_neg (by simp [hcov])]; rfl
        rw [h1]
        rw [hcov] at hc
        obtain ⟨s1, h2, h3⟩ := walks_outside ch (p ++ [n]) s hs (by simpa using hc)
        refine ⟨s1, ?_, h3⟩
        show ((hookWalks cov (p ++ [n]) s ch).bind _) = _
        rw [h2]
        show ((hookEod cov _ s1).bind _) = _
        rw [eod_outside h3, hooksDue]
        show Except.ok _ = _
        simp [hcov]
theorem walks_outside {cov : List Bytes → Bool} (l : List HkTree) (p : List Bytes) (s : SemSt) (hs : s.count = 0) (hc : ∀ e ∈ l, HkClean cov p false e) :
    ∃ s', hookWalks cov p s l = .ok (s', hooksDueAll cov p false l) ∧ s'.count = 0 := by
  cases l with
  | nil => exact ⟨s, (by rw [hookWalks, hooksDueAll]), hs⟩
  | cons e l =>
    obtain ⟨s1, h1, h2⟩ := walk_outside e p s hs (hc e (by simp))
    obtain ⟨s2, h3, h4⟩ := walks_outside l p s1 h2 (fun x hx => hc x (by simp [hx]))
    refine ⟨s2, ?_, h4⟩
    rw [walks_cons, h1]
    show (hookWalks cov p s1 l).bind _ = _
    rw [h3, hooksDueAll]
    rfl
end

end Dar
