import Verif.Model.Rsync
/- What is required of librsync. -/
namespace Dar

/-- Given the input `x` then the end of the input, the job gives `y`.  A state represents the part `c` of the input taken and the part `p` of the output given so far.  As long as the input offered continues
`x`, and its end is told only after the whole of it, a call takes a part of what is offered, gives a part of what remains to give, and reports no error; it reports completion only when everything has been taken
and given; with some room it makes some progress, or reports completion if the end has been told. -/
def RsJob.Gives (J : RsJob) (x y : Bytes) : Prop :=
  ∃ rep : J.St → Bytes → Bytes → Prop, rep J.init [] [] ∧
    ∀ st c p, rep st c p → c <+: x → p <+: y → ∀ a room, c ++ a <+: x → (a = [] → c = x) →
      ∀ st' k out ret, J.step st a room a.isEmpty = (st', k, out, ret) →
        k ≤ a.length ∧ out.length ≤ room ∧ ret ≠ .err ∧ rep st' (c ++ a.take k) (p ++ out) ∧ p ++ out <+: y ∧
        (ret = .done → c ++ a.take k = x ∧ p ++ out = y) ∧
        (0 < room → a ≠ [] → 0 < k ∨ out ≠ []) ∧ (0 < room → a = [] → out ≠ [] ∨ ret = .done)

/-- The job takes some input at each call that offers some, and has room for some output. -/
def RsJob.Greedy (J : RsJob) : Prop := ∀ st a room st' k out ret, a ≠ [] → 0 < room → J.step st a room false = (st', k, out, ret) → 0 < k

/-- The job loads the signature `s`: it gives nothing, and holds `v` once complete. -/
def LoadJob.Loads {S : Type} (J : LoadJob S) (s : Bytes) (v : S) : Prop :=
  ∃ rep : J.St → Bytes → Prop, rep J.init [] ∧
    ∀ st c, rep st c → c <+: s → ∀ a room, c ++ a <+: s → (a = [] → c = s) → 0 < room →
      ∀ st' k out ret, J.step st a room a.isEmpty = (st', k, out, ret) →
        k ≤ a.length ∧ out = [] ∧ ret ≠ .err ∧ rep st' (c ++ a.take k) ∧ (a ≠ [] → 0 < k) ∧ (a = [] → ret = .done ∧ J.sumset st' = v)

/-- What librsync promises as a whole: signatures can be computed and loaded, and a delta made from the signature of `b` for the content `n` is a patch that turns `b` into `n`. -/
structure RsyncLaw (S : Type) (sign : RsJob) (load : LoadJob S) (delta : S → RsJob) (patch : PatchLib) (sigOf : Bytes → Bytes) (deltaOf : Bytes → Bytes → Bytes) (sumOf : Bytes → S) : Prop where
  sign_ok : ∀ x, sign.Gives x (sigOf x)
  load_ok : ∀ x, load.Loads (sigOf x) (sumOf x)
  delta_ok : ∀ b n, (delta (sumOf b)).Gives n (deltaOf b n)
  patch_ok : ∀ b n, (patch.job b).Gives (deltaOf b n) n

/-- successive readings of an object, by its method `rd` -/
def rsReads {σ : Type} (rd : σ → Nat → σ × Res Bytes) : σ → List Nat → σ × Res (List Bytes)
  | s, [] => (s, .ok [])
  | s, n :: ns => match rd s n with
    | (s, .error e) => (s, .error e)
    | (s, .ok d) => match rsReads rd s ns with
      | (s, .error e) => (s, .error e)
      | (s, .ok l) => (s, .ok (d :: l))
/-- the successive pieces a plain file of content `x` gives -/
def piecesOf : Bytes → List Nat → List Bytes
  | _, [] => []
  | x, n :: ns => x.take n :: piecesOf (x.drop n) ns

end Dar
