import Verif.Model.StreamComp
/- What is required of a streaming compression library.  `code d z`: `z` is a complete compressed stream for the data `d` (a relation: the stream may depend on the way the data is given). -/
namespace Dar

/-- The compression side.  A state represents the input `i` taken and the output `o` given so far, and whether the end has been asked; a call that takes no input makes some pending output (`lag`) go out;
asked for the end, the library gives the rest of a complete stream in finitely many calls. -/
def ZEnc.Lawful (E : ZEnc) (code : Bytes → Bytes → Prop) : Prop :=
  ∃ (rep : E.St → Bytes → Bytes → Bool → Prop) (lag : E.St → Nat),
    rep E.init [] [] false ∧
    (∀ st i o f, rep st i o f → 0 < E.hint st) ∧
    (∀ st i o a room, rep st i o false → a ≠ [] → 0 < room → ∀ st' k out ret, E.step st a room false = (st', k, out, ret) →
      k ≤ a.length ∧ out.length ≤ room ∧ ret = .ok ∧ rep st' (i ++ a.take k) (o ++ out) false ∧ (k = 0 → lag st' < lag st)) ∧
    (∀ st i o f room, rep st i o f → 0 < room → ∀ st' k out ret, E.step st [] room true = (st', k, out, ret) →
      out.length ≤ room ∧ ((ret = .streamEnd ∧ code i (o ++ out)) ∨ (ret = .ok ∧ rep st' i (o ++ out) true ∧ lag st' < lag st)))

/-- The decompression side.  A state represents the part `c` of the stream taken and the data `p` given so far.  Reading a stream `z` of `d`, possibly followed by anything, possibly cut, the library takes
nothing beyond `z`, gives only data of `d`, in order; it reports the end only when both are complete; it makes some progress when it has some input or the whole stream, and some room; the only other answer
is WR_BUF_ERROR, when it had no input or no room. -/
def ZDec.Lawful (D : ZDec) (code : Bytes → Bytes → Prop) : Prop :=
  ∃ rep : D.St → Bytes → Bytes → Prop, rep D.init [] [] ∧
    ∀ d z, code d z → ∀ st c p, rep st c p → c <+: z → p <+: d → ∀ a room, (c ++ a <+: z ∨ z <+: c ++ a) →
      ∀ st' k out ret, D.step st a room = (st', k, out, ret) →
        k ≤ a.length ∧ out.length ≤ room ∧ rep st' (c ++ a.take k) (p ++ out) ∧ c ++ a.take k <+: z ∧ p ++ out <+: d ∧
        (ret = .ok ∨ ret = .streamEnd ∨ (ret = .bufError ∧ (a = [] ∨ room = 0) ∧ k = 0 ∧ out = [])) ∧
        (ret = .streamEnd → c ++ a.take k = z ∧ p ++ out = d) ∧
        (0 < room → (a ≠ [] ∨ c = z) → ret = .streamEnd ∨ 0 < k ∨ out ≠ [])

/-- The decompression side of libzstd: the same, with only two answers; and a call given some room that produces nothing has taken all the input, and reports the end if the stream is complete. -/
def ZDec.Eager (D : ZDec) (code : Bytes → Bytes → Prop) : Prop :=
  ∃ rep : D.St → Bytes → Bytes → Prop, rep D.init [] [] ∧
    ∀ d z, code d z → ∀ st c p, rep st c p → c <+: z → p <+: d → ∀ a room, (c ++ a <+: z ∨ z <+: c ++ a) → 0 < room →
      ∀ st' k out ret, D.step st a room = (st', k, out, ret) →
        k ≤ a.length ∧ out.length ≤ room ∧ rep st' (c ++ a.take k) (p ++ out) ∧ c ++ a.take k <+: z ∧ p ++ out <+: d ∧
        (ret = .ok ∨ ret = .streamEnd) ∧ (ret = .streamEnd → c ++ a.take k = z ∧ p ++ out = d) ∧
        (ret = .ok → out = [] → k = a.length ∧ c ++ a ≠ z)

end Dar
