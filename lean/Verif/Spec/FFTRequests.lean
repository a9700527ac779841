import Verif.Model.FFTBank

/-!
The transforms a program asked for.
-/

namespace Snob

/-- The request a call makes, if any: `ClausenFFT(n)` counts as `(n,-1)`. -/
def FFTCall.req : FFTCall → Option (Int × Int)
  | .new1 n => some (n, -1)
  | .new2 n m => some (n, m)
  | _ => none

/-- The requests of a program, in order; the `i`-th is that of the `i`-th `ClausenFFT` object. -/
def fftRequests (cs : List FFTCall) : List (Int × Int) := cs.filterMap FFTCall.req

/-- A request for a transform on `Sn` (no `m`, or a negative one) or on `Sn/Sm`. -/
def ValidRequest (k : Int × Int) : Prop := 1 ≤ k.1 ∧ (k.2 < 0 ∨ (1 ≤ k.2 ∧ k.2 ≤ k.1))

end Snob
