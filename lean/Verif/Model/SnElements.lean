import Mathlib.Data.Nat.Factorial.Basic
import Verif.Model.Perm

/-!
# Model of the element enumeration of `Sn` and of the coset space `Sn/Sm`

`/repo/Sn/SnObj.hpp:78-119` and `/repo/Sn/SnOverSmObj.hpp:41-94`.
`cnine::factorial(k)` (external, table of factorials) is modelled by `Nat.factorial k`.
C `int` division and remainder truncate towards zero: `Int.tdiv`, `Int.tmod`.
-/

namespace Snob

open Snob.Perm

/-- The digit loop `for(int i=n; i>lo; i--){s[i-1]=i-e/factorial(i-1); e=e%factorial(i-1);}` on a zero initialised
`vector<int> s(n)`: `/repo/Sn/SnObj.hpp:89-93` (with `lo=0`), `/repo/Sn/SnOverSmObj.hpp:61-65` (with `lo=m`). -/
def digitLoop (n lo : Nat) (e : Int) : Option (Arr × Int) :=
  forDown n ((lo : Int) + 1) (List.replicate n (some 0), e) fun i se => do
    let f : Int := (Nat.factorial (i - 1).toNat : Nat)
    let s ← wr se.1 (i - 1) (i - Int.tdiv se.2 f)
    some (s, Int.tmod se.2 f)

/-- The insertion of `i` at position `t`: `for(int k=i; k>=t+1; k--) p[k-1]=p[k-2]; p[t-1]=i;`
`/repo/Sn/SnObj.hpp:96-99`, `/repo/Sn/SnOverSmObj.hpp:68-71`. -/
def insertStep (p : Arr) (i t : Int) : Option Arr := do
  let p ← forDown i (t + 1) p fun k p => do
    let v ← rd p (k - 2)
    wr p (k - 1) v
  wr p (t - 1) i

/-- The insertion loop `for(int i=lo; i<=n; i++){int t=s[i-1]; ...}`:
`/repo/Sn/SnObj.hpp:95-100` (with `lo=2`), `/repo/Sn/SnOverSmObj.hpp:67-72` (with `lo=m+1`). -/
def insertLoop (n lo : Nat) (s p : Arr) : Option Arr :=
  forUp lo ((n : Int) + 1) p fun i p => do
    let t ← rd s (i - 1)
    insertStep p i t

/-- `SnObj::size()`, `order=cnine::factorial(n)`: `/repo/Sn/SnObj.hpp:61-63, 78-80`. -/
def snSize (n : Nat) : Nat := n.factorial

/-- `SnObj::element(e)`: `/repo/Sn/SnObj.hpp:86-103`. -/
def element (n : Nat) (e : Int) : Option Arr := do
  let p ← identity n
  let s ← digitLoop n 0 e
  insertLoop n 2 s.1 p

/-- The loops at `/repo/Sn/SnObj.hpp:108-116`: find `n` in `sigma`, return `a=n-i-1` and `sigma` with `n` deleted.
If `n` does not occur the first loop runs to the end and `a=0`. -/
def splitTop (n : Nat) (sigma : Arr) : Option (Int × Arr) := do
  let r ← forUpE (R := Int × Arr) 0 n (raw (n - 1)) fun i tau => do
    let v ← rd sigma i
    if v = n then some (.inl (i, tau))
    else do
      let tau ← wr tau i v
      some (.inr tau)
  match r with
  | .inl (i, tau) => do
      let tau ← forUp (i + 1) n tau fun i tau => do
        let v ← rd sigma i
        wr tau (i - 1) v
      some (n - i - 1, tau)
  | .inr tau => some (0, tau)

/-- `SnObj::index(sigma)`: `/repo/Sn/SnObj.hpp:105-119`. The recursion goes through `Snminus1->index(tau)`, which
the bank links to the object for `n-1` (`/repo/Sn/SnBank.hpp:35-44`). A failed `assert` and `n=0` (no such object)
are modelled as `none`. -/
def index : Nat → Arr → Option Int
  | 0, _ => none
  | 1, _ => some 0
  | n + 2, sigma => do
      if sigma.length ≠ n + 2 then none
      let r ← splitTop (n + 2) sigma
      let sub ← index (n + 1) r.2
      some (sub + r.1 * ((Nat.factorial (n + 1) : Nat) : Int))

/-- `SnOverSmObj::size()`: `/repo/Sn/SnOverSmObj.hpp:41-43`. -/
def snsmSize (n m : Nat) : Nat := n.factorial / m.factorial

/-- `SnOverSmObj::element(e)`: `/repo/Sn/SnOverSmObj.hpp:57-75`. -/
def snsmElement (n m : Nat) (e : Int) : Option Arr := do
  let p ← identity n
  let s ← digitLoop n m (e * ((Nat.factorial m : Nat) : Int))
  insertLoop n (m + 1) s.1 p

/-- One pass of the outer loop of `SnOverSmObj::index`, with `_n=k`: `/repo/Sn/SnOverSmObj.hpp:83-92`. State: the
vector `s` and the accumulator `t`. -/
def snsmIndexStep (k : Int) (st : Arr × Int) : Option (Arr × Int) := do
  let r ← forUpE (R := Int) 0 k () fun i _ => do
    let v ← rd st.1 i
    if v = k then some (.inl i) else some (.inr ())
  match r with
  | .inl i => do
      let t := st.2 + (k - i - 1) * ((Nat.factorial (k - 1).toNat : Nat) : Int)
      let s ← forUp (i + 1) k st.1 fun i s => do
        let v ← rd s i
        wr s (i - 1) v
      some (s, t)
  | .inr _ => some st

/-- `SnOverSmObj::index(sigma)`: `/repo/Sn/SnOverSmObj.hpp:77-94`. -/
def snsmIndex (n m : Nat) (sigma : Arr) : Option Int := do
  if sigma.length ≠ n then none
  let s ← forUp 0 n (List.replicate n (some 0)) fun i s => do
    let v ← rd sigma i
    wr s i v
  let r ← forDown n ((m : Int) + 1) (s, 0) snsmIndexStep
  some (Int.tdiv r.2 ((Nat.factorial m : Nat) : Int))

end Snob
