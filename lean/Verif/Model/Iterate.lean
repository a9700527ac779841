import Verif.Model.SnBank
import Verif.Model.SnElements

/-!
Model of the loops `for(auto x: G.cclasses)`, `for(auto rho: G.irreps)`, `for(auto chi: G.characters)` and
`for(auto sigma: G.elements)` over the members of an object `Sn G(n)`, and of `random()`.

* `cnine::GenericIterator` (not part of the repository) is an index: `begin()` is the index `0`, `end()` the index
  `size()`, which the range-based `for` takes once before the loop; `*it` is `owner[i]`.
* the body of a loop is a list of further calls, which may depend on the object visited.
* the generator of random numbers is not modelled: `random` is a function of the number that it gives.
-/

namespace Snob

/-- The members of `Sn` (Sn/Sn.hpp:29-33) with state that one can loop over. -/
inductive Range
  /-- Sn/Sn_CclassHelper.hpp -/
  | cclasses
  /-- Sn/Sn_IrrepHelper.hpp -/
  | irreps
  /-- Sn/Sn_CharacterHelper.hpp -/
  | characters
deriving DecidableEq

namespace World

/-- `size()` of the member: Sn/Sn_CclassHelper.hpp:42-44, Sn/Sn_IrrepHelper.hpp:41-44, Sn/Sn_CharacterHelper.hpp:41-44 -/
noncomputable def rangeSize (w : World) (n : Nat) : Range → Option (World × Nat)
  | .cclasses => do
    let w ← w.mkSn n
    w.onSn n (·.ncclasses)
  | .irreps => do
    let w ← w.mkSn n
    w.onSn n fun o => do
      let o ← o.makeAllIrreps
      some (o, o.irreps.length)
  | .characters => do
    let w ← w.mkSn n
    let w ← makeAllChars n (IP.partitions n) w
    let L ← w.levels[n - 1]?
    some (w, L.chars.length)

/-- `operator[](i)` of the member: Sn/Sn_CclassHelper.hpp:50-52, Sn/Sn_IrrepHelper.hpp:51-54,
Sn/Sn_CharacterHelper.hpp:46-49 -/
def rangeAt (n : Nat) : Range → Nat → Call
  | .cclasses, i => .cclass n i
  | .irreps, i => .irrepAt n i
  | .characters, i => .charactersAt n i

/-- the loop from the index `i` on, with `k` more indices to come; the objects visited -/
noncomputable def visit (n : Nat) (r : Range) (body : Val → List Call) : Nat → Nat → World → Option (World × List Val)
  | 0, _, w => some (w, [])
  | k + 1, i, w => do
    let (w, x) ← w.exec (rangeAt n r i)
    let w ← w.run (body x)
    let (w, xs) ← visit n r body k (i + 1) w
    some (w, x :: xs)

/-- `for(auto x: G.range) body(x)` with `begin()`, `end()` of Sn/Sn_CclassHelper.hpp:58-64,
Sn/Sn_IrrepHelper.hpp:66-72, Sn/Sn_CharacterHelper.hpp:56-62 -/
noncomputable def forEach (w : World) (n : Nat) (r : Range) (body : Val → List Call) : Option (World × List Val) := do
  let (w, k) ← w.rangeSize n r
  visit n r body k 0 w

end World

/-- `for(auto sigma: G.elements)`, Sn/Sn_ElementHelper.hpp:42-44, 50-52, 62-68: the elements visited -/
def forElements (n : Nat) : Option (List Arr) := (List.range (snSize n)).mapM fun i : Nat => element n i

/-- Sn/SnObj.hpp:121-124 `random()`, Sn/Sn.hpp:91-93, Sn/Sn_ElementHelper.hpp:58-60: `draw` is the number that
`uniform_int_distribution<int>(0,size()-1)` gives -/
def randomElement (n draw : Nat) : Option Arr := element n draw

end Snob
