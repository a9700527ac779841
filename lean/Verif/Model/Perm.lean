import Verif.Model.Mem

/-!
# Model of `/repo/combinatorial/Permutation.hpp`

A `Permutation` is its buffer `p`; the field `n` is the length of the buffer (every constructor allocates
`new int[n]`, lines 35-60). Moved-from objects (line 89, `p=NULL`) are not modelled.
-/

namespace Snob.Perm

open Snob

/-- `Permutation(n, fill_identity)`, `identity(n)`, `Identity(n)`:
`/repo/combinatorial/Permutation.hpp:45-49, 108-118`. -/
def identity (n : Nat) : Option Arr :=
  forUp 0 n (raw n) fun i p => wr p i (i + 1)

/-- `transposition(n,i,j)`: `/repo/combinatorial/Permutation.hpp:120-126`, and the conversion
`Permutation(n, Transposition)`: lines 149-153. -/
def transposition (n : Nat) (i j : Int) : Option Arr := do
  let p ← identity n
  let p ← wr p (i - 1) j
  wr p (j - 1) i

/-- `contiguous_cycle(n,a,b)`: `/repo/combinatorial/Permutation.hpp:128-142`. -/
def contiguousCycle (n : Nat) (a b : Int) : Option Arr :=
  if a < b then do
    let p ← forUp 1 a (raw n) fun i p => wr p (i - 1) i
    let p ← forUp (b + 1) (n + 1) p fun i p => wr p (i - 1) i
    let p ← forUp a b p fun i p => wr p (i - 1) (i + 1)
    wr p (b - 1) a
  else do
    let p ← forUp 1 b (raw n) fun i p => wr p (i - 1) i
    let p ← forUp (a + 1) (n + 1) p fun i p => wr p (i - 1) i
    let p ← forUp (b + 1) (a + 1) p fun i p => wr p (i - 1) (i - 1)
    wr p (b - 1) a

/-- `operator()(i)`: `/repo/combinatorial/Permutation.hpp:166-168`. -/
def app (p : Arr) (i : Int) : Option Int := rd p (i - 1)

/-- `set_value(i,j)`: `/repo/combinatorial/Permutation.hpp:178-180`. -/
def setValue (p : Arr) (i j : Int) : Option Arr := wr p (i - 1) j

/-- `operator==`: `/repo/combinatorial/Permutation.hpp:182-186`. -/
def eqb (p x : Arr) : Option Bool :=
  if p.length ≠ x.length then some false
  else do
    let r ← forUpE (R := Bool) 0 p.length () fun i _ => do
      let u ← rd p i
      let v ← rd x i
      if u ≠ v then some (.inl false) else some (.inr ())
    match r with
    | .inl b => some b
    | .inr _ => some true

/-- `operator!`: `/repo/combinatorial/Permutation.hpp:188-192`. -/
def bang (p : Arr) : Option Arr :=
  forUp 0 p.length (raw p.length) fun i r => do
    let v ← rd p i
    wr r (v - 1) (i + 1)

/-- `operator*`: `/repo/combinatorial/Permutation.hpp:197-201`. -/
def mul (p x : Arr) : Option Arr :=
  forUp 0 p.length (raw p.length) fun i r => do
    let v ← app x (i + 1)
    let w ← rd p (v - 1)
    wr r i w

/-- `operator*=`: `/repo/combinatorial/Permutation.hpp:203-206`; the updated `*this`. -/
def mulAssign (p x : Arr) : Option Arr :=
  forUp 0 p.length p fun i p => do
    let v ← rd p i
    let w ← app x v
    wr p i w

/-- `a*=a`: the same function with `x` aliased to `*this`, so that every read of `x` sees the updates:
`/repo/combinatorial/Permutation.hpp:203-206`. -/
def mulAssignSelf (p : Arr) : Option Arr :=
  forUp 0 p.length p fun i p => do
    let v ← rd p i
    let w ← app p v
    wr p i w

/-- `inverse()`/`inv()`: `/repo/combinatorial/Permutation.hpp:208-217`. -/
def inverse (p : Arr) : Option Arr :=
  forUp 1 (p.length + 1) (raw p.length) fun i r => do
    let v ← rd p (i - 1)
    wr r (v - 1) i

/-- `check_valid()`: `/repo/combinatorial/Permutation.hpp:219-226`. The `vector<bool>` is modelled as a buffer of
0/1 cells. -/
def checkValid (p : Arr) : Option Bool := do
  let n : Int := p.length
  let r ← forUpE (R := Bool) 0 n (List.replicate p.length (some (0 : Int))) fun i a => do
    let v ← rd p i
    if v < 1 ∨ v > n then some (.inl false)
    else do
      let f ← rd a (v - 1)
      if f = 1 then some (.inl false)
      else do
        let a ← wr a (v - 1) 1
        some (.inr a)
  match r with
  | .inl b => some b
  | .inr _ => some true

/-- Copy assignment `h[dst]=h[src]` of two `Permutation` objects living in a heap of objects:
`/repo/combinatorial/Permutation.hpp:92-96`. The old buffer of `dst` is freed and replaced by a raw one *before*
`x.p` is read, so if `dst` and `src` are the same object the copy reads the fresh raw buffer. Reading a raw
cell into another cell is modelled as copying the uninitialised mark. -/
def assign (h : Nat → Arr) (dst src : Nat) : Nat → Arr :=
  let n := (h src).length
  let h1 : Nat → Arr := fun l => if l = dst then raw n else h l
  fun l => if l = dst then h1 src else h1 l

end Snob.Perm
