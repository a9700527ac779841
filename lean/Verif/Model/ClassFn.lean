import Verif.Model.SnBank

/-!
Model of `SnClassFunction`. The tensor of values is a list of real numbers; reading or writing outside of it is `none`.
The global banks (`World`) are passed through, as looking up a class may fill them.
-/

namespace Snob

/-- Sn/SnClassFunction.hpp:19-29: the values, one for every class, and `n`. -/
structure ClassFn where
  n : Nat
  vals : List ℝ

namespace ClassFn

/-- Sn/SnClassFunction.hpp:32-34 the constructor with a filling: zeros, ones, the numbers 0,1,2,..., random numbers. -/
def new (w : World) (n : Nat) (fill : Nat → ℝ) : Option (World × ClassFn) := do
  let (w, k) ← w.onSn n (·.ncclasses)
  some (w, ⟨n, (List.range k).map fill⟩)

/-- Sn/SnClassFunction.hpp:66-68 `operator()(lambda)`, 74-80 `get_value(lambda)`. -/
def getBy (f : ClassFn) (w : World) (lambda : List Nat) : Option (World × ℝ) := do
  let (w, i) ← w.onSn (IP.getn lambda) (·.index lambda)
  let x ← f.vals[i]?
  some (w, x)

/-- Sn/SnClassFunction.hpp:70-72 `operator()(i)`, 82-84 `get_value(i)`. -/
def getAt (f : ClassFn) (i : Nat) : Option ℝ := f.vals[i]?

/-- Sn/SnClassFunction.hpp:90-92 `set_value(i,v)`: the new function. -/
def setAt (f : ClassFn) (i : Nat) (x : ℝ) : Option ClassFn :=
  if i < f.vals.length then some { f with vals := f.vals.set i x } else none

/-- Sn/SnClassFunction.hpp:86-88 `set_value(lambda,v)`: the new function. -/
def setBy (f : ClassFn) (w : World) (lambda : List Nat) (x : ℝ) : Option (World × ClassFn) := do
  let (w, i) ← w.onSn (IP.getn lambda) (·.index lambda)
  let f ← f.setAt i x
  some (w, f)

end ClassFn

/-- What a program can do between making a class function and reading it. -/
inductive FnStep
  | call (c : Call)
  | getBy (lambda : List Nat)
  | setBy (lambda : List Nat) (x : ℝ)
  | setAt (i : Nat) (x : ℝ)

namespace FnStep

/-- One step. -/
noncomputable def run (s : World × ClassFn) : FnStep → Option (World × ClassFn)
  | .call c => do
    let (w, _) ← s.1.exec c
    some (w, s.2)
  | .getBy lambda => do
    let (w, _) ← s.2.getBy s.1 lambda
    some (w, s.2)
  | .setBy lambda x => s.2.setBy s.1 lambda x
  | .setAt i x => do
    let f ← s.2.setAt i x
    some (s.1, f)

/-- A sequence of steps. -/
noncomputable def runAll (s : World × ClassFn) (l : List FnStep) : Option (World × ClassFn) := l.foldlM run s

end FnStep

end Snob
