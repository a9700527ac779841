import Verif.Model.SnElements
import Verif.Model.Partition
import Verif.Model.Classes

/-!
# Counts and indices in 32 bit arithmetic

The functions of `Model/Partition.lean`, `Model/SnElements.lean` and `Model/Classes.lean` that multiply, once more,
with every `int` result passed through a reduction `red`:

* `ck`: signed overflow is undefined behaviour (`none`), as in the C++ standard;
* `wrap`: two's complement wrap-around, what compilers produce in practice.

`cnine::factorial` (external) is taken to multiply `int`s like `IntegerPartition::factorial`. In `class_size` the
product `pow(prev,count)*factorial(count)` is a `double`; it is exact below `2^53`, and converting a `double` outside
the range of `int` is undefined, so it is enough to reduce the exact product. Loop counters and array positions stay
below `n+2` and are not reduced.
-/

namespace Snob.Machine

open Snob

/-- The range of a 32 bit `int`. -/
def Fits (x : Int) : Prop := -(2 ^ 31) ≤ x ∧ x < 2 ^ 31

instance (x : Int) : Decidable (Fits x) := by unfold Fits; infer_instance

/-- Overflow is undefined. -/
def ck (x : Int) : Option Int := if Fits x then some x else none

/-- Overflow wraps around. -/
def wrap (x : Int) : Option Int := some (Int.bmod x (2 ^ 32))

variable (red : Int → Option Int)

/-- combinatorial/IntegerPartition.hpp:94-98 `getn`. -/
def getn (p : List Nat) : Option Int := p.foldlM (fun n (x : Nat) => red (n + (x : Int))) 0

/-- combinatorial/IntegerPartition.hpp:83-85 `factorial`; also `cnine::factorial`. -/
def factorial : Nat → Option Int
  | 0 => some 1
  | x + 1 => (factorial x).bind fun f => red (((x + 1 : Nat) : Int) * f)

/-- combinatorial/IntegerPartition.hpp:128-130. -/
def below (rows : List Nat) (c : Nat) : Option Int :=
  rows.foldlM (fun b (x : Nat) => red (b + (if c ≤ x then 1 else 0))) 0

/-- combinatorial/IntegerPartition.hpp:126-132. -/
def hookRow (x : Nat) (xs : List Nat) (res : Int) : Option Int :=
  (List.range' 1 x).foldlM (fun res (c : Nat) => do
    let right ← red ((x : Int) - (c : Int))
    let b ← below red xs c
    let s ← red (right + b)
    let d ← red (s + 1)
    if d = 0 then none else red (Int.tdiv res d)) res

/-- combinatorial/IntegerPartition.hpp:125-133. -/
def hookLoop : List Nat → Int → Option Int
  | [], res => some res
  | x :: xs, res => (hookRow red x xs res).bind (hookLoop xs)

/-- combinatorial/IntegerPartition.hpp:123-135 `hooklength`. `factorial` of a negative number does not return. -/
def hooklength (p : List Nat) : Option Int := do
  let n ← getn red p
  if n < 0 then none
  let f ← factorial red n.toNat
  hookLoop red p f

/-- Sn/SnObj.hpp:61-63, 78-80: `order`, returned by `size()`. -/
def order (n : Nat) : Option Int := factorial red n

/-- Sn/SnObj.hpp:89-93: the digit loop. -/
def digitLoop (n lo : Nat) (e : Int) : Option (Arr × Int) :=
  forDown n ((lo : Int) + 1) (List.replicate n (some 0), e) fun i se => do
    let f ← factorial red (i - 1).toNat
    let q ← red (Int.tdiv se.2 f)
    let v ← red (i - q)
    let s ← wr se.1 (i - 1) v
    let r ← red (Int.tmod se.2 f)
    some (s, r)

/-- Sn/SnObj.hpp:86-103 `element(e)`. -/
def element (n : Nat) (e : Int) : Option Arr := do
  let p ← Perm.identity n
  let s ← digitLoop red n 0 e
  insertLoop n 2 s.1 p

/-- Sn/SnObj.hpp:105-119 `index(sigma)`. -/
def index : Nat → Arr → Option Int
  | 0, _ => none
  | 1, _ => some 0
  | n + 2, sigma => do
      if sigma.length ≠ n + 2 then none
      let r ← splitTop (n + 2) sigma
      let sub ← index (n + 1) r.2
      let f ← factorial red (n + 1)
      let x ← red (r.1 * f)
      red (sub + x)

/-- Sn/Sn.hpp:128-136: the loop of `class_size`. -/
def classSizeLoop : List Nat → Nat → Nat → Int → Option Int
  | [], prev, count, t => do
      let f ← factorial red count
      red (t * ((prev ^ count : Nat) * f))
  | x :: xs, prev, count, t =>
    if x = prev then classSizeLoop xs prev (count + 1) t
    else do
      let f ← factorial red count
      let t ← red (t * ((prev ^ count : Nat) * f))
      classSizeLoop xs x 1 t

/-- Sn/Sn.hpp:123-138 `class_size(lambda)` of the object `Sn(n)`. -/
def classSize (n : Nat) : List Nat → Option Int
  | [] => some 0
  | x :: xs => do
    let t ← classSizeLoop red xs x 1 1
    let f ← factorial red n
    if t = 0 then none else red (Int.tdiv f t)

/-- Sn/SnOverSmObj.hpp:41-43 `size()`; a division by zero is undefined. -/
def snsmSize (n m : Nat) : Option Int := do
  let f ← factorial red n
  let g ← factorial red m
  if g = 0 then none else red (Int.tdiv f g)

/-- Sn/SnOverSmObj.hpp:57-75 `element(e)`. -/
def snsmElement (n m : Nat) (e : Int) : Option Arr := do
  let p ← Perm.identity n
  let g ← factorial red m
  let e ← red (e * g)
  let s ← digitLoop red n m e
  insertLoop n (m + 1) s.1 p

/-- Sn/SnOverSmObj.hpp:83-92: one round of the loop of `index`. -/
def snsmIndexStep (k : Int) (st : Arr × Int) : Option (Arr × Int) := do
  let r ← forUpE (R := Int) 0 k () fun i _ => do
    let v ← rd st.1 i
    if v = k then some (.inl i) else some (.inr ())
  match r with
  | .inl i => do
      let f ← factorial red (k - 1).toNat
      let x ← red ((k - i - 1) * f)
      let t ← red (st.2 + x)
      let s ← forUp (i + 1) k st.1 fun i s => do
        let v ← rd s i
        wr s (i - 1) v
      some (s, t)
  | .inr _ => some st

/-- Sn/SnOverSmObj.hpp:77-94 `index(sigma)`. -/
def snsmIndex (n m : Nat) (sigma : Arr) : Option Int := do
  if sigma.length ≠ n then none
  let s ← forUp 0 n (List.replicate n (some 0)) fun i s => do
    let v ← rd sigma i
    wr s i v
  let r ← forDown n ((m : Int) + 1) (s, 0) (snsmIndexStep red)
  let g ← factorial red m
  if g = 0 then none else red (Int.tdiv r.2 g)

end Snob.Machine
