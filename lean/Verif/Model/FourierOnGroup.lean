import Verif.Model.Groups

/-!
Model of `groups/FourierOnGroup.hpp` for a group class with irreps. As it stands the two conversions do not compile,
because a function holds a pointer to its group (include/FunctionOnGroup.hpp:33) and they take it for the group; they are
modelled with `*f.G` and `&G` in their place.

Simplifications: exact numbers. Assumed of cnine: `add(x,c)` and `inp(x)` need tensors with the same number of entries (which
is asserted) and do not compare the shapes; `inp` conjugates its argument; `x*y` contracts the last index of `x` with the first
of `y`; `herm` needs a tensor of order two.
-/

namespace Snob

/-- What the template uses of `GROUP::n_irreps()`, `GROUP::irrep(i)` and of the irreps: `dim()`, `operator()(int)`,
`operator()(ELEMENT)`. -/
structure Irreps (E : Type) where
  count : Int
  dim : Int → Nat
  at' : Int → Int → CTensor
  elem : Int → E → CTensor

/-- groups/CyclicGroup.hpp:55-61. -/
noncomputable def cyclicReps (n : Nat) : Irreps CycElem := ⟨cyclicIrreps n, fun _ => 1, cyclicIrrepAt n, cyclicIrrep n⟩

/-- groups/DihedralGroup.hpp:65-72. -/
noncomputable def dihReps (n : Nat) : Irreps DihElem := ⟨dihIrreps n, dihDim n, dihIrrepAt n, dihIrrep n⟩

/-- groups/ProductGroup.hpp:64-71; an irrep with number `i` is made of those with numbers `i/n` and `i%n`. (Elements have no
`index()` that compiles; the value is the same for all.) -/
noncomputable def productReps {E₁ E₂ : Type} (P₁ : Irreps E₁) (P₂ : Irreps E₂) : Irreps (E₁ × E₂) where
  count := P₁.count * P₂.count
  dim i := P₁.dim (Int.tdiv i P₂.count) * P₂.dim (Int.tmod i P₂.count)
  at' i j := productIrrepAt (P₁.dim (Int.tdiv i P₂.count)) (P₂.dim (Int.tmod i P₂.count)) j
  elem i _ := productIrrepAt (P₁.dim (Int.tdiv i P₂.count)) (P₂.dim (Int.tmod i P₂.count)) 0

namespace CTensor

/-- `R.add(x,c)`. -/
noncomputable def addScaled (R x : CTensor) (c : ℂ) : Option CTensor :=
  if R.data.length = x.data.length then some ⟨R.dims, List.zipWith (fun a b => a + b * c) R.data x.data⟩ else none

/-- `x.inp(y)`. -/
noncomputable def inp (x y : CTensor) : Option ℂ :=
  if x.data.length = y.data.length then some (List.zipWith (fun a b => a * (starRingEnd ℂ) b) x.data y.data).sum else none

/-- `x*y`. -/
noncomputable def mprod (x y : CTensor) : Option CTensor := do
  let k ← x.dims.getLast?
  let l ← y.dims.head?
  if k = l then
    let p := x.dims.dropLast.prod
    let q := y.dims.tail.prod
    some ⟨x.dims.dropLast ++ y.dims.tail, (List.range (p * q)).map fun e =>
      ((List.range k).map fun r => x.data.getD (e / q * k + r) 0 * y.data.getD (r * q + e % q) 0).sum⟩
  else none

/-- `herm(x)`. -/
noncomputable def herm (x : CTensor) : Option CTensor :=
  match x.dims with
  | [p, q] => some ⟨[q, p], (List.range (q * p)).map fun e => (starRingEnd ℂ) (x.data.getD (e % p * q + e / p) 0)⟩
  | _ => none

end CTensor

variable {E : Type}

/-- groups/FourierOnGroup.hpp:66-79: the transform of a function on a group with `N` elements. -/
noncomputable def fourier (P : Irreps E) (N : Nat) (f : Cells ℂ) : Option (List CTensor) :=
  forUp 0 P.count [] fun i parts => do
    let d := P.dim i
    let R ← forUp 0 N (⟨[d, d], List.replicate (d * d) 0⟩ : CTensor) fun j R => do
      let v ← rdC f j
      R.addScaled (P.at' i j) v
    some (parts ++ [R])

/-- groups/FourierOnGroup.hpp:81-91: back to a function. -/
noncomputable def iFourier (P : Irreps E) (N : Nat) (parts : List CTensor) : Option (Cells ℂ) :=
  forUp 0 P.count (List.replicate N (some 0)) fun i f => do
    let c : ℂ := (P.dim i : ℂ) / N
    forUp 0 N f fun j f => do
      let p ← parts[i.toNat]?
      let x ← p.inp (P.at' i j)
      let v ← rdC f j
      wrC f j (v + x * c)

/-- groups/FourierOnGroup.hpp:99-106 `left(t)`. -/
noncomputable def fourierLeft (P : Irreps E) (t : E) (parts : List CTensor) : Option (List CTensor) :=
  forUp 0 P.count [] fun i R => do
    let p ← parts[i.toNat]?
    let x ← (P.elem i t).mprod p
    some (R ++ [x])

/-- groups/FourierOnGroup.hpp:108-115 `right(t)`. -/
noncomputable def fourierRight (P : Irreps E) (t : E) (parts : List CTensor) : Option (List CTensor) :=
  forUp 0 P.count [] fun i R => do
    let p ← parts[i.toNat]?
    let x ← p.mprod (P.elem i t)
    some (R ++ [x])

/-- groups/FourierOnGroup.hpp:117-123 `inv()`. -/
noncomputable def fourierInv (P : Irreps E) (parts : List CTensor) : Option (List CTensor) :=
  forUp 0 P.count [] fun i R => do
    let p ← parts[i.toNat]?
    let x ← p.herm
    some (R ++ [x])

end Snob
