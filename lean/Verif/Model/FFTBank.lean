import Verif.Model.FFT

/-!
Model of the cache of transforms and of the object a user holds: `Sn/SnFFTbank.hpp` and `Sn/ClausenFFT.hpp`.

A pointer is the position of the object in the list of all transform objects made; objects are never removed while
the program runs (the destructor of the bank runs when the program ends). The unordered map is a list of pairs with
distinct keys; the hash (`Sn/ClausenFFTObj.hpp:143-149`) is not modelled, because it can only decide where a key is
looked for, and equal keys have equal hashes.
-/

namespace Snob

/-- Sn/ClausenFFTObj.hpp:25-31: the fields. -/
structure FFTObj where
  n : Int
  m : Int
  levels : List LevelT

/-- Sn/SnFFTbank.hpp:38-39 with Sn/ClausenFFTObj.hpp:35-47: the object made for a request. -/
noncomputable def FFTObj.make (n m : Int) : Option FFTObj :=
  if -1 < m then (fftLevels n.toNat m.toNat).map (FFTObj.mk n m)
  else (fftLevels n.toNat 1).map (FFTObj.mk n (-1))

/-- Sn/ClausenFFTObj.hpp:132-136 `operator==` of keys. -/
def fftKeyEq (x y : Int × Int) : Bool :=
  if x.1 ≠ y.1 then false else if x.2 ≠ y.2 then false else true

/-- Sn/SnFFTbank.hpp:22: the map; `objs` are the objects made by `new`. -/
structure FFTBank where
  ffts : List ((Int × Int) × Nat)
  objs : List FFTObj

namespace FFTBank

/-- The bank at the start of the program. -/
def empty : FFTBank := ⟨[], []⟩

/-- Sn/SnFFTbank.hpp:32-42 `get_FFT(n,m)`. -/
noncomputable def getFFT (b : FFTBank) (n m : Int) : Option (FFTBank × Nat) :=
  match b.ffts.find? fun e => fftKeyEq e.1 (n, m) with
  | some e => some (b, e.2)
  | none => do
    let t ← FFTObj.make n m
    some (⟨b.ffts ++ [((n, m), b.objs.length)], b.objs ++ [t]⟩, b.objs.length)

end FFTBank

/-- What a program can do with transforms: `ClausenFFT(n)` and `ClausenFFT(n,m)` (Sn/ClausenFFT.hpp:26-32), and the
four methods (38-52) of the `i`-th such object, with the function (number of values and values) or vector given. -/
inductive FFTCall where
  | new1 (n : Int)
  | new2 (n m : Int)
  | apply (i : Nat) (N : Nat) (f : Nat → ℝ)
  | inv (i : Nat) (w : List VPart)
  | invSnSm (i : Nat) (w : List VPart)

/-- What a call returns. -/
inductive FFTRet where
  | object
  | vec (w : List VPart)
  | fn (label N : Nat) (f : Nat → ℝ)
  | fnSnSm (n m : Int) (N : Nat) (f : Nat → ℝ)

/-- The bank and the objects held, each a pointer. -/
structure FFTWorld where
  bank : FFTBank
  held : List Nat

namespace FFTWorld

/-- Sn/ClausenFFT.hpp:26-28, 30-32: a new object. -/
noncomputable def hold (W : FFTWorld) (n m : Int) : Option (FFTWorld × FFTRet) := do
  let (b, p) ← W.bank.getFFT n m
  some (⟨b, W.held ++ [p]⟩, .object)

/-- The object behind the `i`-th `ClausenFFT`. -/
def obj (W : FFTWorld) (i : Nat) : Option FFTObj := do
  let p ← W.held[i]?
  W.bank.objs[p]?

/-- Sn/ClausenFFT.hpp:26-52; 27 uses the default `m=-1` of Sn/SnFFTbank.hpp:32. -/
noncomputable def step (W : FFTWorld) : FFTCall → Option (FFTWorld × FFTRet)
  | .new1 n => W.hold n (-1)
  | .new2 n m => W.hold n m
  | .apply i N f => do
    let t ← W.obj i
    let w ← fftWith viewAct t.levels N f
    some (W, .vec w)
  | .inv i w => do
    let t ← W.obj i
    let r ← ifftWith viewAct t.levels w
    some (W, .fn t.levels.length r.1 r.2)
  | .invSnSm i w => do
    let t ← W.obj i
    let r ← ifftWith viewAct t.levels w
    some (W, .fnSnSm t.n t.m r.1 r.2)

/-- A program: calls one after the other. -/
noncomputable def run (W : FFTWorld) : List FFTCall → Option FFTWorld
  | [] => some W
  | c :: cs => (W.step c).bind fun r => run r.1 cs

/-- The start of the program. -/
def start : FFTWorld := ⟨FFTBank.empty, []⟩

end FFTWorld

end Snob
