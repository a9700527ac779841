import Verif.Model.Irrep
import Verif.Model.Partition
import Verif.Model.Classes

/-!
Model of the state behind the `Sn` class: the objects of `SnBank` (one `SnObj` for every group) with their cached
conjugacy classes and irreps, and `SnCharBank` with its cached characters.

* An irrep object is represented by its partition (its contents are a function of the partition, `mkIrrep`); a
  pointer to it by its position in the vector `irreps`.
* `std::map` is an association list; two keys are the same key if neither is `<` the other. A failed comparison
  (`SNOB2_ASSERT`) stops the program (`none`), as does an access outside a vector.
* `cnine::indexed_map` (not part of the repository) is a list of pairs in the order of insertion.
* `IntegerPartitions(n)` is `IP.partitions n`; its own cache is the subject of C13.
-/

namespace Snob

/-- keys `a`, `b` of a `std::map<IntegerPartition,..>` are equivalent -/
def keyEq (a b : List Nat) : Option Bool := do
  let x ← IP.lt a b
  let y ← IP.lt b a
  some (!x && !y)

/-- `std::map::find` -/
def mapFind : List (List Nat × Nat) → List Nat → Option (Option Nat)
  | [], _ => some none
  | (k, v) :: m, x => do
    let e ← keyEq k x
    let r ← mapFind m x
    some (if e then some v else r)

/-- `map[x]=v` -/
def mapSet : List (List Nat × Nat) → List Nat → Nat → Option (List (List Nat × Nat))
  | [], x, v => some [(x, v)]
  | (k, w) :: m, x, v => do
    let e ← keyEq k x
    if e then some ((k, v) :: m)
    else do
      let m' ← mapSet m x v
      some ((k, w) :: m')

/-- Sn/SnObj.hpp:34-56: the mutable members of `SnObj`. -/
structure SnObjSt where
  n : Nat
  irreps : List (List Nat)
  irrepMap : List (List Nat × Nat)
  cclasses : List (List Nat)
  cclassMap : List (List Nat × Nat)
deriving DecidableEq

namespace SnObjSt

/-- Sn/SnObj.hpp:60-63 the constructor. -/
def new (n : Nat) : SnObjSt := ⟨n, [], [], [], []⟩

/-- Sn/SnObj.hpp:151-155: the loop of `make_cclasses` from index `i` on. -/
def classLoop : List (List Nat) → Nat → SnObjSt → Option SnObjSt
  | [], _, o => some o
  | c :: cs, i, o => do
    let m ← mapSet o.cclassMap c i
    classLoop cs (i + 1) { o with cclasses := o.cclasses ++ [c], cclassMap := m }

/-- Sn/SnObj.hpp:148-157 `make_cclasses`. -/
def makeCclasses (o : SnObjSt) : Option SnObjSt :=
  if o.cclasses.length > 0 then some o else classLoop (IP.partitions o.n) 0 o

/-- Sn/SnObj.hpp:130-133 `ncclasses`. -/
def ncclasses (o : SnObjSt) : Option (SnObjSt × Nat) := do
  let o ← makeCclasses o
  some (o, o.cclasses.length)

/-- Sn/SnObj.hpp:135-138 `cclass(i)`. -/
def cclass (o : SnObjSt) (i : Nat) : Option (SnObjSt × List Nat) := do
  let o ← makeCclasses o
  let c ← o.cclasses[i]?
  some (o, c)

/-- Sn/SnObj.hpp:140-143 `index(lambda)`: `cclass_map[lambda]` enters a zero if there is no such key. -/
def index (o : SnObjSt) (lambda : List Nat) : Option (SnObjSt × Nat) := do
  let o ← makeCclasses o
  let r ← mapFind o.cclassMap lambda
  match r with
  | some i => some (o, i)
  | none => do
    let m ← mapSet o.cclassMap lambda 0
    some ({ o with cclassMap := m }, 0)

/-- Sn/SnObj.hpp:169-176 `get_irrep(lambda)`: the pointer returned. -/
def getIrrep (o : SnObjSt) (lambda : List Nat) : Option (SnObjSt × Nat) := do
  let r ← mapFind o.irrepMap lambda
  match r with
  | some i => some (o, i)
  | none => do
    let m ← mapSet o.irrepMap lambda o.irreps.length
    some ({ o with irreps := o.irreps ++ [lambda], irrepMap := m }, o.irreps.length)

/-- Sn/SnObj.hpp:213-215: the loop of `make_all_irreps`. -/
def irrepLoop : List (List Nat) → SnObjSt → Option SnObjSt
  | [], o => some o
  | c :: cs, o => do
    let (o, _) ← getIrrep o c
    irrepLoop cs o

/-- Sn/SnObj.hpp:210-216 `make_all_irreps`; the flag `all_irreps` (line 56) is never set. -/
def makeAllIrreps (o : SnObjSt) : Option SnObjSt := irrepLoop (IP.partitions o.n) o

/-- Sn/Sn.hpp:152-154 `irrep(lambda)`: the irrep object returned, given by its partition. -/
def irrep (o : SnObjSt) (lambda : List Nat) : Option (SnObjSt × List Nat) := do
  let (o, i) ← o.getIrrep lambda
  let c ← o.irreps[i]?
  some (o, c)

/-- Sn/Sn_IrrepHelper.hpp:46-54 `irreps[i]`. -/
def irrepAt (o : SnObjSt) (i : Nat) : Option (SnObjSt × List Nat) := do
  let o ← o.makeAllIrreps
  let c ← o.irreps[i]?
  some (o, c)

/-- Sn/Sn_IrrepHelper.hpp:56-64 `irreps[lambda]`. -/
def irrepBy (o : SnObjSt) (lambda : List Nat) : Option (SnObjSt × List Nat) := do
  let o ← o.makeAllIrreps
  irrep o lambda

/-- Sn/SnObj.hpp:178-181 `get_all_irreps`. -/
def allIrreps (o : SnObjSt) : Option (SnObjSt × List (List Nat)) := do
  let o ← o.makeAllIrreps
  some (o, o.irreps)

end SnObjSt

/-- Sn/SnCharBank.hpp:21-31: one level of the bank of characters. -/
structure CharLevel where
  n : Nat
  chars : List (List Nat × List ℝ)

/-- the global objects `_snbank` and `_sncharbank` -/
structure World where
  sn : List SnObjSt
  levels : List CharLevel

namespace World

/-- the state at program start -/
def empty : World := ⟨[], []⟩

/-- Sn/SnBank.hpp:35-44 `get_Sn(n)`: the objects that are missing are made; `get_Sn(0)` reads `sn[-1]`. -/
def getSn (w : World) (n : Nat) : Option World :=
  if n = 0 then none
  else if n ≤ w.sn.length then some w
  else some { w with sn := w.sn ++ (List.range' (w.sn.length + 1) (n - w.sn.length)).map SnObjSt.new }

/-- Call a method of the object that `get_Sn(n)` returns. -/
def onSn {α : Type} (w : World) (n : Nat) (f : SnObjSt → Option (SnObjSt × α)) : Option (World × α) := do
  let w ← w.getSn n
  let o ← w.sn[n - 1]?
  let (o', a) ← f o
  some ({ w with sn := w.sn.set (n - 1) o' }, a)

/-- Sn/SnCharBank.hpp:90-98 `get_level(n)`; 78-87 is the same code. -/
def getLevel (w : World) (n : Nat) : Option World :=
  if n = 0 then none
  else if n ≤ w.levels.length then some w
  else some { w with levels := w.levels ++ (List.range' (w.levels.length + 1) (n - w.levels.length)).map (⟨·, []⟩) }

/-- Sn/SnCharBank.hpp:42-43: `chi->set_value(i,rho->character(G->cclass(i)))` from index `i` on, `k` times. -/
noncomputable def valueLoop (R : IrrepObj) (n : Nat) : Nat → Nat → World → Option (World × List ℝ)
  | 0, _, w => some (w, [])
  | k + 1, i, w => do
    let (w, c) ← w.onSn n (·.cclass i)
    let x ← R.character c
    let (w, xs) ← valueLoop R n k (i + 1) w
    some (w, x :: xs)

/-- Sn/SnBank.hpp:46-48 `get_irrep(lambda)`: the irrep object returned, given by its partition. -/
def bankIrrep (w : World) (lambda : List Nat) : Option (World × List Nat) :=
  w.onSn (IP.getn lambda) (·.irrep lambda)

/-- Sn/SnCharBank.hpp:34-48 `SnCharBankLevel::get_character(lambda)` on the level of `n`. -/
noncomputable def levelCharacter (w : World) (n : Nat) (lambda : List Nat) : Option (World × List ℝ) := do
  let L ← w.levels[n - 1]?
  if IP.getn lambda ≠ L.n then none
  else
    match L.chars.find? (fun e => IP.eqb e.1 lambda) with
    | some e => some (w, e.2)
    | none => do
      let (w, size) ← w.onSn L.n (·.ncclasses)
      let (w, mu) ← w.bankIrrep lambda
      let R ← mkIrrep mu
      let (w, xs) ← valueLoop R L.n size 0 w
      some ({ w with levels := w.levels.set (n - 1) { L with chars := L.chars ++ [(lambda, xs)] } }, xs)

/-- Sn/SnCharBank.hpp:78-87 `SnCharBank::get_character(lambda)`. -/
noncomputable def getCharacter (w : World) (lambda : List Nat) : Option (World × List ℝ) := do
  let w ← w.getLevel (IP.getn lambda)
  w.levelCharacter (IP.getn lambda) lambda

/-- Sn/SnCharBank.hpp:54-58 `make_all_chars`. -/
noncomputable def makeAllChars (n : Nat) : List (List Nat) → World → Option World
  | [], w => some w
  | c :: cs, w => do
    let (w, _) ← w.levelCharacter n c
    makeAllChars n cs w

end World

/-- The calls a program can make. -/
inductive Call
  /-- `Sn(n)`, Sn/SnBank.hpp:35 -/
  | sn (n : Nat)
  /-- `Sn(n).ncclasses()`, Sn/Sn.hpp:99-101 -/
  | ncclasses (n : Nat)
  /-- `Sn(n).cclass(i)` Sn/Sn.hpp:103-105, `cclasses[i]` Sn/Sn_CclassHelper.hpp:46-52 -/
  | cclass (n i : Nat)
  /-- `Sn(n).cclass(lambda)` Sn/Sn.hpp:107-109 -/
  | cclassOf (n : Nat) (lambda : List Nat)
  /-- `Sn(n).index(lambda)` Sn/Sn.hpp:111-117 -/
  | index (n : Nat) (lambda : List Nat)
  /-- `Sn(n).class_size(i)` Sn/Sn.hpp:140-142 -/
  | classSize (n i : Nat)
  /-- `Sn(n).irrep(lambda)` Sn/Sn.hpp:152-154; `SnIrrep(lambda)` -/
  | irrep (n : Nat) (lambda : List Nat)
  /-- `Sn(n).irreps[i]` Sn/Sn_IrrepHelper.hpp:46-54 -/
  | irrepAt (n i : Nat)
  /-- `Sn(n).irreps[lambda]` Sn/Sn_IrrepHelper.hpp:56-64 -/
  | irrepBy (n : Nat) (lambda : List Nat)
  /-- `Sn(n).all_irreps()` Sn/Sn.hpp:156-162 -/
  | allIrreps (n : Nat)
  /-- `SnCharacter(lambda)` Sn/SnCharacter.hpp:31-32, `Sn(n).character(lambda)` Sn/Sn.hpp:178-180 -/
  | character (lambda : List Nat)
  /-- `Sn(n).character(i)` Sn/Sn.hpp:173-175 -/
  | characterAt (n i : Nat)
  /-- `Sn(n).characters[i]` Sn/Sn_CharacterHelper.hpp:46-49 -/
  | charactersAt (n i : Nat)
  /-- `Sn(n).characters[lambda]` Sn/Sn_CharacterHelper.hpp:51-54 -/
  | charactersBy (n : Nat) (lambda : List Nat)
  /-- `SnCharacter(lambda)(mu)` Sn/SnClassFunction.hpp:66-68 -/
  | value (lambda mu : List Nat)
deriving DecidableEq

/-- What a call returns. -/
inductive Val
  | unit
  | nat (i : Nat)
  /-- a class, or an irrep given by its partition -/
  | part (p : List Nat)
  | parts (l : List (List Nat))
  | fn (l : List ℝ)
  | real (x : ℝ)

namespace World

/-- Sn/Sn.hpp:40-59: making an object `Sn(n)` asks for the `SnObj`, and its member `characters`
(Sn/Sn_CharacterHelper.hpp:32-33) for the level of the bank of characters. -/
def mkSn (w : World) (n : Nat) : Option World := do
  let w ← w.getSn n
  w.getLevel n

/-- One call. -/
noncomputable def exec (w : World) : Call → Option (World × Val)
  | .sn n => do
    let w ← w.mkSn n
    some (w, .unit)
  | .ncclasses n => do
    let w ← w.mkSn n
    let (w, k) ← w.onSn n (·.ncclasses)
    some (w, .nat k)
  | .cclass n i => do
    let w ← w.mkSn n
    let (w, c) ← w.onSn n (·.cclass i)
    some (w, .part c)
  | .cclassOf n lambda => do
    let w ← w.mkSn n
    let (w, i) ← w.onSn n (·.index lambda)
    let (w, c) ← w.onSn n (·.cclass i)
    some (w, .part c)
  | .index n lambda => do
    let w ← w.mkSn n
    let (w, i) ← w.onSn n (·.index lambda)
    some (w, .nat i)
  | .classSize n i => do
    let w ← w.mkSn n
    let (w, c) ← w.onSn n (·.cclass i)
    let k ← classSize n c
    some (w, .nat k)
  | .irrep n lambda => do
    let w ← w.mkSn n
    let (w, c) ← w.onSn n (·.irrep lambda)
    some (w, .part c)
  | .irrepAt n i => do
    let w ← w.mkSn n
    let (w, c) ← w.onSn n (·.irrepAt i)
    some (w, .part c)
  | .irrepBy n lambda => do
    let w ← w.mkSn n
    let (w, c) ← w.onSn n (·.irrepBy lambda)
    some (w, .part c)
  | .allIrreps n => do
    let w ← w.mkSn n
    let (w, l) ← w.onSn n (·.allIrreps)
    some (w, .parts l)
  | .character lambda => do
    let (w, xs) ← w.getCharacter lambda
    some (w, .fn xs)
  | .characterAt n _ => do
    let w ← w.mkSn n
    let (w, xs) ← w.getCharacter [n]
    some (w, .fn xs)
  | .charactersAt n i => do
    let w ← w.mkSn n
    let w ← makeAllChars n (IP.partitions n) w
    let L ← w.levels[n - 1]?
    let e ← L.chars[i]?
    some (w, .fn e.2)
  | .charactersBy n lambda => do
    let w ← w.mkSn n
    let (w, xs) ← w.levelCharacter n lambda
    some (w, .fn xs)
  | .value lambda mu => do
    let (w, xs) ← w.getCharacter lambda
    let (w, i) ← w.onSn (IP.getn mu) (·.index mu)
    let x ← xs[i]?
    some (w, .real x)

/-- A sequence of calls. -/
noncomputable def run (w : World) : List Call → Option World
  | [] => some w
  | c :: cs => do
    let (w, _) ← w.exec c
    run w cs

end World

end Snob
