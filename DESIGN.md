# Formal model of Snob2

Source: risi-kondor/Snob2, read as text in /repo. Proof assistant: Lean 4.33.0 with Mathlib.

## Layout

* `lean/Verif/Model/*`  - model of the C++ code, function by function, with file and line citations.
* `lean/Verif/Spec/*`   - the specification vocabulary, independent of the model.
* `lean/Verif/Proofs/*` - helper lemmas.
* `lean/Verif/Tests/*`  - comparison of the model with outputs printed in the documentation.
* `lean/Verif/Props/*`  - the property theorems (named after the property ids) and examples that meet their hypotheses.

## Trusted base

* The Lean 4.33.0 kernel and the Mathlib version of the sandbox.
* Axioms: every theorem named in MANIFEST.json depends on at most `propext`, `Classical.choice` and `Quot.sound`.
  No axiom is declared in this project, and `sorry`, `native_decide`, `bv_decide` and compiler-trusting evaluation
  are not used. `decide` and `decide +kernel` (checked by the kernel) occur only in concrete facts and examples.
* The model itself: the files under `lean/Verif/Model` are a manual reading of the C++ text. Each definition cites the
  lines it stands for. Nothing checks this reading mechanically, except against the outputs recorded in the documentation:

### Validation against recorded outputs

The pages /repo/python/doc/source/*.rst show sessions with the compiled library. `lean/Verif/Tests/Documented.lean` evaluates the
model on the same calls and compares (elements, index, classes, types, permutations, partitions, tableaux, translates and inverse of a
function). `validation/documented.py` compares the printed matrices and Fourier transforms with the formulas that the specification
states (Young's orthogonal form, `sum_s f(s) rho(s^-1)`, the columns kept on Sn/Sm, the character of [3,2]); it agrees with all of them.
These are tests of the reading of the code, not proofs.

## Modelling decisions

* `int` is modelled by unbounded integers (`Int`/`Nat`). Overflow is the subject of C57 and C109 only.
* `float`/`double` are modelled by exact real numbers; rounding is the subject of C105-C108 and C110-C114 only (Model/Float).
* C arrays allocated by `new int[n]` are lists of cells `Option Int`; `none` is an unset cell. A read of an unset cell,
  or any access outside the array, is undefined behaviour and makes the whole modelled call return `none`.
* A failed assertion (SNOB2_ASSERT, CNINE_ASSRT, CHECK) also makes the call return `none`.
* cnine (tensors, factorial tables) is not part of /repo. Tensor get/set/slice/fuse/split/block operations are taken at
  their evident meaning. For `ScaleSomeSlicesFn` and `GivensSomeSlicesFn` (C32) the meaning is taken from the
  reference loops left in comments at Sn/SnIrrepObj.hpp:245-267.
* Threads do not occur in the modelled code.
* Global banks are explicit states threaded through the calls (Model/SnBank.lean); elsewhere a bank lookup is
  replaced by the function it caches.

## What is modelled

* combinatorial/IntegerPartition*.hpp, combinatorial/YoungTableau*.hpp: construction, listing, restriction, hooks, transpositions
  (Model/Partition, Model/Tableau).
* Sn/SnElement.hpp, Sn/SnObj.hpp, Sn/SnOverSmObj.hpp, combinatorial/ContiguousCycle.hpp, combinatorial/Transposition.hpp, Sn/SnClasses.hpp: group
  arithmetic, indexing, cosets, conjugacy classes (Model/Perm, SnElements, Classes).
* Sn/SnIrrepObj.hpp, Sn/SnIrrep.hpp: YOR tables, evaluation, apply_left for matrices, blocks and tensor views
  (Model/Irrep, Model/View).
* Sn/SnBank.hpp, Sn/SnIrrepBank.hpp, Sn/SnCharBank.hpp, Sn/SnClasses.hpp: caches as state machines (Model/SnBank).
* Sn/SnFunction.hpp, include/FunctionOnGroup.hpp: values, translations, inversion, convolution (Model/Function);
  python/src/snob/SnFunction.py: the backward functions (Model/PyGrad).
* groups/Cyclic*.hpp, groups/Dihedral*.hpp, groups/Product*.hpp: elements, indexing, irreps (Model/Groups).
  groups/FourierOnGroup.hpp (Model/FourierOnGroup) does not compile against the present FunctionOnGroup, because it binds a
  reference to a pointer member; modelled is what it says with `*f.G` and `&G` in their place.
* Sn/SnType.hpp, Sn/SnRepresentation*.hpp: types, restriction, induction, the bank (Model/SnType).
* Sn/SnCGbank.hpp: coeff, CGproduct of partitions and of types, with caches (Model/CG); get_CGfactors, learn,
  accumulate_CGprod and the products of vectors (Model/CGVec), with the eigensolver as a parameter of which only `EigOk`
  is assumed, and real arithmetic. CheckCG: see C136 (printing left out, the random parts are arguments).
* combinatorial/CombinatorialBank*.hpp, combinatorial/IntegerPartitionObj.hpp: the bank with its caches (Model/CombiBank).
* Counts and indices once more in 32 bit arithmetic (Model/Machine).
* include/Snob2_session.hpp, combinatorial/CombinatorialClasses.hpp, Sn/SnClasses.hpp: constructors and destructors; the
  table pointers of Sn/SnIrrepObj.hpp (Model/Lifetime).
* Sn/SnProductRepresentation.hpp and the action on the middle index of a view, Sn/SnIrrepObj.hpp:271-343 (Model/ProductRep).
* Sn/SnPart.hpp, Sn/SnVec.hpp: apply, downB, up, cat, accumulate_up (Model/SnVec); cnine::indexed_mapB is taken to keep its
  entries in the order of insertion. The action by cycles and transpositions and `add` (Model/SnVecAct).
* Sn/SnPartB.hpp, Sn/SnVecB.hpp and the products of batched vectors in Sn/SnCGbank.hpp (Model/SnVecB, Model/CGVecB). Assumed of
  cnine: an iterator of an associative_container gives the object or a reference to it (the code uses `p.`), so `auto p` in a
  loop is a copy; `block3` with sizes left out or -1 takes all that is left of the index; `add` of tensors of different sizes is
  undefined; `sub[mu]*M` multiplies the last index.
* Sn/SnClassFunction.hpp: construction, reading and writing by partition or number, with the bank as state (Model/ClassFn).
* combinatorial/IntegerPartition.hpp:22-118 and combinatorial/Permutation.hpp:28-176 once more as owners of memory (Model/Heap):
  numbered blocks, objects with a length and a pointer, `new[]`, `delete[]`, loads and stores; everything else uses lists.
* Sn/SnWeights.hpp (Model/SnWeights); a map from partitions to tensors is a partial function of the partition.
* Sn/SnWeights.hpp:18-72 and groups/FourierOnGroup.hpp:19-38 as owners of tensors with the copies the compiler makes (Model/Shallow).
* Sn/SnFFTbank.hpp and Sn/ClausenFFT.hpp, except printing (Model/FFTBank); the hash of a key is not modelled.
* Sn/ClausenFFT*.hpp and the parts of Sn/SnMultiPart.hpp, Sn/SnMultiVec.hpp they use (Model/FFT).
* Loops over Sn/Sn_*Helper.hpp and `random` (Model/Iterate). `cnine::GenericIterator` is an index from `0` to `size()`; `random` is a
  function of the number drawn.

* Sn/SnIrrepObj.hpp, Sn/SnCharBank.hpp and Sn/SnCGbank.hpp:58-80 once more with the rounding of every operation (Model/Float): the tables in
  `double`, `apply_left`, `operator()`, `character`, `coeff`. Simplifications: unbounded exponents, each operation rounded by itself (no fused
  multiply-add, no extended precision), correctly rounded `sqrt`; the caches are modelled for C108 (`cgRun`).
Not modelled: printing of real numbers, overflow and underflow of real numbers, the GPU code, random constructors, the Python layer except where a property names it,
and cnine itself.

## Where the code does not do what a user relies on

Each item is a theorem about the model (negation with a witness), listed with its property.

* C27 `transp(i,j)` for i>j. C62 column block action of descending cycles. C44, C45, C63 irreps[i], character(i),
  characters[i] depend on the history.
* C32 `computeYORtensors` writes the rotation with number `i-ndiags`, not the next free one; when the exchanged pairs
  are not packed this leaves zero rotations in use, or writes outside the table.
* C37, C38, C40 The FFT uses the action of C32. It is right for n<=4 and m>=n-1, wrong for every n>=5, m<=n-2, undefined for n>=6, m<=3.
* C40 For m=n the part carries the irrep of S1.
* C52 `DihedralGroup(1).s()` is no element of the group. C53 For even n the dihedral irrep 3 returns matrices of the
  wrong size. C65 Irreps of product groups return zero matrices. `ProductGroup` has no `index(x)`, and
  `ProductGroupElement::index()` refers to a member that does not exist, so functions on products do not compile.
* C47 Looking up a multiplicity inserts an entry. C66 `restricted()` of an induced representation is the original one.
  C67 The bank of representations stops the program when types over different n are requested.
* C56 Destroying a class-set object leaves a dangling bank; a session created after one leaves banks absent. C61 The
  destructor of an irrep object that was never evaluated frees uninitialised pointers.
* C71 `CGproduct` of vectors is undefined unless every part has exactly one column.
* C73 `CGproduct` of vectors does not commute with the action for any n>=5. `learn` aligns the blocks of a constituent by the
  exchange of the last two letters, from the first block; a block whose entry in that matrix is zero (below 0.0001) is left with
  whatever signs the eigenvectors have (n=4 is decided by these signs). Where a constituent occurs more than once it also uses B^T where B is needed.
* C74 Weights for types with different irreps: a part is missing in the product, or the program stops. C77 Weights made from two
  vectors are tensors with one dimension and cannot be multiplied by anything.
* C79 `up` of batched vectors adds a block to all rows that are left, so it is undefined as soon as a partition has two corners.
  C80 `apply_inplace` of batched vectors changes copies of the parts, and leaves the vector as it was.
* C82 As the FFT (C37, C40) shortens a column for n>=5, it does not keep inner products.
* C84 The gradients of Python's convolution lack an inversion (and all backward functions use unbound names).
* C85 `apply_inplace_inv` of a vector does nothing for descending cycles. C86 `add` of vectors adds parts by position without
  comparing partitions. C87 A class function asked for a partition of another number uses the class with the same number there.
* C90 `x=x` of a partition or permutation reads a fresh block; an object moved from keeps its length with a null pointer, so that
  `getn()` and copies of it are undefined.
* C64 Python's `inv_snsm` is bound to `inv`, which labels the function with n-m+1.
* **C91** `SnWeights` and `FourierOnGroup` delete tensors in the destructor and have no copy constructor or assignment of their own.
  A copy shares the tensors (`C91_shared`), destroying both deletes them twice (`C91_copies`), and assignment loses tensors
  (`C91_lost`).
* **C92** On a dihedral group with an even number of rotations `FourierOnGroup(f)` fails an assertion for every function
  (`C92_dihedral_even_fails`), and on a product of groups what comes back is zero (`C92_product_fails`).
* **C93** `FourierOnGroup::inv()` is the transform of the inverted function for functions with real values only
  (`C93_inv_fails`).
- `SnMultiPart::apply(sigma,o,s)` (Sn/SnMultiPart.hpp:263-270, 280-287) changes the dimensions of `*this` and not of the
  copy it works on. With more than one column per copy it changes the wrong columns or leaves the memory (C103).
- `ProductGroup::str` (groups/ProductGroup.hpp:77) has a comma operator in place of a `+`, so the text before it is dropped:
  `CyclicGroup(2)*CyclicGroup(5)` and `CyclicGroup(3)*CyclicGroup(5)` are printed alike (C104).
- C105: `SnCGbank::coeff` (Sn/SnCGbank.hpp:77-79) converts the `float` `t` to `int` by cutting off. Rounding errors put `t` just below the coefficient: with IEEE arithmetic `coeff((5,2),(2,2,2,1),(2,2,2,1))` has `t=1-2^(-23)` and returns 0 instead of 1. Rounding to the nearest integer would be right at least up to n=9.
- C107: characters are not integers: with IEEE arithmetic `character` of (5,2) at (4,1,1,1) is `-2^(-24)` instead of 0.
- C108: `SnCGbank::coeff` keeps under an ordered triple the value computed for the order of the first call, and in `float` these values differ: the result (0 or 1) depends on what was called before. `CGproduct((5,1,1),(2,2,1,1,1))` in a new program misses `(3,2,2)`.
- `SnOverSmObj` computes n!/m! by way of n!, so that even S13/S12 with its 13 cosets has no size (C109).
- **C116** `for s in Sn(n)`, `list(IntegerPartitions(n))`, `for t in StandardYoungTableaux(lambda)`, `list(IntegerPartition([2,1]))` in Python: the classes have `__getitem__` but no `__iter__`, and `__getitem__` does not raise IndexError, so the loop runs off the end: `C116_elements_wrong` (undefined behaviour for n>=2, endless for n=1), `C116_partitions_wrong`, `C116_tableaux_wrong`, `C116_parts_wrong`. `for i in pi` on a permutation reads in front of its array at the first step (`C116_images_wrong`). `s in Sn(n)` is undefined for a permutation of another size (`C116_contains_wrong`). `Sn(n)[-1]` is the identity and not the last element (`C116_minus_one_wrong`).
- **C120** `SnIrrepObj::computeYORtensors` writes rotation number k of a row to slot `i-ix`, which can exceed the row. For most shapes from n=6 this overwrites slots of the next row; for `[3,2,1]` and tau=5 it is past the end of the allocated block (heap overflow), also when the range checks of the tensors are compiled out. Every FFT on S6 and beyond does this. Writing to the next free slot repairs both this and the wrong results of C32/C37 (`C120_next_free`).
- **C121** `ProductGroup` keeps references to its factors, so in `auto G=A*B*C;` the group `G` refers to the temporary `A*B`, which is destroyed at the end of the declaration: every later call of `G.size()` or `G.element(i)` is undefined behaviour (`C121_three_factors`). The same for a function that returns a product with a local factor (`C121_returned`).
- **C123** In Python `SnPart.ones` and `SnVec.ones` are bound to the C++ function `identity`: for every partition except [n] and [1,...,1] the result is the identity matrix and not a matrix of ones (`C123_python_ones`, `C123_python_vec_ones`).
- **C128** `T[r,c]=x` does not check the column (`rows.at(r)[c]=x`, YoungTableau.hpp:84), unlike `T[r,c]`: it writes outside the row. `index(m)` returns (0,0) for a number that does not occur, so `apply_transp(i,j)` with such a `j` overwrites the first box (`C128_absent`).
- C136: the vectors that CheckCG prints differ for suitable partitions for every n>=5 (the product is not equivariant, C73); nothing in the code compares them, so learning goes on.

## Properties

* **C01** Permutation product is composition. Model/Perm.lean `mul`: the C loop over memory cells (UB and unset cells are explicit). Loop invariant, refinement to `Equiv.Perm (Fin n)`.
* **C02** Permutations form a group under *, inv. Same model; corollaries of refinement to Mathlib's permutation group.
* **C03** In-place product agrees with product. Model `mulAssign`; refinement to reversed product, negation by a witness in S3, partial for commuting pairs.
* **C04** check_valid decides being a permutation. Model `checkValid` with its found-array; loop invariant for arbitrary integer cells.
* **C05** Transposition and contiguous cycle constructors. Models `transposition`, `contiguousCycle`; loop invariants; refinement to explicit permutations.
* **C06** Equality of permutations is extensional. Model `eqb`.
* **C07** Element enumeration of Sn is a bijection. Models `element`, `index` (cells, digits, insertion/deletion); induction on n; bijection with Equiv.Perm.
* **C08** Enumeration is nested along S1<S2<...<Sn. Digit description of the enumeration, induction.
* **C09** SnOverSm enumerates cosets. Models of SnOverSmObj element/index; reduction to C07/C08.
* **C10** Partition list is complete and duplicate free. Model `IP.partitions` (make_partitions recursion); bijection with Mathlib's `Nat.Partition`; induction.
* **C11** Partition list is in decreasing lexicographic order. Sortedness of `IP.partitions` by induction.
* **C12** Comparison of partitions is a strict total order compatible with ==. Models `IP.eqb`, `IP.lt`; order axioms.
* **C13** Hash agrees with equality. Models `IP.hash1`, `hash2`, `hash3` on 64 bit words; negation witness and partial; which parts of a pair or triple count (a triple collides with the one whose first two are exchanged).
* **C14** Sub-partition traversal is exact. Models `IP.parents` (foreach_sub), `IP.bankParents`.
* **C15** Adding and removing boxes. Models `IP.add`, `remove`, `extendable`, `shortenable`.
* **C16** hooklength() is the number of standard tableaux. Model `hooklength`. Proofs/Hook.lean: Frobenius' formula for the number of tableaux by induction on n, from an identity between rational functions (Lagrange interpolation), and the product of the hooks of a row.
* **C17** Restriction ordered partition list. Model `IP.proposeRO` with fuel (out of fuel is failure, proved not to happen); invariant.
* **C18** order(x0,x1,x2) sorts its arguments. Model `order3`; negation witness; permutation theorem.
* **C19** Standard Young tableaux list is complete and duplicate free. Model `tableaux`; tableaux are encoded as lattice words; induction on n.
* **C20** Tableaux list is adapted to restriction. Same model, statement on lists.
* **C21** apply_transp swaps two entries and reports their axial distance. Model `applyTransp`.
* **C22** Tableau accessors. Models of YoungTableau methods.
* **C23** Irreps are homomorphisms. Model of computeYOR tables, in-place row updates and the shift word; Coxeter relations from content arithmetic; word lemma for any Coxeter family.
* **C24** Irreps are orthogonal. Orthogonality of the generators and C23.
* **C25** apply_left multiplies by rho. In-place loop with done[] flags equals matrix product.
* **C26** Cycle and transposition shortcuts agree with rho. Word manipulation in a Coxeter family.
* **C27** irrep.transp(i,j) is the matrix of the transposition. Model transp; negation witness; partial for i<=j.
* **C28** Restriction is block diagonal. Block structure of the tableau list.
* **C29** Jucys-Murphy elements are diagonal with the contents. Recursion JM_{k+1}=s_k JM_k s_k + s_k.
* **C30** Irreps are irreducible, pairwise inequivalent and satisfy Schur orthogonality. Spectrum of Jucys-Murphy elements, connectivity of tableaux under admissible swaps.
* **C31** Irreps are complete. Young lattice commutation relation, Schur orthogonality, square matrix argument.
* **C32** Tensor-view action equals matrix action. Model of the Givens tables; negation witness for [3,2]; partial.
* **C33** Characters. Model of character(mu); conjugacy to canonical representative.
* **C34** Class sizes. Model class_size; Mathlib's count of permutations of given cycle type.
* **C35** Kronecker coefficients are exact, symmetric and history independent. Model coeff and cache over the banks (Model/CG); the sum over classes is the trace of the projection to the invariants (Proofs/KronInv); invariant of the caches (Proofs/CG). `order` does not always sort (C18), so a coefficient can be cached under two keys; this has no observable effect.
* **C36** Clebsch-Gordan decomposition loses nothing. Model CGproduct with its caches; the skipped partitions have multiplicity zero because a Young subgroup has too few invariants (Proofs/Kron); column orthogonality of characters.
* **C37** Forward FFT computes the Fourier transform. Model of the block templates and `uptransform` (Model/FFT), parametrised by the action on views; induction along the levels (FFTLevels, FFTTmpl, FFTBlock, FFTUp, FFTForm). False as coded for n>=5 (FFTBad, and for every m<=n-2: TwoRow, ViewNorm, FFTLoss; the faulty action never lengthens a column and shortens one); proved as coded for n<=4, and for all n with the matrix action.
* **C38** Inverse FFT inverts the FFT. Model of `downtransform`; levelwise identity from Schur orthogonality and induction/restriction (Induce, FFTDown, FFTInv, FFTSurj). Same split as C37; as coded the round trip returns less than one at some group element (FFTLossUp, FFTLossEnd); the other order follows because the forward transform is linear (FFTLin).
* **C39** Fourier transform turns translation and convolution into multiplication. Stated of whatever is the Fourier transform of a function (`TransformOf`), existence from C37; reindexing of sums over the group. As coded for n<=4.
* **C40** FFT on Sn/Sm. As C37/C38 with start level m; columns of the lifted transform by averaging over cosets (FFTLift). Same split.
* **C41** Translations of functions on Sn. Generic loop lemma of C55 at the class `snGroup n`, which implements the group by C01, C02, C07.
* **C42** Convolution of functions on Sn. Loop invariants (Proofs/Function); algebra by reindexing sums.
* **C43** Conjugacy class indexing. State machine for class tables.
* **C44** irreps[i] is the i-th partition's irrep. State machine for the irrep list; negation witness; partial.
* **C45** character(i) is the i-th character. Model; negation.
* **C46** Combinatorial caches are transparent. Model/CombiBank: the bank as a state with memo tables. Invariant `Ok` (filled tables hold the values of the functions without caches, parents are positions of the right partitions), order `Le` between states (filled tables are not changed), both kept by every query.
* **C47** Reading a multiplicity does not change a type. Association list model; negation witness; partial.
* **C48** Restriction and induction of types obey Frobenius reciprocity. Model down, make_induced as updates of an ordered map; adding and removing boxes (Proofs/SnRep).
* **C49** Restricting a vector and inducing it back. Model of downB, up, apply with the element loops and running offsets; a
  vector is compared by its partitions and columns (`obs`). Both compositions proved to be the identity; both maps commute
  with S_n through the block form of C28.
* **C50** Concatenation of vectors. Model of cat with its offsets; columns in argument order, type, action.
* **C51** Cyclic group. Integer arithmetic with C remainder semantics; irreps as powers of a primitive root of unity, geometric sums.
* **C52** Dihedral group. Same; refinement to the dihedral group of Mathlib. `s()` fails for n=1, `r(i)` for i outside 0..n-1.
* **C53** Dihedral irreps. Complex tensors; classification by two families; negation for k=3, n even; homomorphism and orthogonality of characters for the others.
* **C54** Direct products of groups. Generic in two classes that implement groups (`ImplementsOps`).
* **C55** Functions on any group. Loops generic in a class that implements a group (`Implements`).
* **C56** Library lifetime. Model/Lifetime: states of the global pointers; constructors and destructors as steps. False (negation witnesses); invariant over legal histories gives the exact conditions under which nothing dangles and nothing is deleted twice.
* **C57** Group order fits machine integers exactly up to n=12. Model/Machine.lean: the counting functions with every int result reduced, overflow undefined or wrapping; equality with the unbounded model from bounds.
* **C58** Product representation. Model/ProductRep: views with dimensions in the type, splitting and fusing of indices, the loops over
  adjacent transpositions on the middle index. Each step is one Kronecker factor; the loops are those of C26, C29.
* **C59** Assignment copies a permutation. Model `Perm.assign` over a heap of objects; negation for self assignment; partial.
* **C60** Content of the box between two partitions. Model `IP.contentOfDifference`.
* **C61** Irrep objects can be destroyed at any time. Model/Lifetime: states of the table pointers under calls of methods. False (witness); exact condition by counting the adjacent transpositions a call applies.
* **C62** Column block versions of apply_left. Model `applyCycleBlock`; shared loop lemmas with C26; negation for descending cycles; partial.
* **C63** characters[i] is the i-th character. State machine of SnCharBank; exact characterisation of the histories after which it holds; negation witness.
* **C64** Python inv_snsm returns a function on Sn/Sm. Model of the binding (calls `inv`); negation for m>=2; partial for m=1.
* **C65** Irreps of direct products. Negation.
* **C66** Restricting an induced representation. Model of the two pointers of SnRepresentationObj; negation for all types of positive dimension; partial.
* **C67** Representations of different symmetric groups. Model of the bank as an ordered map with the partial order of types; negation for all n≠m; partial for one n.
* **C68** Accumulating an induced vector. Model of accumulate_up with its two offset maps; compared with up.
* **C69** Clebsch-Gordan products keep inner products. Model/CGVec: the loops of learn over slots (matrices `V`, eigenvectors `U`,
  factors `F`), restriction, twisting and accumulate_up. Proofs/CGRef-CGStep: what the coefficients are, and that they are
  orthonormal at every level, by induction on n: the rows of equal Jucys-Murphy weights of the restricted products span what the
  tensor product contains, so the eigenvalues are the contents, each with the right multiplicity, and rotating back keeps
  orthonormality even where the alignment of the blocks goes wrong (C73). Proofs/CGLoop-CGAcc3: the loops compute these coefficients.
* **C70** Clebsch-Gordan products are bilinear. From the formula for the entries.
* **C71** Vectors with several columns. Undefined for every n>=2 (CGCols: the sizes do not fit at n=2, and the recursion gets there);
  for n=1 the product is computed.
* **C72** The trivial part is a unit of the product. Proofs/CGOne, CGTriv: all matrices that occur have one entry, so the
  coefficients are products of the signs the solver returns.
* **C73** Products commute with the action. False for n>=5 (Proofs/CGSign: the product with the part of (1,...,1) takes rows to the
  rows of the conjugate with signs that are forced by the action, and differ from those computed at the hook (n-3,1,1,1)).
  Partial: n<=3 (Proofs/CGSmall: the blocks in terms of a basis of the tensor product that is equivariant). For n=4 it
  depends on the signs the solver returns: with every solver or with the one that differs from it by the signs for 3x3 matrices it is
  false (Proofs/CGFour: (3,1)x(3,1) and (2,1,1), whose two blocks are not connected by the exchange of the last two letters).
  For every n it holds for the permutations of the first three letters (Proofs/CGFix, see C137).
* **C74** Weights map vectors of type y to type x. Model/SnWeights: the constructor loop (with the change of `y` by `y(lambda)`), the
  product part by part. Negations for irreps in only one of the types; partial for types with the same irreps.
* **C75** Products with weights are linear, equivariant and compose. From the formula for the entries of the product.
* **C76** Equivariant linear maps are weights. A linear map is expanded in unit vectors; Schur's lemma (Proofs/Schur) for the
  images of the unit vectors.
* **C77** Weights made from two vectors. Negation; partial: number of entries.
* **C78** Batched vectors: each member behaves as a vector. Model/SnVecB; a batch is seen through its members, which are vectors of
  Model/SnVec; each loop is simulated step by step, undefined outcomes included (Proofs/SnVecB, SnVecB2).
* **C79** Inducing batched vectors. Negation for every type with a partition with two corners; partial for rectangles.
* **C80** apply_inplace of batched vectors. Negation (for every n>=2, every size of the batch); partial for the identity.
* **C81** Clebsch-Gordan products of batches. Model/CGVecB: the batched functions and `learn` as it is written (one product of two
  batches of unit vectors). Induction on n: the batched product is simulated member by member (Proofs/CGVecB, CGVecB3), so
  `learn` gets the same matrices as in Model/CGVec (Proofs/CGVecB2).
* **C82** Plancherel's formula for the FFT. Spec/Plancherel: the inner product of two lists of parts. Completeness of the matrix
  entries (Proofs/Complete) gives it on Sn, functions constant on cosets give it on Sn/Sm (Proofs/Plancherel). Negation for the
  code with n>=5, m<=n-2: the column that C38/C40 show to be shortened; partial for n<=4 and m=n-1; reference action for all n.
* **C83** Adjoints of translation, inversion, convolution. Spec/Adjoint; sums over the group. Model/PyGrad: the backward functions of
  python/src/snob/SnFunction.py with the unbound names `tau`, `x`, `y` read as `ctx.tau`, `ctx.x`, `ctx.y`.
* **C84** The gradient of convolution. Negation for every n>=3 (functions that are one at a 3-cycle); partial for n<=2.
* **C85** Model/SnVecAct runs the two loops of the code through the part's irrep; compared with `SnVec.apply` of the cycle or
  transposition as a permutation. Partial: `apply_inplace_inv` only for ascending cycles (`C85_inv_descending`, `C85_inv_false`).
* **C86** `add` of vectors of the same type is the sum of the entries (`C86_add_partial`) and commutes with the action
  (`C86_add_apply`). Partial: other types of equal sizes are added as well (`C86_add_false`).
* **C87** Spec/ClassFn: a class function is a function of the partition; a history of calls is compared with that by an
  invariant. Partial: partitions of another number (`C87_foreign` says what is read, `C87_foreign_false`).
* **C88** The characters are a basis of the class functions: orthonormality (C33) and equal numbers of rows and columns.
* **C89** Characters are integers. Proofs/Rational: with the scale of a tableau the product of the coefficients of its inversions of
  content difference at least two, the scaled matrices of the generators are rational; matrices of finite order have traces that are
  algebraic integers.
* **C90** Spec/Heap: the values a user expects after a program, and which programs a user may write. Proofs/Heap: invariant that every
  live block has exactly one owner, that holds what is expected, through every statement. Partial: `x=x` (`C90_self_assign`).
* **C91** Spec/Shallow: what a user expects. Proofs/Shallow: invariant (every tensor has one owner) through every statement, and a count
  of pointers against tensors that shows that a copy of an object with tensors cannot be undone.
* **C92** Proofs/FourierOnGroup: both loops in closed form; the function comes back if a certain kernel is a Kronecker delta.
  Props/FourierOnGroup: the kernel, from sums of roots of unity.
* **C93** The parts as sums over the group; `left` and `right` from the homomorphism property, `inv` from unitarity, and from C92 that a
  transform determines the function.
* **C94** Spec/Conjugate: mirror images of diagrams. Proofs/Conjugate: transposing a tableau negates the contents, so the diagonal
  coefficients change sign and the others do not; the parity of the inversions of the lattice word takes care of the signs.
* **C95** Spec/Central: content sums. Proofs/Central: Schur's lemma makes the class sum a scalar, the group ring over the integers is finite
  so the scalar is an algebraic integer, and it is rational by C89; the transpositions from the traces of the Jucys-Murphy elements.
* **C96** Restriction from the block form (C28), induction from it by both orthogonality relations (Proofs/Branch).
* **C97** Spec/Linear: linear combinations of vectors. Proofs/FFTLin, Proofs/FFTLinDown: three runs side by side, for two inputs and
  their combination, through every loop of both transforms; no step depends on the data.
* **C98** Model/FFTBank: the cache and the object a user holds; Spec/FFTRequests: the requests of a program. Proofs/FFTBank: invariant
  (every object held is the one the cache finds for its request, and is what the constructor makes).
* **C99** Proofs/FFTDims: dimensions and number of values through the forward transform, for any action on views; the order of a type from C11.
* **C100** Model/Iterate: `size()`, `[i]` and the loop, with arbitrary calls in its body. Proofs/Iterate: once everything is made, the
  vector behind the loop is a rearrangement of the partitions and no later call changes it.
* **C101** From the bijection of C07 and the class sizes of C34.
* **C102** Spec/CharFn. From Schur orthogonality (C30), completeness (C31) and the meaning of `convolve` (C42).
- **C103** (partial: false of the code). `Model/MultiAct.lean` has the in-place actions on the matrix with `N*m` columns, and
  `apply` on flat memory, because it uses two indices for a tensor with three. Proved: the in-place versions multiply exactly
  the copies asked for; for ascending cycles the inverse version undoes the other. `apply` is right for one column per copy.
  Otherwise it changes the wrong columns (`C103_apply_columns`, exact) or leaves the memory (`C103_apply_undefined`).
  Assumption about cnine: strides `(N*m,m,1)` and no range checks.
- **C104** (partial: false of the code for product groups). `Model/Print.lean` has the functions `str` as lists of characters with decimal
  notation for `int`. Proved: every kind of object is told apart, and (except tableaux) one sees where the text of an object
  ends, so that products of products also work. False for `ProductGroup` (`C104_product_group`). Not modelled: real numbers.
- **C105** Model/Float, Spec/Float, Proofs/FloatRnd (rounding), FloatAct (the loops), FloatErr, FloatChar, FloatCG (error analysis: one adjacent transposition multiplies the relative error of a column by 1+(3/2)(u+12v+12uv) because the exact step is orthogonal; the sum over the classes is bounded by Cauchy-Schwarz and the orthogonality of characters), FloatIeee (numbers), FloatEval (the kernel evaluates the rounded functions; proved correct against Model/Float), FloatSeven (the witness at n=7), Props/Float. The full statement is `C105_statement`; `C105_false` proves its negation. `C105_coeff_partial` is what holds up to n=10. Missing in the partial theorem: nothing is said about which of the two values is returned, and beyond n=10 only the error bound `C105_error` is proved. Up to `n=6` the statement holds (C105_small): all characters and all sums are computed by the kernel (FloatSmall, FloatTab1-6).
- **C106** Model/Float, Proofs/FloatAct, FloatErr, FloatChar, Props/Float. `C106_apply` is the bound for arbitrary roundings, `C106_ieee` the instance for IEEE arithmetic, `C106_exact` says that without rounding the functions are those of Model/Irrep.
- **C107** Model/Float, Proofs/FloatChar, FloatIeee, FloatSeven, Props/Float. `C107_statement` (exactness) is false, `C107_false`; `C107_error` and `C107_ieee` are the bounds.
- **C108** (Model/Float `CGCache`, `cgCoeff`, `cgProduct`, `cgOuter`, `cgRun`; Proofs/FloatCache, FloatSmall, FloatTab1-7; Props/FloatHistory): the caches of `SnCGbank` around the rounded `coeff`. Invariant `CacheOk`: what is kept under a triple is the value computed for some order of its members, and a kept type has such values as multiplicities. If all coefficients of one `n` are right, all answers for this `n` are (`answer_right`); by C105_small this is so up to `n=6` (all characters of `S_1` to `S_6` are computed in IEEE arithmetic by the kernel). The witness computes three characters of `S_7` in the same way. `C108_exact`: with no rounding the answers are those of Model/CG. `C108_stable`: caches only grow. The banks of irreps and characters behind `coeff` (C34, C97) are not repeated here: the tables and characters are computed where they are used.
- **C109** Coset spaces in machine integers. Model/Machine.lean (`snsmSize`, `snsmElement`, `snsmIndex`): the functions of C09 with every int result reduced. Equality with the unbounded model for n <= 12 from bounds on the partial sums (Proofs/MachineCoset.lean), so C09 carries over; undefined from n = 13 (size) and n = 14 (element, index) on; with wrap-around the size of Sn/S(n-1) is wrong for every n >= 13.
- **C110** Convolution in floating point. Model/FloatFn.lean: the double loop of Model/Function with every product and sum rounded. Proofs/FloatFn.lean: error of a recursive sum of rounded products (`fsum_err`), exactness when all partial sums are numbers of the format (`fsum_int`), sums with one term (`fsum_single`); the loop computes such a sum. Sharpness: (2^24,1)*(1,1) on S2.
- **C111** Forward FFT in floating point. Model/FloatFFT.lean: Model/FFT with every product and sum rounded and the tables of `computeYORtensors` computed in `double` and stored in `float`; the order of the additions in `reduce2_destructively_into` (cnine, not in the repository) is a tree, over which the theorems quantify. Spec/FloatFFT.lean: `NearVec`, `SumTree.Covers`. Proofs/FloatFFTAct: one transposition is an isometry on each column up to a relative error (`FActOk`), for the matrix action and, when the tables are packed, for the view action. Proofs/FloatFFT: simulation of the exact transform by the rounded one, columnwise (`ColNear`, `MNear`), level by level. Proofs/FloatFFTBad: undefined for n>=6. Proofs/FloatFFTLost: for n>=5 and m<=n-2 the row of the first tableau of [n-2,2] is lost also with rounding, an error of 1/(n-2). Props/FFTFive (Proofs/FFTDefined): for n<=5 the transforms as coded do return vectors and functions of the right shape, exact (C37, C38, C40) and in `float` (C111, C112), so that at n=5 the failure is silent; definedness is carried over from the reference transform, step by step, since it depends on the sizes only.
- **C112** Inverse FFT and round trip in floating point. Model/FloatFFT.lean (`levelDown`, `unblockLoop`: the weight `d/(d' n)` is a quotient of two rounded integers, then product and sum rounded). Proofs/FloatIFFT: for each part of the smaller level the blocks arrive with weights that are positive and add up to 1 (`wtSum_one`, from the restriction of the irreps at the identity), at most `n` of them (`wtCount_le`, since each weight is at least `1/n`), so a column stays within the largest column of the level above; simulation of the exact loop by the rounded one as in C111. Proofs/FloatFFTBad: undefined for n>=6. Independent statement: `IsTransform` (C37) and plain distances.
- **C113** Acting on vectors in floating point. Model/FloatVec.lean: the functions of SnPart and SnVec that act, over Model/Float (parts point to the irreps of `Rounding.mkIrrep`). Proofs/FloatVec: every call is a word in the adjacent transpositions, of the stated length and with the stated product, over any action of the generators (`actCall_word`), so a sequence is one word and the error of C106 along a word (`Repr'.near_word`) applies. Independent statement (Spec/FloatVec): a call means the permutation that `SnElement`, `ContiguousCycle`, `Transposition` give (`ActCall.Means`, with the functions of Model/Perm), the exact action is that of C56/C85, distances of columns are plain sums of squares. Descending cycles in apply_inplace_inv are excluded (they do nothing, C85).
- **C114** Relative accuracy of the FFT. Model as in C111 and C112. Proofs/FloatEnergy, FloatEnergyDown: every vector of parts of the right shape at a level is the partial transform `tF` of exactly one function on the cosets (`exists_fun`), and Plancherel's formula holds at each level (`energy`). So the rounded step of a level equals the exact step followed by a change of the function, and the size of the change is read off from the errors of the columns, which are now bounded column by column (`up_local`, `down_near`), with Cauchy-Schwarz over the slices going up and over the blocks, whose weights add up to 1, going down. Spec/FourierDist: the distance of two transforms, independent of the model's FFT.
- **C115** Number of operations of the FFT. Model/Count: the programs of Model/FFT and the `apply` functions of Model/Irrep again, in a monad `Cnt` that adds up operations (one for each addition, multiplication or write of a float entry; the arithmetic on indices and the filling of tables when the transform object is built are not counted). Proofs/Count: `Costs x y k Q`: the counted program `x` has the value of the program `y` of the other theorems, costs at most `k`, and its result satisfies `Q`; rules for the loops. Proofs/CountFFT, CountLoop: each level costs at most a constant times the number of entries, which is the size of the function at every level (`sum_size`, from the branching rule). The counted programs are proved to compute the same as the uncounted ones, so the bounds are about the transforms of C37, C38 and C40.
- **C116** Loops in Python. Model/PySeq: the sequence protocol of Python for classes that have `__getitem__` and no `__iter__` (`pyLoop`, `pyIn`: ask for item 0, 1, ... until IndexError) over the bindings; no `__getitem__` of the module raises IndexError. Proofs/PySeq: `Lists get l`: the items are those of `l` and the one behind is undefined; `element_beyond`: `element(e)` writes outside its array for every `e >= n!`, `n >= 2`; `element_minus`: `element(-1)` is the identity for `n >= 3`. Props/PySeq: index loops over `range(len(obj))` are complete (`_partial`); loops over the object itself never end with a result, and are undefined one step behind the last item.
- **C117** Majorization. Props/Dominance: `Majorizes` by partial sums of rows; the first row where p and q differ is longer in p, so the lexicographic order of C11 refines it; `index` and `cclass` through the invariant `ObjInv` of the group object. `C117_order_is_not_majorization` gives two classes next to each other neither of which majorizes the other.
- **C118** Arithmetic of types. Model as in C36 and C48. Proofs/TypeRing: a type is described by its multiplicities and by a nonnegative function that is positive on the listed partitions (`Desc`); products, restriction, induction and sums act on both in the same way, and two types with one description are equal. The laws for functions on partitions follow from characters (`char_inj`: they are linearly independent; `char_conv`, `char_res`), the projection formula from Frobenius reciprocity (`pair_ind`, `pair_conv`).
- **C119** Symmetries of a function show in its transform. `TransformOf` (C37) relates a list of parts to a function; `convolve` and `inv` are those of C39. Props/Symmetry: the transform as a matrix `hat`; inversion formula from completeness of the matrix coefficients, so `hat` is injective; conjugation of the argument conjugates the matrices, so Schur's lemma gives multiples of the identity; inversion of the argument transposes; the transform of an autocorrelation is a product with the transpose. The theorems hold for any list of parts that is the transform; `C119_fft_partial` states them for the coded transform, which is defined for n at most 4 only (C37).
- **C120** The tables of the tensor action in memory. Model/ViewFlat: the tables as one block in which the rows follow each other, so that a slot past the end of a row is a slot of the next row (C32, C37 and C40 stop there instead), and only a slot past the end of the block is undefined. Props/ViewFlat: wherever the checked tables are defined the block gives the same; for n at most 5 that is always; for `[3,2,1]` the last transposition writes past the end of the block, so every call fails, and with it every transform for n at least 6 and m at most 3. Also a repair, which is not in the repository: with the number of rotations written so far as slot, the FFT is the Fourier transform and `inv_snsm` its inverse for all n and m (`C120_next_free`). Not modelled: what is behind the block; the block of the indices and the block of the coefficients are taken together.
- **C121** Lifetime of the factors of a product of groups. Model/GroupRef: memory as a list of places, a product object with the places of its factors, temporaries destroyed at the end of a declaration and local variables at the end of their scope; reading a destroyed object is undefined. Spec/GroupRef: groups as values, with the operations of C51, C52, C54. Props/GroupRef: invariant (every variable stands for its value and refers to earlier variables only) for programs that multiply named groups; for every program and every expression with three or more factors, the new variable cannot be used; likewise a returned product with a local factor; exact condition `C121_exact`. Simplified: operands are evaluated from left to right; elements and irreps (which keep copies) are not part of the memory.
- **C122** Functions of the coset and functions on a subgroup. Props/Cosets: over the matrix form of the transform (C119) both directions for functions that are constant on cosets, from the injectivity of the transform and the invariant vectors of the restricted representations; block diagonality from C28. The statements quantify over every list of parts that is a Fourier transform (entries as sums over the group); with C39 they hold for what the code computes for n≤4 (`C122_fft_partial`). Nothing new is modelled.
- **C123** Filled objects. Model/Fill: fill patterns (zero, ones, identity; identity for square tensors only), the constructors of SnPart, SnVec, SnFunction that take one, and the names that the Python classes bind. Props/Fill: the transforms of the filled functions, over the matrix form of the transform; irreps of dimension one are exactly [n] and [1,...,1] (a homomorphism to the numbers is determined by its value at a transposition; orthogonality of characters), so Python's `ones` is right for these two only.
- **C124** Counting with characters. Nothing new is modelled. Proofs/Counting: the Fourier transform of the number of solutions is the sum of the matrices over all candidates, which is a multiple of the identity by the orthogonality relations; comparison with the transform of a combination of characters (injectivity, C119). Props/Counting: the statements with the values that the library returns after every history (C33), the class sizes (C34) and the product of permutations (C01).
- **C125** Transforms on groups, the other way round. Nothing new is modelled (Model/FourierOnGroup, C92). Props/FourierOnto: the matrix of the inverse transform times that of the transform is the identity (C92) and both are square because the squares of the dimensions add up to the order, so they commute; Plancherel's formula from the same kernel; convolution from the homomorphism property (C93).
- **C126** Kernels and deconvolution. Nothing new is modelled. Proofs/Kernels: the transform of a convolution is the product of the matrices; every family of matrices is a transform (orthogonality relations); the quadratic form of a translation invariant kernel is the sum over the irreps of the quadratic forms of the parts at the columns of the transform of the weights. Props/Kernels: the equivalences for the parts in memory.
- **C127** Repeated convolution (upper bound lemma for random walks). Nothing new is modelled; `convolveTimes` in Props/Kernels is the loop `g=g.convolve(f)`. Proofs/Kernels: powers of the matrices, Plancherel's formula (C82) for the difference to the constant function, and the inequality of Cauchy and Schwarz.
- **C128** Editing tableaux. Model/TabEdit: `at`, `set_value`, `==` with `int` indices and entries, outcomes value, `std::out_of_range`, undefined; the Python `T[v]`, `T[v]=x`; programs of such statements; series of `apply_transp(i)`. Proofs/TabEdit: induction over the program; connectedness from Schur's lemma: the projection to the tableaux that can be reached commutes with the generators, so it is a scalar.
- **C129** Random transpositions. Nothing new is modelled (`convolve`, `IntegerPartitions`, `hooklength`, the transform). Spec: `StepOf` in Props/Walk. Proofs/Walk: the sum of the matrices of the transpositions is the sum of the Jucys-Murphy elements (C29), a scalar; the content sum of a diagram with at least two rows is at most n(n-3)/2, and at least -n(n-1)/2 as characters are bounded by the dimension; Plancherel's formula. The statements about kernels and distances do not mention the FFT.
- **C130** Correlations. Nothing new is modelled (`left_translate`, values, the transform). Spec: `ValuesOf`, `SameAuto`, `SameTriple`, `VPart.gram`, `VPart.Regular` speak of values and of entries of parts only. Proofs/Correlate: the transform of the autocorrelation is `hat f * (hat f)ᵀ` and the transform is injective; for triple correlations a function with invertible transform has a convolution inverse, convolving with it leaves the triple correlation of the function that is one at the unit, and only functions that are one at a single element and zero elsewhere have it. `C130_regular_needed` is the counterexample (sign and zero). `C130_fft_partial` is about the transform as coded, n≤4 (C37).
- **C131** Programs combining vectors. Model/VecProg: statements `mul`, `cat`, `add` over a list of vectors (the calls are those of Model/SnWeights, Model/SnVec, Model/SnVecAct; `add` changes its object, also when both arguments are the same vector). Proofs/VecProg: each vector of a program has the partitions of the input, and its columns are mixtures of those of the input with coefficients that depend on the type of the input only (`Img`); by induction on the program (`run_img`). The theorems speak of `obs`, `SameType`, `IsComb`, `apply` and `mulVec` only. In C131 all vectors come from the input; adding vectors of different types kept aside is not refused by the code and does not commute with the group (`C86_add_false`).
- **C132** Marginals. Nothing new is modelled. Spec/Marginals: `marginal`, `SameMarginals`, `SumOfPlaces` speak of values and of images of places only (places need not be distinct). Proofs/Marginals: a marginal is a sum over a double coset of the permutations of the first n-k letters; the transform of these sums is `P * rho y * hat f` with `P` the sum of the matrices of the subgroup, which is zero if the first row is shorter than n-k (`sum_symF_zero`) and has a unit row otherwise, so that orthogonality of the entries gives `hat f = 0`. `C132_band_limited` from this by duality and Plancherel's formula. `C132_fft_partial` is about the transform as coded, n≤4 (C37).
- **C133** Programs in `float`. Model/FloatProg: the statements of Model/VecProg with the products and sums rounded one after the other; the order of the sums of a matrix product (done in `cnine`) is an argument, a `SumTree` per number of products. Spec/FloatProg: `WithinEntries`, `absVec`, `absW`, `VStmt.cost`. Proofs/FloatProg: a program is run on three vectors at once (exact, rounded, absolute values), for any relation between corresponding entries that products, sums and copies preserve (`rel3_run`); the properties are three choices of this relation.
- **C134** Types of programs. Nothing new is modelled (Model/VecProg). Spec/VecTypes is the check, on lists of partitions with numbers of columns. Proved statement by statement, with the invariant that all vectors of a program have the partitions of its input.
- **C135** Weights as convolutions. Nothing new is modelled: `SnWeights::operator*` (Model/SnWeights), `convolve` and `right_translate` (Model/Function), the FFT (Model/FFT). Spec/WeightsConv says what square weights, transposes, linear and commuting maps are, on the cells of a function only. Proved from the transform of a convolution, the inversion formula (every family of matrices is the transform of one function) and the Plancherel formula. `C135_fft_partial`: through the coded FFT only `n<=4`, it is wrong beyond (C37, C38).
- **C136** What CheckCG certifies. Model/CheckCG: the loop over i and the five calls of each round (apply of a Transposition to each part and to the product, and CGproduct of batched parts twice); printing is left out and the two Gaussian parts are arguments. Spec/CheckCG: parts with one column, agreement of the pairs as observed vectors, commuting with one permutation. Proved by writing both vectors through the coefficients of the product: they agree exactly when a bilinear form in the two parts vanishes. The coefficients are compatible with products of permutations, and the adjacent transpositions generate, which gives the equivalence; a bilinear form that does not vanish at (x0,y0) is not zero at all four of x, x+t x0 against y, y+t y0. Together with C73 this says what is printed for n<=3 and n>=5.
- **C137** Programs with products of vectors. Model/NetProg: the statements of C131 and CGproduct, run on a list of any number of vectors. Spec/NetProg: the sums a program takes when it is run, and acting on all inputs. Proofs/CGFix: the coefficients of the product for n+1 letters are combinations of columns of those for n letters, whatever factors are learnt, so they stay compatible with every permutation of n letters that those for n letters are compatible with; starting from three letters (C73) this gives the permutations of the first three, for every n. Proofs/NetProg: a relation of vectors kept by the four operations is kept by every program (NetRel.run); applied to 'have the same type' and to 'is acted on by'. The same lemma gives the addition to C73 for single products and to C136 for the first two printed pairs. Not proved: which permutations beyond these commute for a given solver with n>=4.
- **C138** Programs over different numbers of letters. Model/LetterProg: the statements of C137 with restriction and induction. Spec/LetterProg: the permutation of the first m letters as an array with the remaining letters appended (ActedBy), and which statements fit (LStmt.Fits). Proofs/LetterProg: 'is acted on by the permutation with d more fixed letters, for some d' is kept by every statement, with C49 for restriction and induction and Proofs/CGFix for products; a vector that has a part determines its number of letters, and one without parts belongs to all. up(tau,v) asks of v only that it has the columns the restriction of tau asks for (SnVec.Covers); columns after those change nothing (C138_up_first). When v has fewer, the code reads out of bounds or stops at its assertion: up(tau,v) is defined exactly when v has them and no multiplicity is negative (C138_up_defined_iff, Proofs/UpDefined).
- **C139** Adjoints of the operations on vectors. No new model (SnVec.apply, downB, cat, up, Weights.mulVec). Spec/VecInner: transposed weights, the restriction of a vector; SnVec.dot of C69. Proofs/VecInner: the columns of the restriction are the slices of the columns, and the slices of a column make up the column; adjointness of up from C49 (down of up is the identity); linearity of restriction from its having an adjoint, since every entry is an inner product with a unit vector.
- **C140** Programs that restrict and induce are linear and, when they come back, are products with weights. No new model (Model/LetterProg of C138). Proofs/LetterLin: three runs at once, with entrywise combinations of their vectors, kept by every statement; combinations are compared column by column, since cat and up move columns. The single SnWeights comes from C76 (every equivariant linear map of vectors is given by weights), with C138 for equivariance. A result with other partitions than the input is not covered: the product with weights keeps the partitions.
- **C141** Rounding in programs that restrict and induce. Model/LetterFloat: the statements of C138 in float; products with weights and sums are those of C133, and restriction, `cat` and induction are the exact ones, because they add blocks to zeros and adding zero does not round. The Clebsch-Gordan product is left out (its matrices come from an eigenvalue solver), so programs are those without it. Proofs/LetterFloat: three runs at once (exact, float, absolute values); their vectors are compared through lists of columns of triples of entries, on which slicing and joining columns act entry by entry. As in C133 overflow and underflow are not modelled.
- **C142** Equivariance up to rounding. Nothing new is modelled. The permuted inputs and the permuted result are taken under the exact `SnVec.apply`; rounding inside `apply` itself is not part of the statement. Proofs/LetterClose: the difference of the permuted float result and the float result on permuted inputs is the permuted error of the first run minus the error of the second. The action keeps the inner product (C139) so the length of the first is the length of the error, and C141 with the triangle inequality bounds both.
- **C143** Inputs with errors. Nothing new is modelled: programs of C141 and the calls of C113. Spec/LetterNear: bounds, inputs given up to an error, lengths of columns. The three runs of C141 start from triples of true input, given input and bound. After calls in float the parts of a vector point to irreps computed in float; the programs do not read those (products, sums, `cat`, `down` and `up` use the partition only), so the second run is stated for the vector with the same entries (`SameEntries`, as in C113).
- **C144** Weights with errors. Nothing new is modelled. Spec/LetterWeights: weights up to a relative error, the number of products with weights. Proofs/LetterWeights: an error in a weight is an error in the entry it is multiplied with, so the product is that of C143 with one factor 1+eta more; all other statements are those of C141.
- **C145** Without rounding. Nothing new is modelled. The error bounds of C110 to C114 begin with calls that succeed exactly, so they say nothing of calls that fail; here the float models with a rounding that changes nothing are shown equal to the exact models, function by function along the code. The only steps that are not the same computation are the order of the sums of slices and the `int` denominator of the inverse transform.
- **C146** Dimensions decide. Nothing new is modelled. Spec/Like: vectors, weights and programs that differ in their numbers only. Proofs/Like, Proofs/LikeFFT and Proofs/LikeProd: the two runs are followed side by side, function by function; no branch of the code depends on a number in a vector (the search for eigenvalues in `learn` depends on the partitions and the solver only). With C144 and C145 one of the two runs can be the exact one. Not-a-number values and overflow are not modelled.
