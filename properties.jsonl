{"id": "C01", "title": "Permutation product is composition", "statement": "For permutations a, b of the same n, a*b is a valid permutation of n whose value at every i is a(b(i)); computing it reads and writes only inside the two arrays and leaves no entry of the result unset.", "quantifier": "all n, all pairs of valid permutations of n", "why_tests_cant": "n! squared pairs for every n; tests look at a few products of small n.", "anchors": ["combinatorial/Permutation.hpp: operator*, operator()"]}
{"id": "C02", "title": "Permutations form a group under *, inv", "statement": "The product is associative, Identity(n) is neutral on both sides, and p.inv() (and !p) is a valid permutation that is a two-sided inverse.", "quantifier": "all n, all triples of valid permutations of n", "why_tests_cant": "A law over all triples of permutations of every n.", "anchors": ["combinatorial/Permutation.hpp: operator*, operator!, inv, Identity"]}
{"id": "C03", "title": "In-place product agrees with product", "statement": "After a*=b, a has the value a*b had before the call. (False of the code: it becomes b*a.)", "quantifier": "all n, all pairs of valid permutations of n", "why_tests_cant": "Agreement on commuting pairs hides the failure; only a statement over all pairs settles it.", "anchors": ["combinatorial/Permutation.hpp: operator*=", "python/bindings/Snob2_bindings.cpp: __imul__"]}
{"id": "C04", "title": "check_valid decides being a permutation", "statement": "For an arbitrary integer array of length n, the validity check answers true exactly when the array lists each of 1..n once, and it never reads or writes outside its buffers whatever the entries are. set_value(i,j) changes the value at i and nothing else, and keeps a permutation only if the value was there already.", "quantifier": "all n and all integer arrays, including negative and out of range entries", "why_tests_cant": "The input space is all integer arrays.", "anchors": ["combinatorial/Permutation.hpp: check_valid"]}
{"id": "C05", "title": "Transposition and contiguous cycle constructors", "statement": "The transposition (i j) exchanges i and j and fixes every other point; ContiguousCycle(a,b) with a<=b sends i to i+1 for a<=i<b and b to a, with a>b it is the inverse cycle of (b,a); all are valid permutations.", "quantifier": "all n and all 1<=i,j,a,b<=n", "why_tests_cant": "Quadratically many pairs for every n, including both orientations and the degenerate a=b.", "anchors": ["combinatorial/Permutation.hpp: Permutation(n,Transposition), contiguous_cycle", "combinatorial/ContiguousCycle.hpp", "combinatorial/Transposition.hpp"]}
{"id": "C06", "title": "Equality of permutations is extensional", "statement": "p==q holds exactly when p and q act on the same set 1..n and send every point to the same value.", "quantifier": "all pairs of permutations, also of different n", "why_tests_cant": "Ranges over all pairs.", "anchors": ["combinatorial/Permutation.hpp: operator=="]}
{"id": "C07", "title": "Element enumeration of Sn is a bijection", "statement": "Sn(n).element(i) for 0<=i<n! is a valid permutation, the n! results are pairwise different and exhaust the permutations of n, and index(element(i))=i, element(index(s))=s.", "quantifier": "all n>=1, all i<n!, all permutations of n", "why_tests_cant": "n! grows out of reach of enumeration; the claim is for every n.", "anchors": ["Sn/SnObj.hpp: element, index", "Sn/Sn.hpp: element, index, size"]}
{"id": "C08", "title": "Enumeration is nested along S1<S2<...<Sn", "statement": "Elements i and j of Sn have i/m! = j/m! exactly when one is obtained from the other by composing on the left with a permutation that moves only 1..m; the first m! elements are exactly the permutations fixing m+1..n.", "quantifier": "all n, all m<=n, all pairs of indices", "why_tests_cant": "Quantifies over all subgroup levels and all pairs.", "anchors": ["Sn/SnObj.hpp: element, index", "python/doc/source/Sn.rst"]}
{"id": "C09", "title": "SnOverSm enumerates cosets", "statement": "SnOverSm(n,m) has n!/m! elements, index(element(i))=i for every i in range, and index(s)=index(t) exactly when s and t lie in the same coset of S_m (left composition with permutations of 1..m).", "quantifier": "all 1<=m<=n, all indices, all pairs of permutations", "why_tests_cant": "All n, m and all pairs of permutations.", "anchors": ["Sn/SnOverSmObj.hpp: element, index, size"]}
{"id": "C10", "title": "Partition list is complete and duplicate free", "statement": "IntegerPartitions(n) lists every weakly decreasing sequence of positive integers with sum n exactly once and nothing else.", "quantifier": "all n>=1, all integer sequences", "why_tests_cant": "Completeness over all n is an induction, tests compare counts for few n.", "anchors": ["combinatorial/CombinatorialBankLevel.hpp: make_partitions", "combinatorial/IntegerPartitions.hpp: operator[], size"]}
{"id": "C11", "title": "Partition list is in decreasing lexicographic order", "statement": "IntegerPartitions(n)[i] comes before IntegerPartitions(n)[j] (i<j) exactly when it is lexicographically larger; this agrees with operator<.", "quantifier": "all n, all i<j", "why_tests_cant": "All n, all pairs.", "anchors": ["combinatorial/CombinatorialBankLevel.hpp: make_partitions", "combinatorial/IntegerPartition.hpp: operator<"]}
{"id": "C12", "title": "Comparison of partitions is a strict total order compatible with ==", "statement": "operator== is an equivalence relation (it ignores trailing zeros); on partitions of one n operator< is irreflexive, transitive and trichotomous with respect to ==, so it may key a std::map; on partitions of different n it stops the program.", "quantifier": "all partitions (with or without trailing zeros)", "why_tests_cant": "Order axioms over all triples.", "anchors": ["combinatorial/IntegerPartition.hpp: operator==, operator<"]}
{"id": "C13", "title": "Hash agrees with equality", "statement": "Partitions that compare equal have equal std::hash, as unordered containers require. (False of the code when one has trailing zero parts; holds for partitions without trailing zeros.)", "quantifier": "all pairs of partitions", "why_tests_cant": "Container behaviour depends on all pairs of keys; tests do not hash padded partitions.", "anchors": ["combinatorial/IntegerPartition.hpp: std::hash<IntegerPartition>, operator=="]}
{"id": "C14", "title": "Sub-partition traversal is exact", "statement": "foreach_sub and parents() visit every partition obtained from a partition of n by removing one box exactly once, nothing else, ordered from the lowest row to the highest, that is in decreasing lexicographic order.", "quantifier": "all partitions of all n>=1", "why_tests_cant": "All partitions.", "anchors": ["combinatorial/IntegerPartition.hpp: foreach_sub, parents, shortenable", "combinatorial/CombinatorialBankLevel.hpp: get_IntegerPartitionObj"]}
{"id": "C15", "title": "Adding and removing boxes", "statement": "add(r,1) on an extendable row and remove(r,1) on a shortenable row give partitions of n+1 and n-1 and undo each other; extendable and shortenable are true exactly when the result is a partition.", "quantifier": "all partitions, all rows", "why_tests_cant": "All partitions and rows.", "anchors": ["combinatorial/IntegerPartition.hpp: add, remove, extendable, shortenable"]}
{"id": "C16", "title": "hooklength() is the number of standard tableaux", "statement": "For a partition of n the value returned by hooklength() equals the number of standard Young tableaux of that shape, i.e. the dimension of the irrep; the successive integer divisions lose nothing. (In C++ int arithmetic only for n<=12.)", "quantifier": "all partitions of all n", "why_tests_cant": "It is the hook length theorem for every partition.", "anchors": ["combinatorial/IntegerPartition.hpp: hooklength, factorial", "Sn/SnIrrepObj.hpp: dimension d"]}
{"id": "C17", "title": "Restriction ordered partition list", "statement": "The restriction-ordered list of partitions of n is a rearrangement of the partition list, and if every sub-partition of a later-listed partition q is a sub-partition of p then q is emitted before p.", "quantifier": "all n, all pairs of partitions", "why_tests_cant": "Recursive marking algorithm; claim is about every pair for every n.", "anchors": ["combinatorial/CombinatorialBankLevel.hpp: make_ROpartitions, proposeRO"]}
{"id": "C18", "title": "order(x0,x1,x2) sorts its arguments", "statement": "order returns the three arguments in nondecreasing order. (False of the code in the last branch; it always returns a rearrangement of its arguments.)", "quantifier": "all triples over any totally ordered type", "why_tests_cant": "All triples of all types; the failing branch needs three strictly decreasing keys.", "anchors": ["include/Snob2_base.hpp: order", "Sn/SnCGbank.hpp: coeff"]}
{"id": "C19", "title": "Standard Young tableaux list is complete and duplicate free", "statement": "StandardYoungTableaux(lambda) lists exactly the fillings of the shape lambda by 1..n with increasing rows and columns, each once.", "quantifier": "all partitions of all n>=1", "why_tests_cant": "Exponentially many tableaux, all shapes.", "anchors": ["combinatorial/IntegerPartitionObj.hpp: make_tableaux", "combinatorial/StandardYoungTableaux.hpp"]}
{"id": "C20", "title": "Tableaux list is adapted to restriction", "statement": "The tableaux of lambda are listed as the concatenation, over the sub-partitions in order, of the lists of tableaux of the sub-partition with n added in the removed box; so the basis of each irrep is adapted to S_{n-1}.", "quantifier": "all partitions of all n>=2", "why_tests_cant": "All shapes, used by FFT and by restriction.", "anchors": ["combinatorial/IntegerPartitionObj.hpp: make_tableaux", "Sn/SnIrrepObj.hpp"]}
{"id": "C21", "title": "apply_transp swaps two entries and reports their axial distance", "statement": "apply_transp(i,j) exchanges the entries i and j of a tableau, leaves all others in place, returns content(j)-content(i) before the swap, and applied twice restores the tableau. For an adjacent pair in a standard tableau the result is standard exactly when the distance is not 1 or -1.", "quantifier": "all tableaux with distinct entries, all pairs of entries", "why_tests_cant": "All tableaux, all pairs.", "anchors": ["combinatorial/YoungTableau.hpp: apply_transp, index"]}
{"id": "C22", "title": "Tableau accessors", "statement": "shape() of a tableau built from lambda is lambda, the tableau built from lambda is standard, add then remove in the same row restores the tableau when that row is nonempty or new at the end. (remove on an inner one-box row deletes the last row instead.)", "quantifier": "all partitions, all tableaux and rows", "why_tests_cant": "All tableaux and rows.", "anchors": ["combinatorial/YoungTableau.hpp: YoungTableau(IntegerPartition), shape, add, remove"]}
{"id": "C23", "title": "Irreps are homomorphisms", "statement": "For every partition lambda of n, rho(s*t)=rho(s)rho(t) for all s,t in Sn and rho(identity)=I (exact real arithmetic).", "quantifier": "all n, all partitions, all pairs of group elements", "why_tests_cant": "n! squared equations for each irrep of each n; floating point tests on S4/S5 only sample.", "anchors": ["Sn/SnIrrepObj.hpp: operator(), apply_left, computeYOR", "Sn/SnIrrep.hpp: operator()"]}
{"id": "C24", "title": "Irreps are orthogonal", "statement": "rho(s) times its transpose is the identity, and rho(s.inv()) is the transpose of rho(s), so inner products are preserved (exact real arithmetic).", "quantifier": "all n, all partitions, all group elements", "why_tests_cant": "All group elements of all irreps.", "anchors": ["Sn/SnIrrepObj.hpp: operator(), computeYOR"]}
{"id": "C25", "title": "apply_left multiplies by rho", "statement": "Applying a permutation in place to any matrix with d rows replaces it by rho(s) times that matrix; in particular every tableau index looked up is inside the table and no row is lost by the in-place pairwise update.", "quantifier": "all n, all partitions, all permutations, all matrices of any width", "why_tests_cant": "All matrices and permutations; in-place update hazards depend on pairing.", "anchors": ["Sn/SnIrrepObj.hpp: apply_left(A,SnElement), apply_left(A,tau), computeYOR"]}
{"id": "C26", "title": "Cycle and transposition shortcuts agree with rho", "statement": "apply_left with a ContiguousCycle (either orientation), apply_left_inv with a ContiguousCycle, and apply_left with a Transposition give exactly rho of the corresponding permutation (its inverse) times the matrix.", "quantifier": "all n, all partitions, all 1<=a,b<=n", "why_tests_cant": "All cycles, transpositions, irreps.", "anchors": ["Sn/SnIrrepObj.hpp: apply_left(ContiguousCycle), apply_left_inv, apply_left(Transposition)"]}
{"id": "C27", "title": "irrep.transp(i,j) is the matrix of the transposition", "statement": "SnIrrep::transp(i,j), and SnIrrep applied to a Transposition, returns rho((i j)) for every i and j. (False of the code for i>j+1; holds for i<=j.)", "quantifier": "all n, all partitions, all i,j", "why_tests_cant": "The failing order of arguments has to be quantified over.", "anchors": ["Sn/SnIrrep.hpp: transp, operator()(Transposition)"]}
{"id": "C28", "title": "Restriction is block diagonal", "statement": "For s fixing n, rho_lambda(s) is block diagonal, with blocks rho_mu(s) for the sub-partitions mu in listing order; for lambda=[n] it is the trivial representation and for [1^n] the sign.", "quantifier": "all n, all partitions, all s fixing n", "why_tests_cant": "All irreps and all group elements.", "anchors": ["Sn/SnIrrepObj.hpp", "combinatorial/IntegerPartitionObj.hpp"]}
{"id": "C29", "title": "Jucys-Murphy elements are diagonal with the contents", "statement": "JucysMurphy(k) returns, for each tableau, the content of the entry k; equivalently the sum of rho((i k)) over i<k is diagonal with these entries.", "quantifier": "all n, all partitions, 1<=k<=n, all tableaux", "why_tests_cant": "All irreps, all k.", "anchors": ["Sn/SnIrrepObj.hpp: JucysMurphy", "combinatorial/IntegerPartition.hpp: content_of_difference"]}
{"id": "C30", "title": "Irreps are irreducible, pairwise inequivalent and satisfy Schur orthogonality", "statement": "A matrix intertwining rho_lambda and rho_mu is zero if lambda differs from mu and a multiple of the identity otherwise; hence sums over the group of products of matrix entries obey the orthogonality relations.", "quantifier": "all n, all pairs of partitions of n, all matrices", "why_tests_cant": "Schur's lemma over all intertwiners.", "anchors": ["Sn/SnIrrepObj.hpp: operator()"]}
{"id": "C31", "title": "Irreps are complete", "statement": "The squares of the dimensions of the irreps of Sn add up to n!, the dimensions of the irreps induced from mu add up to (n+1) times the dimension of mu, and the matrix entries of all irreps span the functions on the group (sum over lambda of d_lambda times character is n! at the identity and 0 elsewhere).", "quantifier": "all n, all partitions, all group elements", "why_tests_cant": "Holds for all n by induction.", "anchors": ["Sn/SnObj.hpp: get_all_irreps", "Sn/SnIrrepObj.hpp"]}
{"id": "C32", "title": "Tensor-view action equals matrix action", "statement": "apply_left on a tensor view (the path used by the FFT) gives the same result as apply_left on a matrix for every adjacent transposition. (False of the code: the rotation table for lambda=[3,2], tau=2 leaves a gap; holds whenever the first elements of the rotated pairs are consecutive among non-fixed rows, e.g. all n<=4.)", "quantifier": "all partitions, all tau, all tensors", "why_tests_cant": "The smallest failing shape has n=5 while the shipped test stops at n=4.", "anchors": ["Sn/SnIrrepObj.hpp: computeYORtensors, apply_left(view,tau)", "Sn/SnMultiPart.hpp", "Sn/ClausenFFTvecTmplt.hpp"]}
{"id": "C33", "title": "Characters", "statement": "SnCharacter(lambda) at a class mu is the trace of rho_lambda at every permutation of cycle type mu, and the characters are orthonormal with respect to the class-size weighted inner product.", "quantifier": "all n, all pairs of partitions, all permutations", "why_tests_cant": "All permutations of all cycle types.", "anchors": ["Sn/SnIrrepObj.hpp: character", "Sn/SnCharBank.hpp: get_character", "Sn/SnClassFunction.hpp"]}
{"id": "C34", "title": "Class sizes", "statement": "class_size(mu) is the number of permutations of cycle type mu; the sizes add up to n!.", "quantifier": "all n, all partitions of n", "why_tests_cant": "All partitions.", "anchors": ["Sn/Sn.hpp: class_size"]}
{"id": "C35", "title": "Kronecker coefficients are exact, symmetric and history independent", "statement": "coeff(l1,l2,l3) is a nonnegative integer, equal to the dimension of the invariants in the triple tensor product, invariant under permuting its arguments, and does not depend on which coefficients were requested before (exact arithmetic).", "quantifier": "all n, all triples of partitions, all histories of calls", "why_tests_cant": "All histories of a cache and all triples.", "anchors": ["Sn/SnCGbank.hpp: coeff", "include/Snob2_base.hpp: order"]}
{"id": "C36", "title": "Clebsch-Gordan decomposition loses nothing", "statement": "CGproduct(l1,l2), which skips partitions whose first row is too short, still lists every constituent of the tensor product with its multiplicity; multiplicities times dimensions add up to d1*d2.", "quantifier": "all n, all pairs of partitions", "why_tests_cant": "The skipping rule is a theorem about all triples.", "anchors": ["Sn/SnCGbank.hpp: CGproduct"]}
{"id": "C37", "title": "Forward FFT computes the Fourier transform", "statement": "ClausenFFT(n)(f) has one part per partition of n in listing order, and the part at lambda is the sum over s of f(s) rho_lambda(s.inv()), in the same basis as SnIrrep (exact arithmetic).", "quantifier": "all n, all functions on Sn, all partitions", "why_tests_cant": "n! dimensional input space for every n.", "anchors": ["Sn/ClausenFFTObj.hpp", "Sn/ClausenFFTvecTmplt.hpp: uptransform", "Sn/SnMultiPart.hpp", "Sn/SnMultiVec.hpp"]}
{"id": "C38", "title": "Inverse FFT inverts the FFT", "statement": "fft.inv(fft(f)) is f, labelled with n and with n! values, and fft(fft.inv(F)) is F for every F of the right shape (exact arithmetic).", "quantifier": "all n, all functions on Sn, all transforms", "why_tests_cant": "All real functions on Sn for every n.", "anchors": ["Sn/ClausenFFTObj.hpp: inv, operator()", "Sn/ClausenFFTvecTmplt.hpp: downtransform"]}
{"id": "C39", "title": "Fourier transform turns translation and convolution into multiplication", "statement": "Right translation of f by t multiplies every part from the left by rho(t.inv()); left translation multiplies from the right; convolve(f,g) gives the product of the parts of g and f in this order.", "quantifier": "all n, all functions, all group elements", "why_tests_cant": "All functions.", "anchors": ["Sn/SnFunction.hpp: left_translate, right_translate, convolve", "Sn/ClausenFFTObj.hpp"]}
{"id": "C40", "title": "FFT on Sn/Sm", "statement": "ClausenFFT(n,m) of a function f on cosets gives, for every shape with first row at least m, the columns belonging to tableaux with 1..m in the first row of the sum over the coset representatives x of f(x) rho(x.inv()); these are the columns, divided by m!, of the Sn transform of f lifted to Sn, whose other columns are zero; and inv_snsm recovers the function.", "quantifier": "all 1<=m<=n, all functions on cosets", "why_tests_cant": "All n, m, functions.", "anchors": ["Sn/ClausenFFTObj.hpp: operator()(SnOverSmFunction), inv_snsm", "Sn/ClausenFFTvecTmplt.hpp"]}
{"id": "C41", "title": "Translations of functions on Sn", "statement": "left_translate(t) is g(s)=f(t.inv()*s), right_translate(t) is g(s)=f(s*t.inv()), inv() is g(s)=f(s.inv()); every entry of the result is written; left translations compose, and left and right translations commute.", "quantifier": "all n, all functions, all group elements", "why_tests_cant": "All functions and elements.", "anchors": ["Sn/SnFunction.hpp: left_translate, right_translate, inv"]}
{"id": "C42", "title": "Convolution of functions on Sn", "statement": "convolve(f,g)(s) is the sum over t of f(s*t.inv())g(t); it is associative and bilinear, and the delta function at the identity is neutral.", "quantifier": "all n, all functions", "why_tests_cant": "All functions.", "anchors": ["Sn/SnFunction.hpp: convolve"]}
{"id": "C43", "title": "Conjugacy class indexing", "statement": "cclass(i) is the class of IntegerPartitions(n)[i], and index(cclass(i))=i; index(cclass(mu)) is the position of mu, for every history of earlier calls.", "quantifier": "all n, all i, all partitions, all histories", "why_tests_cant": "Cached tables; all histories.", "anchors": ["Sn/SnObj.hpp: cclass, index(SnCClass), make_cclasses", "Sn/Sn_CclassHelper.hpp"]}
{"id": "C44", "title": "irreps[i] is the i-th partition's irrep", "statement": "Sn(n).irreps[i] is the irrep of IntegerPartitions(n)[i]. (False of the code: order follows the history of earlier requests; what holds: after any history of requests for partitions of n the list has exactly one irrep per partition.)", "quantifier": "all n, all histories of irrep requests", "why_tests_cant": "Depends on the whole history of the process.", "anchors": ["Sn/SnObj.hpp: get_irrep, make_all_irreps", "Sn/Sn_IrrepHelper.hpp"]}
{"id": "C45", "title": "character(i) is the i-th character", "statement": "Sn(n).character(i) is the character of the i-th partition. (False of the code: i is ignored.)", "quantifier": "all n>=2, all i", "why_tests_cant": "All i.", "anchors": ["Sn/Sn.hpp: character(int)", "Sn/Sn_CharacterHelper.hpp"]}
{"id": "C46", "title": "Combinatorial caches are transparent", "statement": "Whatever sequence of queries (partition lists, restriction ordered lists, partition objects, tableaux) was made before, in any order of n, a query to the combinatorial bank returns what a fresh bank would return, and earlier answers stay valid.", "quantifier": "all histories of queries", "why_tests_cant": "All histories.", "anchors": ["combinatorial/CombinatorialBank.hpp: level", "combinatorial/CombinatorialBankLevel.hpp", "combinatorial/IntegerPartitionObj.hpp"]}
{"id": "C47", "title": "Reading a multiplicity does not change a type", "statement": "Looking up the multiplicity of a partition in an SnType leaves the type unchanged (observable: its list of parts). (False of the code: a zero entry is inserted; what holds: no multiplicity changes.)", "quantifier": "all types, all partitions", "why_tests_cant": "All map states.", "anchors": ["Sn/SnType.hpp: operator()"]}
{"id": "C48", "title": "Restriction and induction of types obey Frobenius reciprocity", "statement": "The multiplicity of mu in the restriction of lambda equals that of lambda in the representation induced from mu; dimensions are preserved by restriction and multiplied by n+1 by induction.", "quantifier": "all types over partitions of n", "why_tests_cant": "All types.", "anchors": ["Sn/SnType.hpp: down", "Sn/SnRepresentationObj.hpp: make_induced"]}
{"id": "C49", "title": "Restricting a vector and inducing it back", "statement": "SnVec::up of the restriction of a vector to S_{n-1} with the same type returns the original vector; restriction commutes with the action of S_{n-1}.", "quantifier": "all types, all vectors, all group elements of S_{n-1}", "why_tests_cant": "All vectors.", "anchors": ["Sn/SnVec.hpp: downB, up, apply"]}
{"id": "C50", "title": "Concatenation of vectors", "statement": "cat of SnVecs has, for every partition, the columns of all arguments in argument order, its type is the sum of the types, and it commutes with the group action.", "quantifier": "all lists of vectors", "why_tests_cant": "All lists of vectors.", "anchors": ["Sn/SnVec.hpp: cat", "Sn/SnType.hpp"]}
{"id": "C51", "title": "Cyclic group", "statement": "CyclicGroup(n) elements multiply and invert as integers modulo n, results are reduced, index and element are mutually inverse, each irrep is a homomorphism of modulus one and distinct irreps are orthogonal.", "quantifier": "all n>=1, all elements, all irreps", "why_tests_cant": "All n.", "anchors": ["groups/CyclicGroup.hpp", "groups/CyclicGroupElement.hpp", "groups/CyclicGroupIrrep.hpp"]}
{"id": "C52", "title": "Dihedral group", "statement": "DihedralGroup(n) has 2n elements forming a group under the product with the computed inverse, conjugation by reflections inverts rotations, indices are bijective, and s() is a reflection of the group (false for n=1, where its index is out of range).", "quantifier": "all n>=1, all triples of elements", "why_tests_cant": "All n, all triples.", "anchors": ["groups/DihedralGroup.hpp", "groups/DihedralGroupElement.hpp"]}
{"id": "C53", "title": "Dihedral irreps", "statement": "Every irrep k of DihedralGroup(n) returns matrices of its declared dimension and is a homomorphism, and the characters of different irreps are orthogonal with square norm 2n. (False of the code for even n, k=3; holds for all other k.)", "quantifier": "all n, all k, all pairs of elements", "why_tests_cant": "All n and k.", "anchors": ["groups/DihedralGroupIrrep.hpp"]}
{"id": "C54", "title": "Direct products of groups", "statement": "ProductGroup(G1,G2) has |G1||G2| elements, element(i) enumerates all pairs once, and product and inverse are componentwise.", "quantifier": "all pairs of finite groups, all indices", "why_tests_cant": "Generic in two groups.", "anchors": ["groups/ProductGroup.hpp", "groups/ProductGroupElement.hpp"]}
{"id": "C55", "title": "Functions on any group", "statement": "For FunctionOnGroup over a group whose index/element are inverse bijections, translation and inversion have the documented values and every entry of the result is written.", "quantifier": "all finite groups, all functions, all elements", "why_tests_cant": "Generic in the group.", "anchors": ["include/FunctionOnGroup.hpp"]}
{"id": "C56", "title": "Library lifetime", "statement": "After any sequence of creating and destroying session and class-set objects the global banks are either absent or alive, and every bank is deleted once. (False of the code: a class-set object deletes a bank owned by a session and leaves the pointer dangling.)", "quantifier": "all histories of constructors and destructors", "why_tests_cant": "All histories.", "anchors": ["include/Snob2_session.hpp", "Sn/SnClasses.hpp", "combinatorial/CombinatorialClasses.hpp"]}
{"id": "C57", "title": "Group order fits machine integers exactly up to n=12", "statement": "All counts and indices of Sn (order, element indices, hook lengths, class sizes) computed in 32 bit ints are exact for n<=12; from n=13 on the order is not representable and hooklength([13]) computed with wrap-around is wrong.", "quantifier": "all n, all partitions", "why_tests_cant": "Exactness for all partitions of all n<=12 and failure for all larger n.", "anchors": ["combinatorial/IntegerPartition.hpp: factorial, hooklength", "Sn/SnObj.hpp: order"]}
{"id": "C58", "title": "Product representation", "statement": "SnProductRepresentation(l1,l2) applied to a group element multiplies by the Kronecker product of the two irreps and is a homomorphism; its Jucys-Murphy matrix is the sum of the matrices of the transpositions (i k), i<k.", "quantifier": "all n, all pairs of partitions, all group elements", "why_tests_cant": "All elements of all product representations.", "anchors": ["Sn/SnProductRepresentation.hpp"]}
{"id": "C59", "title": "Assignment copies a permutation", "statement": "After x=y for Permutation objects, x has the value of y and y is unchanged, also when x and y are the same object. (False of the code for self assignment: the buffer is freed before it is copied.)", "quantifier": "all heaps of permutation objects, all pairs of objects including equal ones", "why_tests_cant": "Reads of freshly allocated memory often look harmless in a test run.", "anchors": ["combinatorial/Permutation.hpp: operator=(const Permutation&)"]}
{"id": "C60", "title": "Content of the box between two partitions", "statement": "If partition p is obtained from partition q by adding one box, p.content_of_difference(q) returns the content (column minus row, counted from zero) of that box.", "quantifier": "all n, all pairs of partitions of n+1 and n that differ by one box", "why_tests_cant": "Infinite family of pairs; the search for the row compares with p[i]-1 and can in principle stop early.", "anchors": ["combinatorial/IntegerPartition.hpp: content_of_difference"]}
{"id": "C61", "title": "Irrep objects can be destroyed at any time", "statement": "Destroying an irrep object never releases memory it does not own, whatever methods were or were not called on it before. (False of the code: the destructor frees the representation tables even if they were never computed, and the pointers are not initialised.)", "quantifier": "all call histories of an irrep object", "why_tests_cant": "Freeing an uninitialised pointer is undefined behaviour that may go unnoticed in a test run.", "anchors": ["Sn/SnIrrepObj.hpp: ~SnIrrepObj, computeYOR"]}
{"id": "C62", "title": "Column block versions of apply_left agree with the whole-matrix versions", "statement": "apply_left with a ContiguousCycle on a block of columns multiplies these columns by rho of the cycle, as the whole-matrix version does, for either orientation of the cycle. (False of the code for descending cycles: the block version has no branch for a>b and does nothing.)", "quantifier": "all n, all partitions, all 1<=a,b<=n, all column blocks, all matrices", "why_tests_cant": "the block versions are only called with ascending cycles inside the library, and the statement ranges over all partitions, cycles and blocks", "anchors": ["Sn/SnIrrepObj.hpp:142-150", "Sn/SnIrrepObj.hpp:349-373"]}
{"id": "C63", "title": "characters[i] is the i-th character", "statement": "Sn(n).characters[i] is the character of IntegerPartitions(n)[i]. (False of the code: the order follows the history of earlier requests; what holds: it is true exactly if the characters requested earlier are, in order, those of the first partitions; characters[lambda] is always the character of lambda.)", "quantifier": "all n, all i, all histories of calls", "why_tests_cant": "Depends on the whole history of the process.", "anchors": ["Sn/SnCharBank.hpp: get_character, make_all_chars", "Sn/Sn_CharacterHelper.hpp: operator[]"]}
{"id": "C64", "title": "Python inv_snsm returns a function on Sn/Sm", "statement": "The function returned by the Python method inv_snsm of ClausenFFT(n,m) has the values of the function transformed and as many values as the group or coset space it is labelled with has elements.", "quantifier": "all 1<=m<n, all functions on Sn/Sm", "why_tests_cant": "All n, m and functions; the label is only visible through later use of the object.", "anchors": ["python/bindings/SnFFT_py.cpp: inv_snsm", "Sn/ClausenFFTObj.hpp: inv"]}
{"id": "C65", "title": "Irreps of direct products", "statement": "An irrep of ProductGroup(G1,G2) maps the identity to the identity matrix. (False of the code: it returns the zero matrix at every element.)", "quantifier": "all pairs of irreps, all elements", "why_tests_cant": "All pairs of irreps; no element for which it holds.", "anchors": ["groups/ProductGroupIrrep.hpp"]}
{"id": "C66", "title": "Restricting an induced representation", "statement": "SnRepresentation(t).induced().restricted() is the restriction of the induced representation (of dimension (n+1)d). (False of the code: it is the original representation, of dimension d; restricted() of a representation that was not made by induced() ends the program.)", "quantifier": "all n, all types over partitions of n", "why_tests_cant": "Dimensions and decompositions for every type; a test of one type that happens to be empty agrees.", "anchors": ["Sn/SnRepresentationObj.hpp: get_restricted, make_induced", "Sn/SnRepresentation.hpp: induced, restricted"]}
{"id": "C67", "title": "Representations of different symmetric groups can be used in one program", "statement": "SnRepresentation(t) is the representation of type t, whatever representations were made before. (False of the code across different n: the bank compares types over different n, which trips an assertion; what holds: all requests over one n.)", "quantifier": "all n, all types, all histories of requests", "why_tests_cant": "All histories of a cache with an ordering that is only partially defined.", "anchors": ["Sn/SnRepresentationBank.hpp: get_rep", "combinatorial/IntegerPartition.hpp: operator<"]}
{"id": "C68", "title": "Accumulating an induced vector", "statement": "accumulate_up(offs,sub,tau) adds the columns of up(tau,sub) to the columns of the vector from offs on, leaves every other column as it was, and advances offs by tau.", "quantifier": "all vectors, all offsets, all types", "why_tests_cant": "All types and offsets; two running offset tables must agree for every sequence of partitions.", "anchors": ["Sn/SnVec.hpp: accumulate_up, up", "Sn/SnCGbank.hpp: accumulate_CGprod"]}
{"id": "C69", "title": "Clebsch-Gordan products of vectors keep inner products", "statement": "CGproduct(x,y) of vectors with one column in each part is defined, has the type CGproduct(x.type,y.type), and <CGproduct(x,y),CGproduct(x',y')> = <x,x'><y,y'>; in particular nothing of x tensor y is lost. CGproduct of two parts is that of the vectors with these parts.", "quantifier": "all n, all vectors, all behaviours of a correct eigensolver (any orthonormal eigenvectors, any order)", "why_tests_cant": "All n and pairs of irreps; the solver may return any eigenvectors, a test sees one choice.", "anchors": ["Sn/SnCGbank.hpp: CGproduct(SnVec,SnVec), CGproduct(SnPart,SnPart), accumulate_CGprod, learn"]}
{"id": "C70", "title": "Clebsch-Gordan products of vectors are bilinear", "statement": "CGproduct(s x + x',y) = s CGproduct(x,y) + CGproduct(x',y), and the same in the second argument.", "quantifier": "all n, all vectors with one column in each part, all scalars, all solvers", "why_tests_cant": "All n, vectors and scalars.", "anchors": ["Sn/SnCGbank.hpp: CGproduct(SnVec,SnVec), accumulate_CGprod"]}
{"id": "C71", "title": "Clebsch-Gordan products of vectors with several columns", "statement": "CGproduct(x,y) multiplies every column of x with every column of y, whatever the numbers of columns. (False of the code: for n>=2 it is defined exactly if all parts that meet have one column; for n=1 it holds.)", "quantifier": "all n, all vectors, all solvers", "why_tests_cant": "The library's own checks use one column; for all numbers of columns.", "anchors": ["Sn/SnCGbank.hpp: accumulate_CGprod, learn, get_CGfactors"]}
{"id": "C72", "title": "The trivial part is a unit of the Clebsch-Gordan product", "statement": "CGproduct(t,x) and CGproduct(x,t), where t is a multiple c of the trivial part of Sn, are both c x up to one sign for each irrep, the same on both sides, that depends only on n, the irrep and the solver; if the solver returns 1 for matrices with one entry they are exactly c x.", "quantifier": "all n, all vectors with one column in each part, all solvers", "why_tests_cant": "All n and irreps; the signs depend on a chain of eigenvectors over all smaller n.", "anchors": ["Sn/SnCGbank.hpp: CGproduct(SnVec,SnVec), accumulate_CGprod, learn"]}
{"id": "C73", "title": "Clebsch-Gordan products commute with the action of permutations", "statement": "CGproduct(sigma x, sigma y) = sigma CGproduct(x,y). (False of the code for every n>=5 and every solver; for n=4 it fails for some choice of the signs of the solver's eigenvectors; holds for n<=3.)", "quantifier": "all n, all vectors with one column in each part, all permutations, all solvers", "why_tests_cant": "All n and permutations; fails only from n=5 on, for some irreps.", "anchors": ["Sn/SnCGbank.hpp: CGproduct(SnVec,SnVec), learn", "Sn/SnVec.hpp: apply"]}
{"id": "C74", "title": "Weights map vectors of one type to vectors of another", "statement": "SnWeights(x,y,fill)*v is defined for every SnVec v of type y and is a vector of type x; column j of each part is the combination of the columns of that part of v with the entries of row j of the matrix of the irrep. (False of the code when x and y do not have the same irreps: an irrep only in x gives no part at all, one only in y stops the program; holds otherwise.)", "quantifier": "all n, all types x and y over S_n, all contents of the matrices, all vectors", "why_tests_cant": "All types, contents and vectors; fails only for types with different irreps.", "anchors": ["Sn/SnWeights.hpp: SnWeights(SnType,SnType,fill), operator*"]}
{"id": "C75", "title": "Products with weights are linear, commute with the group, and compose", "statement": "Whenever W*v is defined: W*(sigma v) = sigma (W*v), W*(s v + w) = s W*v + W*w, and W*(V*v) is the product with the matrices W_lambda V_lambda.", "quantifier": "all n, weights, vectors, permutations, numbers", "why_tests_cant": "All vectors and permutations of all n.", "anchors": ["Sn/SnWeights.hpp: operator*", "Sn/SnVec.hpp: apply"]}
{"id": "C76", "title": "Every equivariant linear map of vectors is given by unique weights", "statement": "For types x, y with the same irreps, every linear map from vectors of type y to vectors of type x that commutes with all permutations is v -> W*v for weights SnWeights(x,y), and different matrices give different maps.", "quantifier": "all n, types, and all linear maps commuting with the group", "why_tests_cant": "Quantifies over all linear maps; no finite set of inputs shows that none is missed.", "anchors": ["Sn/SnWeights.hpp: SnWeights(SnType,SnType,fill), operator*", "Sn/SnVec.hpp: apply"]}
{"id": "C77", "title": "Weights made from two vectors", "statement": "SnWeights(x,y,fill) for SnVecs x and y with the same irreps can be multiplied by every vector of the type of y, and gives a vector of the type of x. (False of the code: the constructor makes tensors with one dimension, and no product is defined; they have the right number of entries.)", "quantifier": "all n, all vectors with the same irreps", "why_tests_cant": "All pairs of vectors; the constructor is not used in any test.", "anchors": ["Sn/SnWeights.hpp: SnWeights(SnVec,SnVec,fill), operator*"]}
{"id": "C78", "title": "Batched vectors: each member behaves as a vector", "statement": "For a SnVecB v of b vectors over S_n: apply(sigma), apply(Transposition), get_type, down of a part, and accumulate_up do to each of the b members what the same function of SnVec and SnPart does; they are defined in the same cases.", "quantifier": "all n, batch sizes, types, entries, permutations", "why_tests_cant": "All batch sizes, vectors and permutations of all n; the one test prints a batch.", "anchors": ["Sn/SnVecB.hpp: apply, get_type, down, accumulate_up", "Sn/SnPartB.hpp: apply, apply_inplace"]}
{"id": "C79", "title": "Inducing a batch induces each member", "statement": "SnVecB::up(tau,v) of a batch with the type of the restriction of tau is defined, and each member of the result is SnVec::up of the member. (False of the code when a partition in tau has two corners: the call adds blocks of different sizes.)", "quantifier": "all n, types, batches", "why_tests_cant": "All types of all n.", "anchors": ["Sn/SnVecB.hpp: up", "Sn/SnVec.hpp: up"]}
{"id": "C80", "title": "apply_inplace of a batch does what apply gives", "statement": "After v.apply_inplace(sigma) the batch v is what v.apply(sigma) returned. (False of the code: v is not changed.)", "quantifier": "all n, batches, permutations and contiguous cycles", "why_tests_cant": "All batches and permutations; the function is not used in a test.", "anchors": ["Sn/SnVecB.hpp: apply_inplace"]}
{"id": "C81", "title": "Clebsch-Gordan products of batches are products of the members", "statement": "CGproduct(x,y) of two batches of b vectors is the batch of the products of the members, defined in the same cases; and products of vectors, for which the bank multiplies batches of unit vectors, are those one gets by multiplying the unit vectors one by one. So products of batches with one column per part keep inner products.", "quantifier": "all n, batch sizes, batches, eigensolvers (for inner products: eigensolvers that solve)", "why_tests_cant": "The recursion goes through all S_m with m<n, with batches as large as the product of two irreps; all inputs and solvers.", "anchors": ["Sn/SnCGbank.hpp: CGproduct, add_CGprod, accumulate_CGprod, learn, get_CGfactors", "Sn/SnVecB.hpp"]}
{"id": "C82", "title": "The Fourier transform keeps inner products (Plancherel)", "statement": "For functions f, g on Sn/Sm with transforms F, G: the sum over lambda of d_lambda <F_lambda,G_lambda> is n!/m! times the sum of f(c)g(c); so is the inverse transform compatible with inner products. (False of the code for n>=5, m<=n-2, where a function of length one gets a transform that is too short.)", "quantifier": "all n, m<n, functions, vectors of the right shape", "why_tests_cant": "All functions on groups of factorial size; it is an identity between sums over all irreps and sums over the group.", "anchors": ["Sn/ClausenFFT.hpp: operator(), inv, inv_snsm", "Sn/SnFunction.hpp", "Sn/SnVec.hpp"]}
{"id": "C83", "title": "Adjoints of translation, inversion and convolution; gradients", "statement": "<f.left_translate(t),g> = <f,g.left_translate(t.inv())>, the same for right_translate, <f.inv(),g> = <f,g.inv()>, and <f*h,g> = <f,g*h.inv()> = <h,f.inv()*g>. So the backward functions of Python's translations and inversion hand on the gradient (with their unbound names read as the saved ones).", "quantifier": "all n (translations and inversion: all groups), functions, elements", "why_tests_cant": "All functions and elements for all n and all group classes.", "anchors": ["Sn/SnFunction.hpp: left_translate, right_translate, inv, convolve", "include/FunctionOnGroup.hpp", "python/src/snob/SnFunction.py: LeftTranslateFn, RightTranslateFn, InvFn"]}
{"id": "C84", "title": "Gradients of Python's convolution", "statement": "ConvolveFn.backward hands on gx, gy with <x*y,g> = <x,gx> = <y,gy>. (False of the code for every n>=3: it hands on g*y and g*x instead of g*y.inv() and x.inv()*g.)", "quantifier": "all n, functions", "why_tests_cant": "All functions; right for n<=2 and for functions that are their own inversion.", "anchors": ["python/src/snob/SnFunction.py: ConvolveFn"]}
{"id": "C85", "title": "Acting on vectors by cycles and transpositions, and undoing it", "statement": "vec.apply(Transposition), vec.apply_inplace(ContiguousCycle) do the same as vec.apply of the permutation; vec.apply_inplace_inv(ContiguousCycle) does the same as vec.apply of the inverse permutation, and undoes apply_inplace. (False of the code for apply_inplace_inv with a descending cycle, which does nothing.)", "quantifier": "all n, vectors, cycles and transpositions", "why_tests_cant": "All vectors of all types over all groups, all pairs of end points.", "anchors": ["Sn/SnVec.hpp: apply, apply_inplace, apply_inplace_inv", "Sn/SnPart.hpp: apply, apply_inplace, apply_inplace_inv"]}
{"id": "C86", "title": "Adding vectors", "statement": "v.add(w) adds w entry by entry to the part of the same partition; vectors of different types are refused; acting by a permutation on the sum gives the sum of the results. (False of the code for vectors of different types: parts are added by position, without comparing their partitions.)", "quantifier": "all n, vectors, permutations", "why_tests_cant": "All pairs of vectors of all types; the wrong sums look like vectors.", "anchors": ["Sn/SnVec.hpp: add", "Sn/SnPart.hpp"]}
{"id": "C87", "title": "Class functions are functions of the classes", "statement": "After any sequence of calls, a class function over Sn has for each class the value written last (or that of its filling), read by partition or by the number of the class; a partition of another number is refused. (False of the code for partitions of other numbers: the class with the same number is read or written, or memory outside.)", "quantifier": "all n, partitions, sequences of calls, readings and writings", "why_tests_cant": "All histories of calls that fill the caches, in all orders.", "anchors": ["Sn/SnClassFunction.hpp: operator(), get_value, set_value", "Sn/SnObj.hpp: index(lambda)"]}
{"id": "C88", "title": "Class functions are combinations of characters", "statement": "Every class function F over Sn is sum_p a_p chi_p for exactly one choice of numbers a_p, and n! a_p is the sum of class_size(mu) F(mu) chi_p(mu) over the classes.", "quantifier": "all n, class functions", "why_tests_cant": "All functions and all n: that the characters returned form a basis is a theorem of representation theory about their values.", "anchors": ["Sn/SnClassFunction.hpp", "Sn/SnCharacter.hpp", "Sn/Sn.hpp: class_size"]}
{"id": "C89", "title": "Values of characters are integers; entries of irreps are square roots of rationals", "statement": "SnCharacter(lambda)(mu) is an integer of absolute value at most the dimension of the irrep, whatever was called before. In the matrix irrep(sigma) the diagonal entries and the squares of all entries are rational, and one scaling of the basis (by roots of positive rationals) makes the matrices of all permutations rational.", "quantifier": "all n>=1, all partitions lambda and mu of n, all permutations, all histories of calls", "why_tests_cant": "The matrices have irrational entries and are made of products of arbitrarily many factors; that traces of all of them are integers is a statement about all n, that a finite table of characters does not settle.", "anchors": ["Sn/SnCharBank.hpp: get_character", "Sn/SnIrrepObj.hpp: character, operator()", "Sn/SnCharacter.hpp: operator()"]}
{"id": "C90", "title": "Partitions and permutations are values", "statement": "However IntegerPartition or Permutation objects are made, copied, moved, assigned (an object to itself included), changed and destroyed, every object shows the values it was given: a copy does not follow its original, std::swap exchanges. No memory is used after it was given back, given back twice, or read before it is written, and when all objects are gone all memory has been given back.", "quantifier": "all programs of such statements over any number of objects, all lists of integers", "why_tests_cant": "The number of orders in which objects can be copied, moved and destroyed is unbounded, and use of freed memory does not show in the results of a test.", "anchors": ["combinatorial/IntegerPartition.hpp: constructors, operator=, ~IntegerPartition, getn, operator[]", "combinatorial/Permutation.hpp: constructors, operator=, ~Permutation"]}
{"id": "C91", "title": "Weights and Fourier transforms on groups are values", "statement": "However SnWeights and FourierOnGroup objects are made, copied, assigned, changed and destroyed, every object shows the tensors it was given, a copy does not follow its original, no tensor is used after it was deleted or deleted twice, and when all objects are gone all tensors have been deleted.", "quantifier": "all programs of such statements over any number of objects", "why_tests_cant": "The number of orders in which objects can be copied and destroyed is unbounded, and double deletion or a leak does not show in results.", "anchors": ["Sn/SnWeights.hpp: members, constructors, ~SnWeights", "groups/FourierOnGroup.hpp: members, ~FourierOnGroup"]}
{"id": "C92", "title": "The Fourier transform on a group is invertible", "statement": "On every group class of the library (cyclic, dihedral, product), FunctionOnGroup -> FourierOnGroup -> FunctionOnGroup gives back the function.", "quantifier": "all orders n>=1, all complex functions on the group", "why_tests_cant": "Depends on the completeness of the irreps the class offers, for all n and all functions; rests on sums of roots of unity.", "anchors": ["groups/FourierOnGroup.hpp: conversions", "groups/CyclicGroup.hpp: irrep", "groups/DihedralGroup.hpp: irrep, n_irreps", "groups/ProductGroup.hpp: irrep"]}
{"id": "C93", "title": "Translations and inversion of a Fourier transform follow those of the function", "statement": "F(f).left(t), F(f).right(t) and F(f).inv() have the same entries as F(f.left_translate(t)), F(f.right_translate(t)) and F(f.inv()).", "quantifier": "all orders n>=1, all group elements t, all complex functions f", "why_tests_cant": "A statement about all groups, elements and functions that needs the irreps to be unitary homomorphisms; functions with real values do not tell inversion from the adjoint.", "anchors": ["groups/FourierOnGroup.hpp: left, right, inv", "include/FunctionOnGroup.hpp: left_translate, right_translate, inv"]}
{"id": "C94", "title": "The transposed diagram is the product with the sign", "statement": "If q is the transposed diagram of p, the irreps of p and q have the same dimension; entry by entry, in the order given by transposed tableaux, the matrices agree up to the sign of the permutation and a sign for each tableau; the character of q is the character of p times the sign of the class, so a symmetric diagram has character 0 on odd classes. The multiplicities do not change when two of the three diagrams are transposed, and the multiplicity of c in the product of the sign irrep and a is 1 if c is the transposed diagram of a and 0 otherwise.", "quantifier": "all n>=1, all partitions of n, all permutations, all histories of calls before", "why_tests_cant": "A relation between two irreps for every n and every shape.", "anchors": ["Sn/SnIrrep.hpp: operator()", "Sn/SnCharacter.hpp", "Sn/SnCGbank.hpp: CGcoefficient"]}
{"id": "C95", "title": "Classes act as integers", "statement": "In every irrep the matrices of the permutations of one class add up to z times the identity, where z is an integer equal to class_size times the character divided by the dimension; for the class of transpositions z is the sum of the contents of the diagram.", "quantifier": "all n>=1, all partitions p and classes mu of n, all histories of calls before", "why_tests_cant": "Divisibility of class_size*character by the dimension for every n; a sum over a whole class of matrices with irrational entries.", "anchors": ["Sn/SnIrrep.hpp: operator()", "Sn/Sn.hpp: class_size", "Sn/SnCharacter.hpp"]}
{"id": "C96", "title": "Characters branch", "statement": "The character of p at a class with a fixed point is the sum of the characters of the diagrams with one box less at the class without that fixed point. The sum of the characters over the diagrams with one box more than q, at a class nu, is the number of fixed points of nu times the character of q at nu without a fixed point, and 0 if nu has none.", "quantifier": "all n>=1, all partitions and classes of n and n+1, all histories of calls before", "why_tests_cant": "Relates the character tables of Sn and Sn+1 for all n.", "anchors": ["Sn/SnCharacter.hpp", "Sn/SnIrrepObj.hpp", "combinatorial/IntegerPartition.hpp: foreach_sub"]}
{"id": "C97", "title": "The Fourier transform is linear", "statement": "fft(a f + b g) = a fft(f) + b fft(g), and inv(a F + b G) = a inv(F) + b inv(G) for vectors F, G of one type, on Sn and on Sn/Sm; whether a transform ends does not depend on the values of the function.", "quantifier": "all n, m, all functions, all vectors, all real a, b; also for the n for which the transform as coded is not the Fourier transform", "why_tests_cant": "All functions and all n; the in-place row operations on tensor views are linear only if no step depends on the data.", "anchors": ["Sn/ClausenFFTObj.hpp: operator(), inv, inv_snsm", "Sn/ClausenFFTvecTmplt.hpp: uptransform, downtransform", "Sn/SnMultiPart.hpp: add_to_block_multi, add_block_to_multi, reduce, broadcast"]}
{"id": "C98", "title": "Transform objects do not depend on what was requested before", "statement": "After any sequence of requests ClausenFFT(n), ClausenFFT(n,m) and transforms, ClausenFFT(n)(f), inv, ClausenFFT(n,m)(f) and inv_snsm give what the first such request in a new program gives; equal requests share one object; a request succeeds exactly if n>=1 and m is absent (or negative) or 1<=m<=n.", "quantifier": "all programs of requests and transforms", "why_tests_cant": "All histories of a cache shared by the whole program.", "anchors": ["Sn/SnFFTbank.hpp: get_FFT", "Sn/ClausenFFT.hpp", "Sn/ClausenFFTObj.hpp: ClausenFFTobjSignature"]}
{"id": "C99", "title": "Shapes of transforms", "statement": "A forward transform that ends has one part per partition (with first row at least m), in listing order, with the dimensions of the irrep; ClausenFFT(n) of a function on another symmetric group does not return a vector, and ClausenFFT(n,m) of a function with N values returns one only if N is at least n!/m! and less than twice that; a vector made from a type with the right multiplicities has its parts in the order inv expects, whatever the order in which the type was built.", "quantifier": "all n, m, all functions of any number of values, all types", "why_tests_cant": "All n and all types; the order of parts comes from a std::map with a decreasing comparison, that of the transform from a listing algorithm.", "anchors": ["Sn/ClausenFFTObj.hpp: operator(), inv", "Sn/SnMultiPart.hpp: reduce, operator SnPart", "Sn/SnVec.hpp: SnVec(SnType)", "combinatorial/IntegerPartition.hpp: operator<"]}
{"id": "C100", "title": "Loops over a group visit everything once", "statement": "After any calls, and with any calls inside the loop, for(auto x: G.cclasses), for(auto rho: G.irreps), for(auto chi: G.characters) and for(auto sigma: G.elements) visit every class, irrep, character and element exactly once (classes in the order of the list of partitions); size() of the first three is the number of conjugacy classes.", "quantifier": "all n, all histories of calls, all calls in the body of the loop", "why_tests_cant": "All histories: the vectors behind the loops are filled on demand in an order that depends on the earlier calls, and the body of the loop can add to them.", "anchors": ["Sn/Sn_ElementHelper.hpp", "Sn/Sn_CclassHelper.hpp", "Sn/Sn_IrrepHelper.hpp", "Sn/Sn_CharacterHelper.hpp", "Sn/SnObj.hpp: make_all_irreps, get_irrep", "Sn/SnCharBank.hpp: make_all_chars"]}
{"id": "C101", "title": "random() is uniform", "statement": "Sn(n).random() gives every permutation for exactly one of the numbers 0..size()-1 that the distribution draws from, and an element of the class mu for class_size(mu) of them.", "quantifier": "all n, all permutations, all classes", "why_tests_cant": "Uniformity over a group of order n! for all n; sampling can only fail to refute it.", "anchors": ["Sn/SnObj.hpp: random, element", "Sn/Sn.hpp: random, class_size"]}
{"id": "C102", "title": "Convolution with entries and traces of irreps", "statement": "The functions s -> rho(s)(i,j) convolve like matrix units (factor n!/d; zero for different irreps); the traces are orthogonal idempotents up to n!/d; convolving a function with all traces weighted by d/n! and adding gives it back; convolution by f commutes with every convolution exactly when f is constant on the conjugacy classes, so in particular for the traces.", "quantifier": "all n, all partitions, all entries, all functions", "why_tests_cant": "All n and functions; ties the enumeration of elements, the convolution and the irreps together through Schur orthogonality.", "anchors": ["Sn/SnFunction.hpp: convolve", "Sn/SnIrrepObj.hpp: operator()"]}
{"id": "C103", "title": "Acting on some of the copies in an SnMultiPart", "statement": "apply_inplace(sigma,o,s), apply_inplace(cyc,o,s) and apply_inplace_inv(cyc,o,s) multiply the copies o..o+s-1 held in an SnMultiPart by the matrix of the permutation (or of its inverse) and leave all other copies as they were; apply(sigma,o,s) returns the same result without changing the object.", "quantifier": "all n, all partitions of n, all numbers of copies N and of columns m, all ranges of copies, all permutations, all entries", "why_tests_cant": "The columns touched depend on N, m, o and s and on how indices become addresses; a test fixes a few of them, and a read outside the memory often goes unnoticed.", "anchors": ["Sn/SnMultiPart.hpp: apply, apply_inplace, apply_inplace_inv", "Sn/SnMultiVec.hpp: apply_inplace_inv", "Sn/SnIrrepObj.hpp: apply_left(A,sigma,beg,end)"]}
{"id": "C104", "title": "Printing tells objects apart", "statement": "Two permutations, partitions, conjugacy classes, irreps, tableaux, transpositions, contiguous cycles, types, or elements or irreps of cyclic, dihedral and product groups, or groups, that are printed alike (str, operator<<, Python's str) are equal.", "quantifier": "all objects of each kind, all sizes and values", "why_tests_cant": "A clash needs two particular objects; a test prints a few.", "anchors": ["combinatorial/Permutation.hpp: str", "combinatorial/IntegerPartition.hpp: str", "combinatorial/YoungTableau.hpp: str", "Sn/SnType.hpp: str", "groups/*.hpp: str"]}
{"id": "C105", "title": "Kronecker coefficients survive the rounding of float", "statement": "SnCGbank::coeff(a,b,c) sums products of three float characters, divides by n! and converts the float to int. A user relies on the result being the multiplicity (the dimension of the invariants of the tensor product of the three irreps), although the tables are computed in double and everything else in float. With IEEE arithmetic (round to nearest, ties to even) this is false from n=7 on: the conversion cuts off, so a float just below the multiplicity gives one less; coeff((5,2),(2,2,2,1),(2,2,2,1)) is 0 instead of 1. What holds: up to n=10 the result is the multiplicity or one less, never more, and 0 if the multiplicity is 0; up to n=9 the float is within 1/5 of the multiplicity; for all n and all roundings with relative errors u (float) and v (double) there is an explicit bound for the error.", "quantifier": "all n, all triples of partitions of n, all roundings with given relative errors; IEEE binary32/binary64 for n<=10", "why_tests_cant": "The number of triples grows like the cube of the number of partitions, and whether one of them is rounded to the wrong side cannot be read off from others; the bound for all n and all roundings is not finite at all.", "anchors": ["Sn/SnCGbank.hpp:58-80", "Sn/SnIrrepObj.hpp:100-114", "Sn/SnIrrepObj.hpp:166-191", "Sn/SnIrrepObj.hpp:430-452", "Sn/SnCharBank.hpp:34-48"]}
{"id": "C106", "title": "The matrices of the irreps are accurate in floating point", "statement": "rho(sigma) and rho.apply_left(A,sigma) apply up to n(n-1)/2 adjacent transpositions with double coefficients to float entries. Errors do not blow up: if every float (double) operation has relative error at most u (v), every column of the result differs from the exact column by at most (1+(3/2)(u+12v+12uv))^(n(n-1)/2)-1 times its length, and entries outside the matrix are not touched. With IEEE arithmetic every entry of rho(sigma) is within n(n-1)/2^23 of the exact one as long as n(n-1)<=2^23.", "quantifier": "all n, all partitions, all permutations, all matrices, all roundings with given relative errors", "why_tests_cant": "The error depends on the matrix and the permutation; there are n! permutations and infinitely many matrices, and a test has no exact result to compare with.", "anchors": ["Sn/SnIrrepObj.hpp:94-98", "Sn/SnIrrepObj.hpp:126-140", "Sn/SnIrrepObj.hpp:166-191", "Sn/SnIrrepObj.hpp:430-452"]}
{"id": "C107", "title": "Characters in floating point", "statement": "SnIrrep::character(mu) sums the diagonal of a float matrix. A user relies on the value, an integer. It is not exact: the character of (5,2) at (4,1,1,1) is 0, the code computes -2^(-24). What holds: the error is at most d((1+u)^d(1+(3/2)(u+12v+12uv))^n-1) for roundings with relative errors u (float) and v (double), with IEEE arithmetic at most d(d+2n)/2^23 if d+2n<=2^23; so the nearest integer is the character whenever d(d+2n)<2^22.", "quantifier": "all n, all partitions lambda and mu of n, all roundings with given relative errors", "why_tests_cant": "A test compares finitely many values with a tolerance; the bound that makes the tolerance sufficient is a statement about all partitions.", "anchors": ["Sn/SnIrrepObj.hpp:100-114", "Sn/SnCharBank.hpp:34-48"]}
{"id": "C108", "title": "Multiplicities do not depend on earlier calls or on the order of arguments, in floating point", "statement": "In the arithmetic the library uses (float and double, IEEE 754), what SnCGbank::coeff(a,b,c) returns depends neither on the calls made before in the same program nor on the order of its arguments, and likewise CGproduct. In exact arithmetic this is so (C35). Here it is false: the cache is keyed by a triple that several orders of the arguments share, but the value kept is the one computed for the order of the first call. For n=7 coeff((5,1,1),(2,2,1,1,1),(3,2,2)) is 0 in a new program and 1 after coeff((5,1,1),(3,2,2),(2,2,1,1,1)); in one program coeff((5,1,1),(3,2,2),(2,2,1,1,1)) is 1 and coeff((2,2,1,1,1),(3,2,2),(5,1,1)) is 0; and CGproduct((5,1,1),(2,2,1,1,1)) lists (3,2,2) only if coeff was called before. What holds: the first answer to a call stays the answer for the rest of the program; for n<=6 all answers of all programs are the exact ones; for n<=10 every answer is the multiplicity or one less.", "quantifier": "for all sequences of calls of coeff and CGproduct (for any n), followed by any call", "why_tests_cant": "A test runs one sequence of calls; the value of a call in other sequences, and which of several orders is computed first, is not covered. The error shows at n=7 in 11 of 3375 triples only.", "anchors": ["Sn/SnCGbank.hpp:58-80", "Sn/SnCGbank.hpp:83-108", "include/Snob2_base.hpp:66-82"]}
{"id": "C109", "title": "Coset spaces Sn/Sm in machine integers", "statement": "SnOverSm(n,m).size(), element(e) and index(sigma) are right in 32-bit arithmetic whenever the number of cosets n!/m! is an int. (Holds for n<=12 and every m. False of the code for n>=13: size() divides n! by m!, and element and index multiply by factorials, so that size() is undefined for every m from n=13 on, and element and index from n=14 on. With wrap-around SnOverSm(13,12) has 4 elements, and for m>=34 the code divides by zero.)", "quantifier": "all m<=n, all cosets", "why_tests_cant": "The failing n depends on an intermediate value that is not visible in the result; all e and all permutations of every n<=12 are too many.", "anchors": ["Sn/SnOverSmObj.hpp:41-49", "Sn/SnOverSmObj.hpp:55-104"]}
{"id": "C110", "title": "Convolution of functions in floating point", "statement": "SnFunction::convolve in float arithmetic is defined and written everywhere, and its value at s is within ((1+2^-24)^(n!)-1) (n!/2^23 for n<=10) times the sum of |f(s t^-1) g(t)| of the exact convolution. It is exact when the values of f are multiples of 2^a, those of g multiples of 2^b, and these sums are at most 2^(24+a+b) (integer values: 2^24), which is sharp. Convolving with the indicator of an element t is exact for all float values and is the translate by t.", "quantifier": "all n, all functions f,g on Sn", "why_tests_cant": "The error depends on all n! values of both functions and on the order of summation.", "anchors": ["Sn/SnFunction.hpp:166-178"]}
{"id": "C111", "title": "Accuracy of the forward FFT in floating point", "statement": "The forward transform of ClausenFFT in float arithmetic is near the Fourier transform: for every f on Sn every column of every part differs from the exact one by at most ((1+2^-24)^K-1) times the sum of |f| in Euclidean norm, K=(n-1)(3n+4)/2, which is at most (n-1)(3n+4)/2^24 for n<=2000, whatever the order of the additions in reduce(); the same on Sn/Sm with K=(n-m)(3n+3m+1)/2. (Holds with the action of the irreps used for matrices. As coded, with the action on tensor views, it holds for n<=4 and for m=n-1 with K=(n-m)(3n+3m-1), and the transform is undefined for n>=6, m=1.)", "quantifier": "all n and m, all functions f, all orders of the additions", "why_tests_cant": "The error depends on all n! values and on rounding at every level; a test sees single functions and cannot tell a bad bound from luck.", "anchors": ["Sn/ClausenFFTObj.hpp:53-60", "Sn/ClausenFFTObj.hpp:80-87", "Sn/ClausenFFTvecTmplt.hpp:98-118", "Sn/ClausenFFTpartTmplt.hpp:60-66", "Sn/SnMultiPart.hpp:187-240", "Sn/SnIrrepObj.hpp:234-243", "Sn/SnIrrepObj.hpp:454-486"]}
{"id": "C112", "title": "Accuracy of the inverse FFT and of the round trip in floating point", "statement": "ClausenFFT::inv in float arithmetic is near the inverse transform: for every vector whose columns have Euclidean length at most M, each value differs from that of the function with this Fourier transform by at most ((1+2^-24)^K-1)M, K=3(n-1)(n+4)/2. The inverse of the forward transform, both in float, differs from f at every element by at most ((1+2^-24)^K-1) times the sum of |f|, K=(n-1)(3n+8), which is at most (n-1)(3n+8)/2^23 for n<=1000, whatever the order of the additions in reduce(). The same on Sn/Sm with K=(n-m)(3n+3m+9)/2 and K=(n-m)(3n+3m+5). (Holds with the action of the irreps used for matrices. As coded it holds for n<=4 and m=n-1 with K=(n-m)(3n+3m+3) and K=(n-m)(6n+6m+2), and inv is undefined for n>=6, m=1.)", "quantifier": "all n and m, all functions f, all vectors of the right shape, all orders of the additions", "why_tests_cant": "A round-trip test sees single functions with a tolerance chosen by hand; whether errors from n levels and the weights d/(d'n) stay bounded for all inputs and all n cannot be read off from runs.", "anchors": ["Sn/ClausenFFTObj.hpp:63-77", "Sn/ClausenFFTObj.hpp:90-103", "Sn/ClausenFFTvecTmplt.hpp:121-150", "Sn/SnMultiPart.hpp:187-240", "Sn/SnIrrepObj.hpp:234-243"]}
{"id": "C113", "title": "Acting on vectors in floating point", "statement": "Any sequence of calls apply(sigma), apply(ContiguousCycle), apply_inplace_inv(ascending ContiguousCycle), apply(Transposition) on an SnVec in float arithmetic (tables and intermediate values double) computes the action of the product of the permutations: each column of each part is off by at most ((1+(3/2)(u+12v+12uv))^N-1) times its length, where u and v are the rounding units and N the number of adjacent transpositions the calls go through (n(n-1)/2 for a permutation, |a-b| for a cycle, 2|a-b|-1 for a transposition); with IEEE arithmetic at most N/2^22 for N<=2^22. Hence calls whose product is the identity give back the vector, two sequences with the same product agree, and the scalar products of columns are kept, all up to such errors. add adds with relative error at most u in each entry.", "quantifier": "all n, all vectors, all sequences of calls of any length, all rounding modes with relative errors u and v", "why_tests_cant": "Tests run a few calls and compare with a tolerance; that the error grows only with the number of adjacent transpositions, and not with the dimension or the entries, holds for all vectors and arbitrarily long sequences only by proof.", "anchors": ["Sn/SnVec.hpp:126-170", "Sn/SnPart.hpp:212-243", "Sn/SnIrrepObj.hpp:126-191"]}
{"id": "C114", "title": "Relative accuracy of the FFT in the norm of Plancherel's formula", "statement": "ClausenFFT in float arithmetic returns exactly the Fourier transform of some function f' with |f'-f| <= eps |f| in root of the sum of squares, where eps=(1+2^-24)^(sK)-1, K=(n-1)(3n+4)/2 and s is any integer with s*s>=n. So the relative error of the transform, each part weighted by its dimension, is at most eps. The inverse of a vector differs from the function with that transform by at most the same with K=3(n-1)(n+4)/2, and the inverse after the forward transform differs from f by at most the same with K=(n-1)(3n+8): for n=9 this is 840/2^23 of the length of f, whatever the order of the additions in reduce(). The same on Sn/Sm with K=(n-m)(3n+3m+1)/2 and K=(n-m)(3n+3m+5). (Holds with the action of the irreps used for matrices. As coded it holds for n<=4 and m=n-1; for n>=5 it is false.)", "quantifier": "all n and m, all functions f, all vectors of the right shape, all orders of the additions", "why_tests_cant": "The bound of C112 grows with the sum of |f| over all n! elements, and a test sees the error of single functions. That the relative error does not grow with n! but only with a power of n is a statement about all functions at once.", "anchors": ["Sn/ClausenFFTObj.hpp:63-77", "Sn/ClausenFFTObj.hpp:90-103", "Sn/ClausenFFTvecTmplt.hpp:121-150", "Sn/SnMultiPart.hpp:187-240", "Sn/SnIrrepObj.hpp:234-243"]}
{"id": "C115", "title": "Number of operations of the fast Fourier transform", "statement": "The Fourier transform of a function on Sn by ClausenFFT takes at most n!(n-1)(n+1)(n+2)/2 operations on float (additions, multiplications and writes of an entry), and at most (n!/m!)((n-1)(n+1)(n+2)-(m-1)(m+1)(m+2))/2 on Sn/Sm; the inverse takes at most n!(n-1)(n^2+3n+6)/2. For n>=4 the forward transform takes fewer operations than the n!(2n!-1) of the defining sums. apply_left of a permutation to a matrix takes at most 3n(n-1)/2 operations for each entry. A transform has as many entries as the function has values.", "quantifier": "all n and m, all functions f, all vectors of the right shape, all permutations and matrices", "why_tests_cant": "A test can time the transform for the few n whose n! fits in memory; that no n and no input costs more than a factor n^3 over reading the function is a bound on all executions.", "anchors": ["Sn/ClausenFFTObj.hpp:63-77", "Sn/ClausenFFTObj.hpp:90-103", "Sn/ClausenFFTvecTmplt.hpp:121-150", "Sn/SnMultiPart.hpp:187-240", "Sn/SnIrrepObj.hpp:126-140", "Sn/SnIrrepObj.hpp:234-243"]}
{"id": "C116", "title": "Loops over the objects of the Python module", "statement": "In Python, Sn, IntegerPartitions and StandardYoungTableaux can be looped over: `for x in obj`, `list(obj)` visit obj[0],...,obj[len(obj)-1] and end, for IntegerPartition the parts and for Permutation the images of 1..n; `x in G` says whether x is an element of G; G[-1] is the last element. The index loop over range(len(obj)) visits every permutation, partition, standard tableau exactly once.", "quantifier": "all n, partitions, permutations, numbers of steps of the loop", "why_tests_cant": "A loop that leaves an array can appear to work in a test; what the loop does for every n is a statement about the sequence protocol and the indexing functions.", "anchors": ["python/bindings/SnClasses_py.cpp:23", "python/bindings/SnClasses_py.cpp:123-127", "python/bindings/Snob2_bindings.cpp:70", "python/bindings/Snob2_bindings.cpp:92", "python/bindings/Snob2_bindings.cpp:104-105", "python/bindings/Snob2_bindings.cpp:154-155", "Sn/SnObj.hpp:86-103", "combinatorial/IntegerPartitions.hpp:64-70", "combinatorial/StandardYoungTableaux.hpp:49-55"]}
{"id": "C117", "title": "Order of the conjugacy classes and majorization", "statement": "The documentation says that the conjugacy classes are ordered according to majorization order: if a partition p of n majorizes q and differs from it, p comes before q in IntegerPartitions(n), p<q in the sense of operator<, index(p)<index(q) on every group object, and cclass(index(p)) is p. The order is total and majorization is not, so the converse is not claimed.", "quantifier": "all n, all pairs of partitions of n, all states of the group object", "why_tests_cant": "A test can compare the lists for some n; that no pair of partitions of any n is in the wrong order is a statement about all of them.", "anchors": ["combinatorial/IntegerPartition.hpp:216-223", "Sn/SnObj.hpp:135-157", "python/doc/source/Sn.rst:92"]}
{"id": "C118", "title": "Arithmetic of types", "statement": "Types over Sn (lists of partitions with integer multiplicities) with CGproduct as product and add as sum obey the laws of a commutative ring: commutative, associative, distributive, with {[n]:1} as unit; dimensions multiply. Restricting a product gives the product of the restrictions, and inducing (restriction of t) times u gives t times (u induced). In each case the two types returned are the same, entry by entry including entries of multiplicity zero, after any history of calls.", "quantifier": "all n, all types (also with zero and negative multiplicities), all histories of calls", "why_tests_cant": "The laws relate triples of arbitrary types, and pass through caches filled in any order; a test sees a few types of small n.", "anchors": ["Sn/SnCGbank.hpp:58-108", "Sn/SnType.hpp:75-96", "Sn/SnRepresentationObj.hpp:82-104"]}
{"id": "C119", "title": "Symmetries of a function show in its Fourier transform", "statement": "Two functions on Sn with the same Fourier transform are the same. A function is constant on the conjugacy classes exactly if every part of its transform is a multiple of the identity matrix. The transform of f.inv() consists of the transposed matrices, so f is unchanged by inv() exactly if every part is symmetric. The transform of convolve(g.inv(),g) consists of positive semidefinite matrices. The part for [n] is the sum of the values and the part for [1,...,1] the sum of the values with signs.", "quantifier": "all n, all functions", "why_tests_cant": "Equivalences over all real functions on a group of n! elements, and inequalities over all vectors; a test compares a few functions.", "anchors": ["include/FunctionOnGroup.hpp:97-102", "Sn/SnFunction.hpp:166-186", "Sn/ClausenFFT.hpp"]}
{"id": "C120", "title": "Applying an irrep to tensor views, and the FFT, never writes outside the memory of the tables", "statement": "apply_left(T,tau) for a tensor view builds tables of rotations with one row per adjacent transposition on first use. Building and using them writes only inside the memory allocated for them, for every irrep, so the FFT and its inverse do not corrupt other memory, whether or not range checks are compiled in.", "quantifier": "all n, all partitions of n, all tau, all functions and vectors", "why_tests_cant": "The slot written depends on the position of a tableau in the list and on how many fixed tableaux precede it; the first shape for which the block is left belongs to n=6, the overflow into a neighbouring row is silent, and all shapes of all n are claimed.", "anchors": ["Sn/SnIrrepObj.hpp:234-243", "Sn/SnIrrepObj.hpp:454-486", "Sn/ClausenFFTObj.hpp:80-103"]}
{"id": "C121", "title": "Products of groups can be used as long as they exist", "statement": "In a program that declares cyclic and dihedral groups, forms products of them with *, and passes through scopes and function calls, every variable that holds a group can be used as that group while it is in scope: size() and element(i) of auto G=e are those of the direct product that the expression e denotes.", "quantifier": "all programs (sequences of declarations, products, returns and ends of scopes), all expressions, all orders of the factors", "why_tests_cant": "The failure is a read of a destroyed object, which usually still holds the right numbers; the tests form products of two variables only, and all programs and expressions are claimed.", "anchors": ["groups/ProductGroup.hpp:31-59", "groups/ProductGroup.hpp:88-92"]}
{"id": "C122", "title": "Functions of the coset, and functions on a subgroup, can be recognised in the Fourier transform", "statement": "Let F be the Fourier transform of a function f on Sn, as ClausenFFT(n)(f). f takes the same value on all elements of each left coset of Sm (the cosets that SnOverSm numbers) exactly if in every part of F the columns vanish that belong to tableaux without 1..m in the first row. If f on S(n+1) vanishes at all elements after the first n!, every part of F is block diagonal, with the parts of the transform on Sn at the shapes with one box less as its blocks, in the order of foreach_sub.", "quantifier": "all n, all 1≤m≤n, all functions, all partitions, rows and columns", "why_tests_cant": "Both directions are claimed for every real function and all n; a test sees finitely many functions, and only n up to about 8 can be computed at all.", "anchors": ["include/ClausenFFT.hpp", "Sn/ClausenFFTObj.hpp", "Sn/SnOverSmObj.hpp:57-92", "Sn/SnObj.hpp", "Sn/SnIrrepObj.hpp"]}
{"id": "C123", "title": "Objects filled with zeros, ones or the identity, and their Fourier transforms", "statement": "For the type t of the Fourier transforms on Sn: the transform of the function that is 1 at the identity and 0 elsewhere is SnVec::identity(t); the transform of SnFunction::zero(n) is SnVec::zero(t); the transform of SnFunction::ones(n) is n! at [n] and zero at every other partition. In Python, SnPart.zero and SnVec.zero give zeros and SnPart.ones and SnVec.ones give objects filled with ones.", "quantifier": "all n, all partitions, all entries of all parts", "why_tests_cant": "All n and all entries are claimed, for exact values; the last sentence is a claim about every partition, and the tests print random vectors only.", "anchors": ["Sn/SnVec.hpp:35-39", "Sn/SnVec.hpp:64-70", "Sn/SnPart.hpp:44-48", "Sn/SnFunction.hpp:39-61", "python/bindings/SnFunctions_py.cpp:107-114", "python/bindings/SnFunctions_py.cpp:133-140"]}
{"id": "C124", "title": "Characters, dimensions and class sizes count solutions of equations between permutations", "statement": "With the values of SnCharacter(p), the dimensions of the irreps and class_size: the number of square roots of a permutation s is the sum of all characters at its class; the dimensions of all irreps add up to the number of permutations with s.inv()==s; the number of pairs x of type mu, y of type nu with x*y==s is c(mu)c(nu)/n! times the sum of X_p(mu)X_p(nu)X_p(s)/d_p; the number of pairs with a*b==s*b*a is n! times the sum of X_p(s)/d_p; the number of commuting pairs is n! times the number of irreps.", "quantifier": "all n, all permutations s, all classes, after all histories of calls", "why_tests_cant": "These are exact identities between independent parts of the library (products of permutations, characters, dimensions, class sizes) for all n; a test can enumerate pairs for very small n only.", "anchors": ["Sn/SnCharacter.hpp", "Sn/SnCharBank.hpp", "Sn/SnObj.hpp", "Sn/SnIrrepObj.hpp", "combinatorial/Permutation.hpp"]}
{"id": "C125", "title": "Every list of parts is a transform on a group; inner products and convolutions", "statement": "On every group class of the library: every list of parts of the right shapes, turned into a function and transformed again, comes back (FourierOnGroup -> FunctionOnGroup -> FourierOnGroup); the inner product of two functions is the sum over the irreps of d/|G| times inp() of the parts; the parts of the transform of a convolution are the products of the parts.", "quantifier": "all orders n>=1, all lists of parts, all pairs of complex functions", "why_tests_cant": "The first claim is about all lists of parts and needs the irreps offered to be all of them, pairwise inequivalent; the others are identities for all functions.", "anchors": ["groups/FourierOnGroup.hpp:66-91", "groups/CyclicGroup.hpp: irrep", "groups/DihedralGroup.hpp: irrep, n_irreps", "groups/ProductGroup.hpp: irrep"]}
{"id": "C126", "title": "Kernels on Sn and deconvolution can be read off the Fourier transform", "statement": "For a function f on Sn with Fourier transform F: the kernel K(s,t)=f(s.inv()*t) is positive semidefinite if and only if every part of F is a positive semidefinite matrix; h is determined by f.convolve(h) if and only if every part of F is an invertible matrix, and if and only if every function is f.convolve(h) for some h.", "quantifier": "all n>=1, all functions f, all weights c in the quadratic form, all h", "why_tests_cant": "Both are equivalences between statements about all vectors; positive semidefiniteness of an n! by n! matrix cannot be sampled, and the converse directions need every list of parts to be a transform.", "anchors": ["Sn/SnFunction.hpp:166-178", "Sn/ClausenFFTObj.hpp:53-60", "combinatorial/Permutation.hpp: operator*, inv"]}
{"id": "C127", "title": "Repeated convolution and the distance to the uniform distribution", "statement": "For a function f on Sn with Fourier transform F: the parts of the transform of f convolved k times with itself are the powers of the parts of F. If the values of f add up to one, so do those of the repeated convolution, n! times the sum of the squared differences between its values and 1/n! is the sum over the partitions other than [n] of d times the squares of the entries of the powers, and the squared sum of the absolute differences is at most that.", "quantifier": "all n>=1, all functions f, all k", "why_tests_cant": "All k and all functions are claimed, and the bound is an inequality between real numbers that is used to say how many steps of a random walk are enough.", "anchors": ["Sn/SnFunction.hpp:166-178", "Sn/ClausenFFTObj.hpp:53-60"]}
{"id": "C128", "title": "Editing Young tableaux", "statement": "T[r,c] returns what was last assigned to the box (r,c) of a YoungTableau, or its original entry; reading or assigning an entry outside the tableau raises IndexError and changes nothing; assignments never change the shape. T==T' says whether the tableaux have the same rows. From every standard tableau every other standard tableau of the same shape is reached by calls of apply_transp(i) that pass through standard tableaux only.", "quantifier": "all tableaux, all programs made of readings and assignments with any integers as indices and values, all pairs of standard tableaux of all shapes", "why_tests_cant": "All programs are claimed; a write beside a row can appear to work in a test. Connectedness of the graph of standard tableaux is a statement about every shape, and it is what makes Young's irreps irreducible.", "anchors": ["combinatorial/YoungTableau.hpp:67-95", "combinatorial/YoungTableau.hpp:119-129", "python/bindings/Snob2_bindings.cpp:136-141"]}
{"id": "C129", "title": "Random transpositions: smoothing, kernels and convergence from the shapes of the partitions", "statement": "Let f on Sn be a at the unit, b at every transposition, zero elsewhere. Convolving any function with f, from either side, multiplies the part of each partition p of its Fourier transform by a+b*c(p), c(p) being the sum of column minus row over the boxes of p. The kernel f(s.inv()*t) is positive semidefinite if and only if a+b*c(p)>=0 for every p in IntegerPartitions(n). If the values of f add up to one, n! times the squared distance of f convolved with itself k times to the uniform distribution is the sum over the partitions other than [n] of hooklength(p)^2*(a+b*c(p))^(2(k+1)); for a=1/n, b=2/n^2 it is at most n!*(1-2/n)^(2(k+1)).", "quantifier": "all n>=1 (n>=2 for the bound), all real a, b, all functions, all k", "why_tests_cant": "All n and all k; the size of the group grows like n!, and the factor is an identity between sums over the group and the shapes of diagrams.", "anchors": ["Sn/SnFunction.hpp:166-178", "combinatorial/IntegerPartitions.hpp:41-70", "combinatorial/IntegerPartition.hpp:123 hooklength", "Sn/SnIrrepObj.hpp:492-505"]}
{"id": "C130", "title": "Correlations determine a function up to translation", "statement": "For functions f, f' on Sn: the autocorrelations, the sums over x of f(x)*f(x*s), agree for all s if and only if for each part of the Fourier transforms the inner products of the rows agree. If all parts of the transform of f are invertible matrices, the triple correlations, the sums over x of f(x)*f(x*s)*f(x*t), agree for all s, t if and only if f' is f.left_translate(t) for some t. Without that condition this is false for every n>=2.", "quantifier": "all n>=1, all pairs of functions with all values set; n<=4 for the transform as coded", "why_tests_cant": "The converse quantifies over all functions with the same correlations, an algebraic variety, which tests cannot enumerate.", "anchors": ["Sn/SnFunction.hpp:150-157 left_translate", "Sn/SnFunction.hpp:57-110", "Sn/ClausenFFT.hpp:40-190"]}
{"id": "C131", "title": "Programs that combine vectors are linear, commute with the group, and are a single SnWeights", "statement": "Take any program that starts from one SnVec x over Sn and makes further vectors with W*v (SnWeights), SnVec::cat of some of its vectors, and v.add(w) (which changes v). If it runs on x, it runs on every vector of the same type, with results of the same types; permuting x permutes every result; the results are linear in x; and for each result there is one SnWeights W such that W*v has the same contents as that result, for every v of the type of x.", "quantifier": "all n>=1, all programs of any length, all inputs, all permutations, all weights", "why_tests_cant": "The claim is about all programs (networks) and all inputs; a test runs one network on some inputs.", "anchors": ["Sn/SnWeights.hpp:75-81 operator*", "Sn/SnVec.hpp:253-267 cat", "Sn/SnVec.hpp:166-170 add", "Sn/SnVec.hpp:120-142 apply"]}
{"id": "C132", "title": "Marginals are the parts with a long first row; band-limited functions", "statement": "For k<n, the marginals of order k of a function f on Sn are the sums of f over the permutations that send k given places to k given places. Two functions have the same marginals of order k if and only if the parts of their Fourier transforms for the partitions with first row at least n-k are the same. f is a sum of functions of the images of k places if and only if all its other parts vanish. Setting those other parts to zero gives the transform of the nearest such sum, and keeps the marginals of order k.", "quantifier": "all n>=1, all k<n, all functions with all values set; n<=4 for the transform as coded", "why_tests_cant": "Both equivalences quantify over all functions with given marginals (a linear space of dimension up to n!) and all n, k.", "anchors": ["Sn/ClausenFFT.hpp:40-190", "Sn/SnFunction.hpp:57-110", "Sn/SnType.hpp", "combinatorial/IntegerPartitions.hpp"]}
{"id": "C133", "title": "Programs that combine vectors, in float", "statement": "A program made of products W*v of weights with vectors, SnVec::cat and v.add(w) runs in float on the same inputs as in exact arithmetic. Whatever the order in which the sums of a product are done, each entry of each vector it ends with is off by at most (1+u)^D-1 times the entry that the program computes from the absolute values of its input with the absolute values of its weights, where u=2^-24 and D is the number of columns for each product plus one for each addition (D/2^23 if D<=2^23). If nothing is negative, this is a relative error of the entry itself. If input and weights are integers, every entry for which that bound entry is at most 2^24 is computed exactly; for 2^24+1 this fails.", "quantifier": "all n>=1, all programs, all inputs on which the program runs, all orders of summation, all roundings with relative error at most u", "why_tests_cant": "Programs, weights, inputs and summation orders are unbounded; a test sees a few rounding errors, never the worst one.", "anchors": ["Sn/SnWeights.hpp:75-81", "Sn/SnVec.hpp:166-170", "Sn/SnVec.hpp:253-267"]}
{"id": "C134", "title": "A check of the types decides whether a program of vectors runs", "statement": "For programs made of products W*v of weights with vectors, SnVec::cat and v.add(w): going through the statements with the types only (a product needs, for each partition, a matrix with as many columns as the vector has, and gives its number of rows; cat adds the numbers of columns; add needs equal types) succeeds exactly if the program runs without an undefined call, and predicts the types of all vectors it ends with. So one check of a program is valid for all inputs of a type: if it fails the program runs on none of them.", "quantifier": "all n>=1, all programs, all weights, all inputs", "why_tests_cant": "Running a program on one input shows nothing about the absence of undefined calls in all programs, nor that a failing check excludes every input.", "anchors": ["Sn/SnWeights.hpp:60-81", "Sn/SnVec.hpp:166-170", "Sn/SnVec.hpp:253-267", "Sn/SnVec.hpp:115-121"]}
{"id": "C135", "title": "Products of weights with a Fourier transform are convolutions", "statement": "Multiplying the Fourier transform of f by weights W whose matrices are the transposes of the parts of the Fourier transform of g gives the Fourier transform of g.convolve(f). Every weights object with square matrices of the right sizes is of this kind, for exactly one g. Of the maps of functions on Sn to functions, exactly the linear ones that commute with right_translate are multiplications of the transform by such weights. They keep the sum of squares of every function exactly if all matrices have orthonormal rows. Computed with ClausenFFT, its inverse and operator* this holds for n<=4. Multiplication by such weights commutes with left_translate as well exactly if every matrix is a multiple of the identity.", "quantifier": "all n>=1, all functions, all weights, all maps of functions (coded FFT: n<=4)", "why_tests_cant": "It is about all weights and all linear maps that commute with all translations; a test can compare one product with one convolution.", "anchors": ["Sn/SnWeights.hpp:75-81", "Sn/SnFunction.hpp:166-178", "Sn/SnFunction.hpp:158-164"]}
{"id": "C136", "title": "What CheckCG certifies", "statement": "CheckCG, run each time the factors of two partitions are learnt, prints for each adjacent transposition the product of the acted parts and the acted product, to be compared. It never fails, and prints n-1 pairs. The pairs agree for all parts of two partitions exactly when the product of parts of these partitions commutes with every permutation, so nothing is missed by trying only adjacent transpositions. If the pairs disagree for some parts, then near any two parts there are two for which they disagree. Up to n=3 they always agree; for every n>=5 there are two partitions for which they do not, with any eigenvalue solver.", "quantifier": "all n>=1 (n<=1234567), all pairs of partitions of n, all parts with one column, all eigenvalue solvers returning orthonormal eigenvectors", "why_tests_cant": "The check itself is a test: two random parts, printed and compared by eye. That agreement on adjacent transpositions implies agreement for all n! permutations, and that disagreement is never an exception, is about all of them.", "anchors": ["Sn/SnCGbank.hpp:299-313", "Sn/SnCGbank.hpp:123", "combinatorial/Transposition.hpp:27"]}
{"id": "C137", "title": "Programs with products of vectors (polynomial layers)", "statement": "A program holds any number of SnVecs and makes new ones with products with SnWeights, cat, add and CGproduct. Whether it runs, how many vectors it ends with and their types depend on the types of its inputs only, not on the entries. If it only adds vectors of the same type, then permuting the first three letters of all its inputs permutes all its results, for every n, and leaves the entries of the parts of (n) of its results unchanged; for n=2 and n=3 these are all the permutations. For all permutations this is false for every n>=5, with any eigenvalue solver, already for the program that multiplies two inputs; and it is false for programs that add vectors of different types, which add does not refuse.", "quantifier": "all 2<=n<=1234567, all programs of any length, all lists of input vectors, all permutations fixing 4..n (types: no restriction), all eigenvalue solvers returning orthonormal eigenvectors", "why_tests_cant": "Programs of any length over vectors of any n; that the failure is confined to permutations that move the fourth or a later letter cannot be seen from examples.", "anchors": ["Sn/SnCGbank.hpp:240-264", "Sn/SnCGbank.hpp:123-204", "Sn/SnWeights.hpp:75-81", "Sn/SnVec.hpp:166-170", "Sn/SnVec.hpp:253-267"]}
{"id": "C138", "title": "Programs that restrict and induce vectors, over different numbers of letters", "statement": "A program holds SnVecs over permutations of different numbers of letters and makes new ones with products with SnWeights, cat, add, restriction (downB of every part, and cat), induction (up) and CGproduct. Take a permutation of the first m letters. If cat and CGproduct are called on vectors over the same number of letters, add on vectors of the same type, up(tau,v) on a v that has at least the columns the restriction of tau asks for (the first ones are used, and those after them change nothing), and no restriction goes below m letters, then restrictions and inductions are always defined, whether the program runs and the types of its results depend on the types of its inputs only, restricting a vector and inducing it to its own type gives it back, and permuting the first m letters of all inputs permutes the first m letters of all results: without products for every m, and with products for m=2 and m=3.", "quantifier": "all m>=1, all programs of any length, all lists of input vectors over any numbers of letters >=m (products: up to 1234567 letters, m in {2,3}, any eigenvalue solver returning orthonormal eigenvectors), all permutations of m letters", "why_tests_cant": "Programs of any length that go up and down through any numbers of letters, with all real entries.", "anchors": ["Sn/SnVec.hpp:219-232", "Sn/SnVec.hpp:234-251", "Sn/SnVec.hpp:253-267", "Sn/SnCGbank.hpp:240-264", "Sn/SnWeights.hpp:75-81"]}
{"id": "C139", "title": "Adjoints of the operations on vectors (gradients)", "statement": "With the inner product of two SnVecs of the same type, the sum of the products of their entries: the adjoint of apply(sigma) is apply(sigma.inv()), and apply keeps inner products; restriction (downB of every part, and cat) is linear and keeps inner products, and so does up(tau,w) when the restriction of tau is the type of w; the adjoint of restriction is induction to the type of the vector, that is <down v, w> = <v, up(type of v, w)>; the adjoint of the product with an SnWeights is the product with the SnWeights of the transposed matrices. So gradients through any of these operations are computed by the library's own operations.", "quantifier": "all n>=1, all vectors of any types over Sn (restriction: over S(n+1)), all permutations, all weights for which the product is defined", "why_tests_cant": "All real entries, all types and all n; the order in which columns are taken by up and put by cat must match for every type.", "anchors": ["Sn/SnVec.hpp:219-232", "Sn/SnVec.hpp:234-251", "Sn/SnVec.hpp:253-267", "Sn/SnWeights.hpp:75-81"]}
{"id": "C140", "title": "Programs that restrict and induce are linear, and those that come back are a single SnWeights", "statement": "Take a program of the kind of C138 without CGproduct. Whether its statements fit (the conditions of C138) depends on the types of its inputs only. It is linear in all its inputs together: if every input of one run is a times that of a second run plus that of a third, so is every result. And if it begins with one vector over m letters, passes only through numbers of letters that are at least m, and a result is a vector over m letters with parts for the same partitions as the input, then there is one SnWeights whose product with the input is that result, for all inputs of the type: restricting, inducing and mixing in between can be replaced by a single product.", "quantifier": "all m>=1, all programs of any length, all inputs of the type over any numbers of letters >=m, all real factors a", "why_tests_cant": "Programs of any length over any numbers of letters, all real entries; that one SnWeights serves every input of the type.", "anchors": ["Sn/SnVec.hpp:219-232", "Sn/SnVec.hpp:234-251", "Sn/SnVec.hpp:253-267", "Sn/SnVec.hpp:166-170", "Sn/SnWeights.hpp:75-81"]}
{"id": "C141", "title": "Rounding in programs that restrict and induce vectors", "statement": "Take a program of the kind of C138 without CGproduct: products with weights, sums, cat, restriction to one letter less (downB and cat) and induction (up), on any number of inputs over different numbers of letters. Suppose each operation on float has relative error at most u and no part has more than C columns. The program runs in float whenever it runs exactly, and every entry differs from the exact one by at most (1+u)^D-1 times the entry the program computes from the absolute values of its inputs and weights, whatever the order of the sums in products. D counts C for each product with weights and 1 for each sum; restriction, induction and cat cost nothing. With inputs and weights that are not negative the error is relative to the entry itself. With IEEE single precision and D<=2^23 the factor is at most D/2^23, and with integer weights and inputs every entry whose value from the absolute values is at most 2^24 is exact.", "quantifier": "all m>=1, all programs of any length, all inputs over any numbers of letters >=m, all types, all orders of the sums, all roundings with relative error u>=0", "why_tests_cant": "Bounds for all programs, all numbers of letters, all real inputs and all orders in which a matrix product may add.", "anchors": ["Sn/SnVec.hpp:219-232", "Sn/SnVec.hpp:234-251", "Sn/SnVec.hpp:253-267", "Sn/SnVec.hpp:166-170", "Sn/SnWeights.hpp:75-81"]}
{"id": "C142", "title": "Programs run in float commute with permutations up to rounding", "statement": "Take a program of the kind of C141 (products with weights, sums, cat, restriction, induction; no CGproduct) and run it in float on some inputs and again on the inputs with the first m letters permuted by the exact action. Both runs succeed with the same number of results. Permute the letters of a result of the first run and subtract the result of the second: the length of the difference (square root of the sum of squares of the entries) is at most (1+u)^D-1 times the sum of the lengths of the vectors the program computes from the absolute values of the inputs and of the permuted inputs, with D as in C141. In IEEE single precision with D<=2^23 the factor is at most D/2^23. Programs made of restriction, induction and cat alone commute with permutations without error.", "quantifier": "all m>=1, all permutations of m letters, all programs of any length without CGproduct, all inputs over any numbers of letters >=m, all orders of the sums, all roundings with relative error u>=0", "why_tests_cant": "A test measures the equivariance error of one network on one input; this bounds it for all programs, inputs and permutations.", "anchors": ["Sn/SnVec.hpp:219-232", "Sn/SnVec.hpp:234-251", "Sn/SnVec.hpp:253-267", "Sn/SnVec.hpp:166-170", "Sn/SnWeights.hpp:75-81"]}
{"id": "C143", "title": "Programs on inputs known up to an error, and permuted in float", "statement": "Take a program of the kind of C141 and inputs ys that differ from true inputs xs by at most delta times bounds as of their entries. The program runs in float on ys, and every entry is within (1+delta)(1+u)^D-1 times what the program computes from the bounds (with absolute values of weights) of the exact result for xs; without rounding the factor is delta. Inputs that are rounded to float first count as one rounding more. The statement of C142 holds with this factor for inputs with errors. In particular: apply any sequence of the calls of C113 (apply of a permutation, a ContiguousCycle or a Transposition, apply_inplace_inv of an ascending ContiguousCycle) in float to an SnVec so that they permute its first m letters, and run the program in float before or after. Both runs succeed, and the results agree, up to the exact permutation, within 2((1+(3/2)(u+12v+12uv))^N(1+u)^D-1) times the length of what the program computes from the column lengths, where N counts adjacent transpositions and v is the relative error of double.", "quantifier": "all m>=1, all numbers of letters >=m, all programs of any length without CGproduct, all inputs, errors and bounds, all sequences of calls, all orders of sums, all roundings with relative errors u>=0 and 0<=v<=1/2", "why_tests_cant": "Bounds for all programs, inputs, errors and sequences of calls; a test sees single cases and cannot tell rounding from a small defect.", "anchors": ["Sn/SnVec.hpp:219-232", "Sn/SnVec.hpp:234-251", "Sn/SnVec.hpp:253-267", "Sn/SnVec.hpp:166-170", "Sn/SnWeights.hpp:75-81", "Sn/SnVec.hpp:126-170", "Sn/SnPart.hpp:212-243", "Sn/SnIrrepObj.hpp:126-191"]}
{"id": "C144", "title": "Programs with weights known up to an error", "statement": "Take a program of the kind of C141 and the same program with other weights whose entries have relative errors of at most eta (for instance rounded to float). Run in float on inputs known up to delta times bounds, the second program succeeds, and its entries differ from those the first computes exactly from the true inputs by at most (1+delta)(1+eta)^M(1+u)^D-1 times what the first computes from the bounds with absolute values of its weights; M is the number of products with weights in the program and D the number of roundings of C141. Without rounding the factor is (1+delta)(1+eta)^M-1. With weights and inputs rounded to IEEE single precision and D+M+1<=2^23 it is at most (D+M+1)/2^23. Without rounding the program in float is the exact program, whatever the order of sums.", "quantifier": "all m>=1, all numbers of letters >=m, all programs of any length without CGproduct, all weights and inputs and errors in them, all orders of sums, all roundings with relative error u>=0", "why_tests_cant": "Bounds for all programs, weights, inputs and errors; a test sees single cases.", "anchors": ["Sn/SnWeights.hpp:75-81", "Sn/SnVec.hpp:219-232", "Sn/SnVec.hpp:234-251", "Sn/SnVec.hpp:253-267", "Sn/SnVec.hpp:166-170"]}
{"id": "C145", "title": "Without rounding, float calls are the exact ones, also where they fail", "statement": "Take the forward and inverse FFT on Sn and Sn/Sm as coded, convolution of functions, the action of permutations, cycles, inverse cycles and transpositions on an SnVec, and addition of SnVecs, each as computed in float. If no operation rounds, each returns what the exact computation returns, and is undefined for exactly the same arguments; for the FFT this holds whatever the order in which the tensor library adds slices.", "quantifier": "all n, m, all functions and vectors, also with wrong shapes, all permutations, cycles and transpositions, all orders of sums in which every slice appears once, all actions on parts", "why_tests_cant": "Equality of two computations for all inputs, including all undefined calls and all orders of summation.", "anchors": ["Sn/ClausenFFTObj.hpp:53-103", "Sn/SnMultiPart.hpp:187-240", "Sn/SnFunction.hpp:166-178", "Sn/SnVec.hpp:126-170"]}
{"id": "C146", "title": "Whether a call is defined depends on dimensions only", "statement": "Run a program of products with weights, sums, cat, restriction and induction twice, on vectors of the same dimensions and partitions, with weights of the same dimensions, but with any numbers, any rounding and any order of sums. Either both runs fail or both succeed, and the vectors they return have the same dimensions and partitions. In particular a program in float is defined exactly if it is defined in exact arithmetic. In exact arithmetic the programs may also use CGproduct, with any eigensolver. The same holds for the actions of permutations, cycles, inverse cycles and transpositions on an SnVec, for add, and for the forward and inverse FFT on Sn and Sn/Sm as coded: the forward FFT is defined or not depending on n and m only, the inverse depending on n, m and the dimensions and irreps of its argument.", "quantifier": "all programs (with CGproduct in exact arithmetic, and all eigensolvers), all weights, all vectors, also with wrong shapes, all permutations, cycles and transpositions, all n, m, all functions, all pairs of roundings, all orders of sums", "why_tests_cant": "A statement about pairs of executions with arbitrary numbers and shapes, including all failing ones.", "anchors": ["Sn/SnWeights.hpp:75-81", "Sn/SnVec.hpp:126-170", "Sn/SnVec.hpp:219-267", "Sn/ClausenFFTObj.hpp:53-103", "Sn/SnIrrepObj.hpp:126-191", "Sn/SnIrrepObj.hpp:454-486"]}
