{"id": "C01", "title": "Prime-field arithmetic is exact", "statement": "For every prime P>2 and all field elements with stored value in [0,P), the operators +, -, unary -, *, /, inv() and the compound assignments of ModP<int,P> return the element of Z/PZ that arithmetic modulo P prescribes, and the stored value of the result is again in [0,P). Division by zero and inversion of zero throw and nothing else does; the inversion search loop terminates.", "quantifier": "every prime P with P*P < 2^31, every pair of canonical values", "why_tests_cant": "unit tests check a few small primes and a few pairs; termination and exactness of inv for every element of every prime field is a universal statement", "anchors": ["include/linalg/field.hpp: ModP, ff_inv"]}
{"id": "C02", "title": "Mod-2 arithmetic is exact on unmasked storage", "statement": "ModP<int,2> stores an unmasked integer and computes with xor/and. For all stored integers, +, -, *, / and inv represent the operations of F2 on the parities, ==(element), iszero and to_int only depend on parity, and division by an even element throws.", "quantifier": "all pairs of stored 32-bit integers", "why_tests_cant": "storage grows arbitrary bit patterns through xor/and of int-constructed values; tests only ever build 0 and 1", "anchors": ["include/linalg/field.hpp: ModP<IntT,2>"]}
{"id": "C03", "title": "Field elements built from integers are the right residue", "statement": "For every odd prime P, ModP<int,P>(v) is a canonical residue, and it is the residue class of v exactly for v >= -P (for v < -P it is the class of v + 2^32, which is never that of v).", "quantifier": "every int v, every odd prime P below 2^31", "why_tests_cant": "wrap-around of (v+P) in unsigned arithmetic only shows for v < -P, which no test uses", "anchors": ["include/linalg/field.hpp: ModP(IntT)"]}
{"id": "C04", "title": "isprime decides primality", "statement": "isprime(p) returns true exactly for prime p, so ModP only instantiates to fields.", "quantifier": "every unsigned p", "why_tests_cant": "a test enumerates finitely many p", "anchors": ["include/linalg/field.hpp: isprime"]}
{"id": "C05", "title": "Rationals stay in lowest terms and compute exactly", "statement": "Every Rational built from a nonzero denominator, and every result of + - * / inv, has positive denominator coprime to the numerator and denotes the exact rational result; equality of values coincides with ==; division by zero throws.", "quantifier": "all integer numerators and nonzero denominators (no machine overflow), all operation sequences", "why_tests_cant": "normal form after arbitrary sequences of operations is an invariant, not an example", "anchors": ["include/linalg/field.hpp: Rational"]}
{"id": "C06", "title": "Sparse axpy is exact and keeps the vector sorted", "statement": "y.axpy(a,x) leaves y equal to y + a*x coordinate by coordinate; if both operands have strictly increasing indices the result has too; if neither stores a zero the result stores none, so nnz() counts exactly the support. The same holds for the windowed form axpy(a,x,first,last), which adds only the entries of x with first <= index < last.", "quantifier": "all sparse vectors over any field, all coefficients and windows", "why_tests_cant": "merge order, cancellation and window edges combine in unboundedly many ways", "anchors": ["include/linalg/sparse_vector.hpp: axpy, operator+, getval"]}
{"id": "C07", "title": "Matrix-vector and matrix-matrix products are exact", "statement": "A*x and A*B computed on sparse column matrices equal the linear-algebra products entry by entry; products are associative, distribute over +, and identity(n) is neutral; transpose swaps entries; columns of the result are sorted and store no zeros.", "quantifier": "all conforming sparse matrices over any field", "why_tests_cant": "statement about every entry of every product", "anchors": ["include/linalg/col_matrix.hpp: gemv, gemm, operator*, operator+, identity, T"]}
{"id": "C08", "title": "Matrix subtraction is exact up to the reversed operand order", "statement": "A - B terminates normally on matrices of equal shape and returns the difference with the operands reversed: its entries are B(i,j) - A(i,j). Hence it equals the expected A - B exactly when A = B or the field has characteristic 2 (a witness over Q shows the expected law fails).", "quantifier": "all pairs of matrices of equal shape", "why_tests_cant": "tests that only subtract equal or F2 matrices cannot see the sign", "anchors": ["include/linalg/col_matrix.hpp: operator-"]}
{"id": "C09", "title": "Triangular solves are exact", "statement": "For an upper (lower) triangular matrix with nonzero diagonal, u_solve (l_solve) terminates and returns the unique x with U x = y (L x = y); u_inv returns a two-sided inverse.", "quantifier": "all triangular matrices with nonzero diagonal over any field, all right hand sides", "why_tests_cant": "existence, uniqueness and termination for every size", "anchors": ["include/linalg/col_matrix.hpp: u_solve, l_solve, u_inv, l_inv"]}
{"id": "C10", "title": "Column reduction terminates in a reduced matrix", "statement": "reduce_matrix (standard) terminates on every matrix, never indexes the pivot table out of bounds, and leaves every nonzero column with a last-nonzero row shared by no other column; the returned table maps row i to column j exactly when j's last nonzero is at row i.", "quantifier": "all sparse matrices with indices below nrow, over any field", "why_tests_cant": "termination and the invariant hold for every matrix, not the sampled ones", "anchors": ["include/homology/reduction.hpp: reduce_matrix_standard"]}
{"id": "C11", "title": "Reduction with basis keeps M*U = R with U invertible", "statement": "reduce_matrix(M,U) started from U = identity leaves R and U with M*U = R for the original M, U upper triangular with unit diagonal; started from any U it multiplies U on the right by the same unit triangular matrix as M; the R and table equal the ones computed without U; unequal column counts throw.", "quantifier": "all matrices over any field", "why_tests_cant": "the invariant must survive every sequence of column operations", "anchors": ["include/homology/reduction.hpp: reduce_matrix_standard(M,U)"]}
{"id": "C12", "title": "Pivots do not depend on the algorithm", "statement": "If R = M*V and R' = M*V' with V, V' upper triangular with nonzero diagonal and both R and R' have distinct last-nonzero rows, then the set of (row, column) pivots of R and R' is the same and equals the rank-jump positions of M. Hence every reduction variant returns the same persistence pairs.", "quantifier": "all matrices and all ways of reducing them by left-to-right column additions", "why_tests_cant": "compares all possible schedules of column operations", "anchors": ["include/homology/reduction.hpp: reduce_matrix variants"]}
{"id": "C13", "title": "Betti numbers are homology dimensions", "statement": "For every chain complex (consecutive boundary matrices compose to zero), hdim(k)/betti(k) of the reduced complex equals dim ker d_k - rank d_{k+1}, the dimension of the k-th homology.", "quantifier": "all chain complexes over any field, all dimensions k", "why_tests_cant": "tests compare a few spaces; the claim is for every complex", "anchors": ["include/homology/basis.hpp: ReducedChainComplex, set_indices, hdim", "include/homology/reduction.hpp: extract_basis_indices"]}
{"id": "C14", "title": "Homology representatives are cycles forming a basis", "statement": "For every generator index j in I[k], the column U[k][j] returned by get_preferred_representative is a cycle, and these cycles are a basis of homology: every cycle is homologous to exactly one combination of them.", "quantifier": "all chain complexes over any field", "why_tests_cant": "independence modulo boundaries is a statement about all combinations", "anchors": ["include/homology/basis.hpp: get_preferred_representative, U, I"]}
{"id": "C15", "title": "The clearing optimisation changes nothing observable", "statement": "Reducing with clearing (top dimension down, zeroing columns whose index is a pivot one dimension up) returns the same pivot tables, the same generator indices and the same betti numbers as the standard reduction.", "quantifier": "all chain complexes over any field", "why_tests_cant": "equality of two algorithms on all inputs", "anchors": ["include/homology/reduction.hpp: reduce_matrix_clearing, get_clearing_inds", "include/homology/basis.hpp: clearing constructors"]}
{"id": "C16", "title": "Clearing with basis still satisfies B*U = R", "statement": "With clearing and basis tracking, U[k] is upper triangular with nonzero diagonal and boundary*U = R with R reduced.", "quantifier": "all chain complexes over any field", "why_tests_cant": "replacement columns come from another matrix; correctness is a relation between all dimensions", "anchors": ["include/homology/reduction.hpp: reduce_matrix_clearing(M,U,R,p2c)"]}
{"id": "C17", "title": "The compression optimisation changes no pivot", "statement": "Reducing with compression (zeroing rows whose column one dimension down is nonzero) returns the same pivot tables and betti numbers as the standard reduction.", "quantifier": "all chain complexes over any field", "why_tests_cant": "equality of two algorithms on all inputs", "anchors": ["include/homology/reduction.hpp: reduce_matrix_compression, get_compression_inds"]}
{"id": "C18", "title": "Exact guarantee of the extra reduction variant", "statement": "reduce_matrix_extra always terminates with R = M V, V unit upper triangular; every table entry names a column whose last nonzero row it is, and every column with at least two nonzeros is in the table. Columns with a single nonzero may be missing, so in general it is not a reduction (witness), but it is one, with the table of the standard reduction, if no combination of columns has exactly one nonzero entry.", "quantifier": "all sparse matrices", "why_tests_cant": "the loop guard skips the first nonzero, which simplicial test inputs never expose", "anchors": ["include/homology/reduction.hpp: reduce_matrix_extra"]}
{"id": "C19", "title": "A simplicial complex stays closed under faces", "statement": "After any history of add / add_directed / add_recursive / add_directed_recursive calls with nonempty simplices, the queries find_idx, ncells, get_simplex describe exactly the set of simplices given by a simple set-level specification (add accepts a simplex iff it is a vertex or all its codimension-one faces are present; recursive versions add all faces): each simplex is stored exactly once, every face of a stored simplex is stored, positions never change, the returned indices are the positions found afterwards, and a refused add changes no query except that maxdim() may grow. The empty simplex throws.", "quantifier": "all histories of the four adding calls on any nonempty vertex lists", "why_tests_cant": "invariant over all histories", "anchors": ["include/complex/simplicial_complex.hpp: add, add_recursive, find_idx"]}
{"id": "C20", "title": "Simplicial boundary squares to zero", "statement": "For every complex reachable by adds, the chain complex is built without error, its sizes are the cell counts, column j of d_{k} is the signed sum of the faces of simplex j (dropping vertex k of a simplex with d+2 vertices has sign (-1)^(d+k)), d_k d_{k+1} = 0 over every field, and if all simplices have distinct vertices the stored matrices are well-formed inputs for the reduction.", "quantifier": "all reachable complexes, all k", "why_tests_cant": "needs the face-index bookkeeping and the sign rule for all simplices at once", "anchors": ["include/complex/simplicial_complex.hpp: add, boundary, boundary_csc"]}
{"id": "C21", "title": "Light simplex keys are faithful", "statement": "If n^(k+1) fits in index_type, the key of a simplex with vertices below n and at most k+1 vertices is its base-n number, decoding the key returns the simplex, and distinct simplices of one dimension get distinct keys. Without the size condition, or with a vertex >= n, distinct simplices collide (witnesses).", "quantifier": "all n, k, word sizes with n^(k+1) <= word size, all simplices with vertices < n", "why_tests_cant": "injectivity over an unbounded domain", "anchors": ["include/complex/light_simplicial_complex.hpp: simplex_key, key_to_simplex"]}
{"id": "C22", "title": "Light complex faces are computed correctly", "statement": "The face iterator of the light complex yields, for the key of a simplex with d+1 vertices, the keys of its faces dropping vertex d, d-1, .., 0 with sign (-1)^i, through next() and through ++ and *. operator-- moves back correctly only right after simplex_begin: in general it yields the whole key and an empty tail (exact behaviour and witness).", "quantifier": "all n, k that fit, all simplices, every value of the out-of-bounds read offset(-1) in the last step", "why_tests_cant": "digit-arithmetic correctness for all keys", "anchors": ["include/complex/light_simplicial_complex.hpp: simplex_boundary_iterator"]}
{"id": "C23", "title": "Cubical complexes: histories, boundary, homology, skeleton, grids", "statement": "For every history of add / add_recursive calls with elementary cubes on a new CubicalComplex(D), D>0: the calls succeed, find_idx / ncells / get_cube describe exactly the specified set of cubes (add accepts a cube iff its codimension-one faces are present, otherwise NO_IND with the complex unchanged; add_recursive adds exactly all faces and returns exactly the new cells, the cube last), non-cubes are rejected with an exception, the set is closed under faces, every boundary column is the signed sum of upper minus lower faces, consecutive boundaries compose to zero over every field, hdim of the reduced chain complex is the cubical Betti number for every reduction variant, skeleton(k) holds exactly the cubes of dimension <= k, generate_cube(n) exactly the cubes of [0,n-1]^3, set_dimension throws iff a cube is stored and never shrinks. Findings: CubicalComplex(0).add({}) reports index 0 without storing; find_idx of a proper prefix of a stored cube is 0.", "quantifier": "all dimensions D>0, all histories of calls, all cubes, all fields, all reduction variants", "why_tests_cant": "sign rule and recursion over all cube dimensions and all histories", "anchors": ["include/complex/cubical_complex.hpp: CubicalComplex::add, add_recursive, find_idx, boundary_csc, skeleton, set_dimension, generate_cube", "include/chain/chain_complex.hpp: ChainComplex"]}
{"id": "C24", "title": "Permutation utilities obey the group laws", "statement": "inv_perm inverts every permutation on both sides; apply_perm composes; sortperm/stable_sortperm return a permutation that sorts (stably); partial_perm inverts index lists; perm_sign is the sign.", "quantifier": "all vectors and all permutations of any length", "why_tests_cant": "universal algebraic laws", "anchors": ["include/util/permutation.hpp"]}
{"id": "C25", "title": "In-place permutation equals out-of-place", "statement": "For every permutation perm of the data's positions, apply_perm_swap terminates without out-of-range access and moves element i to position perm[i]; apply_iperm_swap terminates and brings element perm[i] to position i, exactly as the out-of-place apply_perm; the two undo each other.", "quantifier": "all data vectors, all permutations", "why_tests_cant": "cycle-following loops: termination and correctness over all cycle types", "anchors": ["include/util/permutation.hpp: apply_perm_swap, apply_iperm_swap"]}
{"id": "C26", "title": "Kendall-tau counts inversions", "statement": "perm_inversions and the merge-sort based Kendall_tau both return the number of inverted pairs, and the sort leaves a sorted permutation of the input.", "quantifier": "all integer vectors", "why_tests_cant": "equality of two algorithms on all inputs", "anchors": ["include/util/permutation.hpp: Kendall_tau, perm_inversions"]}
{"id": "C27", "title": "Sorted-list set operations are exact", "statement": "On strictly increasing inputs: intersect_sorted returns the intersection in increasing order and has_intersect_sorted decides its nonemptiness; intersect_sorted_lt / has_intersect_sorted_lt restrict this to elements below maxval, except that when both inputs start with the same element >= maxval they return it; find_sorted_lt returns the last position below v whenever one exists, and is undefined on a nonempty list otherwise; sorted_complement returns the missing indices in increasing order (and does not terminate on unsorted input [1,0]); set_union and to_set return the increasing union of arbitrary containers; sort_sum_reduce returns the sorted, zero-free list with the same coordinate sums on nonempty input and reads out of bounds on empty input.", "quantifier": "all sorted inputs", "why_tests_cant": "all interleavings of two sorted lists", "anchors": ["include/util/sorted.hpp", "include/util/set.hpp"]}
{"id": "C28", "title": "The trie behaves as a finite map", "statement": "After any history of insertions, a key looks up to the value last inserted for it. (Count of an uninserted proper prefix of an inserted key is 1 and its value 0: proved as the exact behaviour.)", "quantifier": "all histories of insert/get/count over all key sequences", "why_tests_cant": "refinement over all histories", "anchors": ["include/util/trie.hpp"]}
{"id": "C29", "title": "Filtrations: additions, sublevel sets and lower stars", "statement": "A history of add(t,s)/add_directed(t,s)/add_recursive(t,s) on a new Filtration in which faces are present before cofaces ends with exactly the specified simplices, each with exactly its specified value, found by find_idx and vals; an add whose face is missing is undefined behaviour. sublevelset(a) returns exactly the simplices which, together with all their faces, have value at most a (for monotone values: all simplices with value at most a), so it is a complex and grows with a. lower_star_filtration assigns every simplex the maximum of its vertex values and a vertex attaining it; the result is monotone and its sublevel set at a is the full subcomplex on the vertices with value at most a.", "quantifier": "all histories of additions, all values in a linear order, all thresholds, all complexes and vertex functions", "why_tests_cant": "quantifies over all histories, values and thresholds; the failing case is undefined behaviour that tests may not notice", "anchors": ["include/filtration/filtration.hpp: add, add_directed, add_recursive, sublevelset, vals", "include/filtration/extension.hpp: extend_filtration, lower_star_filtration"]}
{"id": "C30", "title": "Sorting by filtration value keeps a chain complex", "statement": "Building a FilteredChainComplex from a complex with at least one edge dimension keeps the values, records per dimension the stable sorting permutation, stores each boundary matrix with rows and columns in that order, and gives again a chain complex with the same Betti numbers. For a complex with vertices only the constructor reads boundary[1] out of bounds.", "quantifier": "all chain complexes and filtration values", "why_tests_cant": "holds for all permutations", "anchors": ["include/chain/filtered_chain_complex.hpp", "include/chain/chain_complex.hpp: ipermute_basis"]}
{"id": "C31", "title": "Each cell is used exactly once in the barcode", "statement": "In persistence_pairs over all dimensions, each cell index is either the birth of exactly one pair or the death of exactly one pair, never both; the number of infinite bars in dimension k is betti_k; birth value <= death value for every pair when the values form a filtration.", "quantifier": "all filtered chain complexes", "why_tests_cant": "partition property over all complexes", "anchors": ["include/persistence/filtered_basis.hpp: persistence_pairs"]}
{"id": "C32", "title": "The barcode computes persistent Betti numbers", "statement": "For all s <= t, the number of bars (b,d) in dimension k with b <= s and t < d equals the rank of the map from the k-th homology of the sublevel complex at s to that at t.", "quantifier": "all filtered chain complexes, all pairs of thresholds", "why_tests_cant": "the fundamental correctness statement of persistence, over all inputs", "anchors": ["include/persistence/filtered_basis.hpp"]}
{"id": "C33", "title": "Updating a filtration equals recomputing", "statement": "Start from a complex reduced (standard or with clearing) with its basis on any filtration, and apply any sequence of update_filtration calls with arbitrary values for the cells. Then the values, the permutations, the Betti numbers and the persistence pairs of every dimension (in the same order) equal those of the complex rebuilt and reduced from scratch with any flags on the last filtration, and the stored factors satisfy boundary*U = R with U upper triangular invertible and R reduced. Without a basis update_filtration reads U out of bounds; after a compression reduction with basis it can report wrong bars (witness).", "quantifier": "all fields, chain complexes with at least one edge dimension, all values, all histories of updates, all reduction flags", "why_tests_cant": "history-dependent state must match for every update sequence", "anchors": ["include/homology/basis.hpp: permute_matrices, update_reduction2", "include/persistence/filtered_basis.hpp: update_filtration"]}
{"id": "C34", "title": "barcode_equality decides multiset equality", "statement": "barcode_equality(a,b) answers whether the two lists of bars agree as multisets of (dimension, birth, death), whatever their order; in particular multiplicities count.", "quantifier": "all pairs of bar lists", "why_tests_cant": "permutation invariance over all lists", "anchors": ["include/persistence/barcode.hpp"]}
{"id": "C35", "title": "Union-find computes zero-dimensional persistence", "statement": "find_parent terminates, returns the root of its argument and keeps every root. If the cells of a filtration are stored in filtration order and the conversion of values to float is strictly increasing, union_find_pairs succeeds, returns one pair per vertex born at the vertex's value, and for all s, t the number of bars with birth <= s and death > t is the number of components of the graph at t that contain a vertex born by s, which is the rank of H_0(X_s) -> H_0(X_t) for s <= t and the count the reduction reports. rips_union_find_pairs on a condensed distance vector and a sorting permutation returns one bar per point and counts the components of every neighbourhood graph. If the cells were not added in filtration order the bars can be wrong (witness).", "quantifier": "all parent forests and arguments; all filtered graphs/complexes with sorted values, all s and t; all condensed distance vectors and sorting permutations", "why_tests_cant": "all histories of unions", "anchors": ["include/persistence/union_find.hpp"]}
{"id": "C36", "title": "Flag and Rips filtrations contain exactly the cliques", "statement": "FlagFiltration of the edges of a simple graph (any order of the edges gives the identical result) succeeds and contains exactly the cliques with at most maxdim+1 vertices (edges are always included, even for maxdim 0), each with the value of its largest edge and vertices with t0; the values are monotone if no edge is below t0. FlagComplex contains exactly the same cliques and throws on a list of odd length. RipsFiltration (distance matrix or data set version) contains exactly the point sets of diameter at most rmax with value their diameter, vertices at 0. An edge listed twice gets the larger parameter.", "quantifier": "all simple graphs, all edge orders, all dimension limits, all distance functions and scales", "why_tests_cant": "combinatorial completeness over all graphs", "anchors": ["include/filtration/flag.hpp FlagFiltration", "include/topology/flag.hpp FlagComplex", "include/topology/rips.hpp RipsFiltration, rips_filtration_edges"]}
{"id": "C37", "title": "Simplicial maps are exact, functorial chain maps", "statement": "SimplicialMap(X, Y, f0) succeeds exactly if f0 covers the vertices of X, sends every simplex of X to a simplex of Y or identifies two of its vertices, and maxdim(X) <= maxdim(Y); if a simplex is missing in Y it throws, and if maxdim(X) > maxdim(Y) it reads out of bounds. The column of a simplex is empty if vertices are identified and otherwise has the single entry sign(sorting permutation) at the index of the sorted image. The chain map commutes with the boundary matrices over every field, composite vertex maps give products of matrices, inclusions and the identity are chain maps with coefficients 1, and induced maps on homology compose.", "quantifier": "all complexes X, Y, Z reached by any history of calls, all vertex maps, all fields, all dimensions", "why_tests_cant": "sign bookkeeping for all vertex permutations and all complexes", "anchors": ["include/complex/simplicial_map.hpp: SimplicialMap", "include/complex/cell_map.hpp: CellularMap, identity", "include/util/simplex.hpp: simplex_sign, is_degenerate", "include/chain/chain_map.hpp: ChainMap"]}
{"id": "C38", "title": "The sparse factorisations return factors of the promised shapes whose product is the input", "statement": "For every sparse matrix A over a field, of any size and rank: LEUP(A) returns L unit lower triangular, E with at most one nonzero entry per row and column whose nonzero columns come first with increasing rows, U unit upper triangular and a permutation matrix P, with A = L E U P; PLEU, UELP and PUEL return the analogous factors with the mirrored shapes of E; LQU and UQL return invertible triangular factors around a 0/1 pivot matrix; the *_prod functions applied to the result return A itself. inv(A) is a generalised inverse of A (A X A = A, X A X = X) and the inverse of A whenever A is invertible. EL_L_commute, L_EL_commute, U_EU_commute and EU_U_commute return, for E of the matching shape and an invertible triangular matrix, an invertible triangular matrix of the same kind which moves it to the other side of E. is_EL, is_EU, is_ELhat, is_EUhat and is_pivot_matrix decide exactly these shapes.", "quantifier": "all fields, all matrices with well formed columns, all sizes m x n (including 0)", "why_tests_cant": "in-place elimination with lazily updated factors, a pivot map and column exchanges; the invariant must hold for every matrix and field", "anchors": ["include/linalg/sparse_fact.hpp: LEUP, PLEU, UELP, PUEL, LQU, UQL, inv, EL_L_commute, L_EL_commute, U_EU_commute, EU_U_commute", "include/linalg/col_matrix.hpp: is_EL, is_EU, is_ELhat, is_EUhat, is_pivot_matrix, J_conjugation", "include/linalg/sparse_vector.hpp: axpy(x, coeff, inds)"]}
{"id": "C39", "title": "Preferred representatives are canonical", "statement": "After a reduction that stores the basis without compression, chain_preferred_representative of any chain c returns a chain r homologous to c; r is empty exactly for boundaries, is its own preferred representative, and two chains get the same answer exactly if they differ by a boundary; for a cycle r is a combination of the stored representatives. After a reduction with compression this fails (the boundary of a triangle is sent to a non-cycle).", "quantifier": "all chain complexes over any field, all dimensions, all chains and all pairs of chains", "why_tests_cant": "a well-definedness statement over all pairs of homologous cycles", "anchors": ["include/homology/basis.hpp: find_preferred_representative, chain_preferred_representative, to_hom_basis, from_hom_basis"]}
{"id": "C40", "title": "Induced maps on homology are well defined and functorial", "statement": "For a chain map f, induced_map returns a matrix of size hdim' x hdim that sends the coordinates of the class of any cycle z to the coordinates of the class of f(z) in the stored representatives; the identity induces the identity, a composite induces the product, chain homotopic maps induce the same matrix, and a map of the wrong size is rejected with an exception.", "quantifier": "all chain complexes over any field, all chain maps between them, all dimensions, all cycles", "why_tests_cant": "functoriality over all composable maps", "anchors": ["include/homology/induced_map.hpp: induced_map", "include/homology/basis.hpp: find_preferred_representative", "include/chain/chain_map.hpp: ChainMap"]}
{"id": "C41", "title": "Shape predicates are exact", "statement": "is_upper, is_lower, is_zero and is_reduced hold exactly for the upper triangular, lower triangular, zero and reduced matrices of every shape. is_upper_invert holds exactly when every column is zero or ends on the diagonal: for square matrices without a zero column that is upper triangular with nonzero diagonal, but singular matrices with zero columns (e.g. the zero matrix) are accepted too.", "quantifier": "all matrices", "why_tests_cant": "iff over all matrices", "anchors": ["include/linalg/col_matrix.hpp: is_upper, is_lower, is_upper_invert"]}
{"id": "C42", "title": "Block read and block assignment", "statement": "block(i0,i1) returns exactly the coordinates i0..i1-1. set_block(i0,i1,b) writes b to coordinates i0..i1-1, keeps every coordinate outside i0..i1, and always erases coordinate i1 as well; so it replaces exactly the block if and only if coordinate i1 was zero before.", "quantifier": "all vectors and ranges", "why_tests_cant": "off-by-one only visible when an entry sits exactly at i1", "anchors": ["include/linalg/sparse_vector.hpp: set_block, block"]}
{"id": "C43", "title": "Text formats: what is written is read back, and what is not", "statement": "For sparse vectors and column matrices over int and over ModP with canonical values (indices and dimensions below 2^31) the text written by write is read back by the constructors as exactly the same object, and reading leaves the stream right behind it, so several matrices can be read one after the other; over ModP<int,2> every entry comes back equal. Over Rational every entry n/d comes back as n/1, without error, so the round trip holds exactly for integer entries. Dimensions or indices from 2^31 on throw when read. A simplicial complex with sorted simplices (vertices below 2^31) that is saved and loaded has the same simplices under the same indices; only empty top dimensions disappear. If the file was only written up to the end of a line, loading gives the subcomplex of the simplices written so far with the same indices; a matrix file cut at the end of a line loads without error with zero columns in place of the missing ones, and one cut inside a line loads with copies of what the cut line reads as. SparseVector(v.str()) throws for every v, CellularMap(fname) throws on every file that save has written, and read_simplex throws on everything the vector overload of write_simplex writes. On every string or file the readers terminate with a value or an exception.", "quantifier": "all vectors, matrices, lists of matrices and reachable complexes in the stated ranges, every text behind them, every line boundary and every partial line at which the file may end, every input file for termination", "why_tests_cant": "numbers of every length, matrices of every shape and every crash point of the writer; the failures are for all inputs", "anchors": ["include/linalg/sparse_vector.hpp: write, str, SparseVector(string)", "include/linalg/abstract_vector.hpp: nzpair(string)", "include/linalg/col_matrix.hpp: write, read", "include/complex/cell_map.hpp: save, CellularMap(string)", "include/util/simplex.hpp: write_simplex, read_simplex", "include/complex/simplicial_complex.hpp: save, SimplicialComplex(string)", "include/linalg/field.hpp: operator<<"]}
{"id": "C44", "title": "UnivariatePolynomial is the ring of polynomials over the field", "statement": "Polynomials over a field behave as in algebra: constructors and operations keep the coefficient vector without trailing zeros, so is_zero, degree (of a nonzero polynomial), leading_coeff and == are those of the polynomial; +, +=, -, -=, unary -, * are the ring operations; p(v) and p(A, v) evaluate p at a scalar and p(A)v for a square sparse matrix; divrem terminates with x = qy + r and deg r < deg y for every nonzero y (and is undefined for y = 0); gcd is a greatest common divisor also for zero operands; companion_matrix of a monic polynomial of positive degree has it as minimal and characteristic polynomial, throws if it is not monic and is undefined for 0 and 1; characteristic_matrix(A) stores xI - A in sorted columns without zero entries (throws unless square), so that its determinant is the characteristic polynomial; generating_basis(R, A) has columns sum_i R_ij(A) e_i.", "quantifier": "all fields, all polynomials (any degree), all square matrices and vectors of any size", "why_tests_cant": "Identities of polynomials and termination of the division loops hold for all degrees, coefficients and fields; tests evaluate a few products over one field.", "anchors": ["include/linalg/polynomial.hpp: UnivariatePolynomial, characteristic_matrix", "include/linalg/rcf.hpp: generating_basis"]}
{"id": "C45", "title": "Updating the values of a filtered chain complex", "statement": "FilteredChainComplex::update_filtration(newval) records the new values and, in every dimension, the new sorted order; the stored boundary matrices are again a chain complex with the same Betti numbers, but (defect) they are permuted in the wrong direction: position i holds the cell old[y], where y is the position of old[i] in the new order, instead of new[i]. It agrees with building the filtered complex from scratch when the change of order is its own inverse, and differs (with wrong bars) for a 3-cycle.", "quantifier": "all fields, all chain complexes with zero boundary in dimension 0 and at least one edge dimension, all pairs of value assignments", "why_tests_cant": "The function is not exercised with a non-involutive change of order in the tests; the defect appears only when some dimension is permuted by a permutation of order > 2.", "anchors": ["include/chain/filtered_chain_complex.hpp: FilteredChainComplex::update_filtration"]}
{"id": "C46", "title": "extended_euclidean returns Bezout coefficients, gcd and cofactors", "statement": "For integers (without overflow) and for polynomials over a field extended_euclidean(a, b) terminates and returns x, y, g, w, z with xa + yb = g, gw = a, gz = b, where g is a greatest common divisor (for integers up to sign), and xw + yz = 1, so that the 2x2 operation (x, y; -z, w) is invertible over the ring; this includes a = 0, b = 0 and a = b = 0. For equal nonzero integers it returns x = 0, y = 1.", "quantifier": "all pairs of integers, all pairs of polynomials over all fields", "why_tests_cant": "The number of rounds and the sign corrections depend on the operands; the cofactor and determinant identities must hold for every number of rounds.", "anchors": ["include/linalg/pid.hpp: extended_euclidean"]}
{"id": "C47", "title": "Tensor product of chain complexes, Künneth formula", "statement": "For chain complexes A, B over a field with zero boundary in dimension 0, tensor_product(A, B, dmax) is a chain complex with dmax+1 boundary matrices and sum_{i+j=n} dim A_i dim B_j cells in dimension n <= dmax. The cell a (x) b with dim a = i has index sum_{k<i} dim A_k dim B_{n-k} + a dim B_{n-i} + b; these indices exhaust the cells, each once, and d(a (x) b) = da (x) b + (-1)^i a (x) db. In every dimension below dmax the Betti number is sum_{i+j=n} betti_i(A) betti_j(B); for tensor_product(A, B) in every dimension. The values read outside of the array ind_shift have no effect; without the hypothesis on dimension 0 they change the result.", "quantifier": "all fields, all pairs of chain complexes of any length and size, all dmax, all dimensions, all cells, all contents of the memory read outside of ind_shift", "why_tests_cant": "The formula holds for all complexes; tests fix a few complexes and one memory layout.", "anchors": ["include/chain/chain_complex.hpp: tensor_product (both overloads)", "include/linalg/sparse_vector.hpp: kron, shift_inds, operator+"]}
{"id": "C48", "title": "Row operations on sparse vectors", "statement": "For every well-formed sparse vector (increasing indices, no stored zeros): nzinds/firstnz/lastnz report exactly the nonzero coordinates; swap_rows, scaling, erase_row variants, insert_rows (zero rows and with values), subvector, shift_inds, dot product, kron, scalar multiplication and axpy with a list of coefficients compute the coordinates their names say and keep the vector well formed. Exceptions, stated exactly: mix_rows(i,j,a,b,c,d) is wrong (or undefined) when i > j, d*v_j = 0, b*v_j != 0 and only entry j is stored; ipermute(perm) is the same function as permute(perm), not its inverse; the coefficient-list axpy is wrong when the index list ends before the entries of y.", "quantifier": "all fields, all well-formed sparse vectors, indices, coefficients, index lists and permutations", "why_tests_cant": "Each operation is a merge or an in-place update of a sorted list whose branches depend on which entries happen to be stored; tests cover a few sparsity patterns only, and the wrong branches (mix_rows, ipermute) are reached only by particular patterns.", "anchors": ["include/linalg/sparse_vector.hpp: SparseVector::swap_rows, mix_rows, insert_rows, erase_row, erase_rows_after, erase_initial_rows, subvector, permute, ipermute, shift_inds, kron, axpy, scale"]}
{"id": "C49", "title": "Row and column operations on sparse matrices", "statement": "For every well-formed column-sparse matrix: reading entries and counting nonzeros; appending, inserting, erasing, swapping, mixing, clearing, scaling and permuting rows and columns; block, set_block, submatrix, direct_sum; row-vector times matrix; schur_complement -- each returns a matrix of the documented shape whose every entry is given by the documented formula. Exceptions, stated exactly: insert_column(index) without a column moves column `index` to the end (correct only at the end); set_block also erases row i1 in the written columns; mix_cols may leave explicit zeros when a or d is 0; insert_rows(r_inds, rows) counts positions in the original matrix although insert_rows(r_inds) and insert_sparse_rows count positions in the result; ipermute_rows is permute_rows.", "quantifier": "all fields, all shapes, all well-formed matrices, all indices and index lists within the documented bounds", "why_tests_cant": "The operations are index arithmetic on sparse columns; a wrong boundary shows only for particular positions and sparsity patterns, and the tests in the repository exercise a handful of literal matrices.", "anchors": ["include/linalg/col_matrix.hpp: ColumnMatrix::append_column, insert_column, insert_columns, append_row, insert_row, insert_rows, insert_sparse_rows, erase_*, block, set_block, submatrix, swap_rows, mix_rows, mix_cols, clear_cols, schur_complement, row_scale, col_inv_scale, nnz, getval"]}
{"id": "C50", "title": "Bar representatives generate the homology of every sublevel complex", "statement": "For a filtered complex reduced with a basis (and also after any sequence of updates), representative(p) of every bar p reported by persistence_pairs(k) returns normally a cycle of the original complex, supported on cells of value at most the birth of p and containing the birth cell; it is not a boundary in any sublevel complex at which the bar is alive; and for every t the representatives of the bars alive at t form a basis of the k-th homology of the sublevel complex at t: every cycle at t is homologous, within the sublevel complex at t, to exactly one combination of them.", "quantifier": "all fields, chain complexes with an edge dimension, all filtration values, all flags that compute a basis, all histories of updates, all bars, all t", "why_tests_cant": "The claim is about every cycle at every filtration value of every complex; a test sees one barcode of one complex.", "anchors": ["include/persistence/filtered_basis.hpp: ReducedFilteredChainComplex::representative, persistence_pairs, update_filtration", "include/homology/basis.hpp: ReducedChainComplex"]}
{"id": "C51", "title": "End to end: computed Betti numbers are simplicial Betti numbers", "statement": "Build a complex by any history of add / add_recursive calls with distinct vertices, form its chain complex over any field, and reduce it with any combination of optimisation flags: every call succeeds and hdim(k) is the dimension of the k-th simplicial homology of the abstract complex of the stored vertex sets (textbook boundary with sign (-1)^(number of smaller vertices)).", "quantifier": "all histories, all fields, all algorithm variants, all k <= maxdim", "why_tests_cant": "ranges over all finite complexes and composes insertion, index bookkeeping, matrix construction and reduction", "anchors": ["include/complex/simplicial_complex.hpp", "include/chain/chain_complex.hpp", "include/homology/basis.hpp: ReducedChainComplex, hdim"]}
{"id": "C52", "title": "End to end: bars of a simplicial filtration are persistent Betti numbers of simplicial homology", "statement": "Build a Filtration by add/add_recursive with monotone values and faces first, form its filtered chain complex over any field and reduce it with any of the reduction variants. For all thresholds s <= t and every dimension k, the number of reported bars born at or before s and alive at t (death after t or never) equals the rank of the map H_k(K_s) -> H_k(K_t) induced by inclusion of the abstract simplicial complexes of vertex sets with value at most s and t.", "quantifier": "all histories, all monotone values, all fields, all reduction variants, all thresholds and dimensions", "why_tests_cant": "a composition of building, indexing, sorting, permuting, reducing and reading off, to hold for every filtered complex", "anchors": ["include/filtration/filtration.hpp", "include/chain/filtered_chain_complex.hpp", "include/persistence/filtered_basis.hpp: Reduce, persistence_pairs", "include/complex/simplicial_complex.hpp"]}
{"id": "C53", "title": "Rips persistent homology is the rank of the maps between Vietoris-Rips complexes", "statement": "For nonnegative distances: build RipsFiltration(pdist, rmax, dmax), its filtered chain complex over any field, reduce with any of the algorithms. All calls succeed and for each k up to dmax and all scales 0 <= s <= t <= rmax the number of reported bars of dimension k born at or before s and still alive at t is the rank of H_k(VR_s) -> H_k(VR_t), VR_r the dmax-skeleton of the Vietoris-Rips complex at scale r.", "quantifier": "all distance matrices, scales, dimension limits, fields and reduction algorithms", "why_tests_cant": "a statement about the ranks of all maps in homology for every point set and every pair of scales", "anchors": ["include/topology/rips.hpp RipsFiltration", "include/filtration/flag.hpp", "include/persistence/barcode.hpp", "include/homology/basis.hpp"]}
{"id": "C54", "title": "The light complex is a simplicial complex", "statement": "Any history of add (with the faces present) and add_recursive calls on a new light complex succeeds; find_idx, get_simplex and ncells describe exactly the specified set of simplices; add_recursive returns exactly the new cells; the chain complex has the signed faces as columns, squares to zero, and its reduction gives the simplicial Betti numbers. add does not check faces; the boundary matrix then throws (witness).", "quantifier": "all histories, all n, k that fit in index_type, all fields, all reduction variants", "why_tests_cant": "all histories, all sizes", "anchors": ["include/complex/light_simplicial_complex.hpp", "include/chain/chain_complex.hpp"]}
{"id": "C55", "title": "Barcodes of zigzag diagrams", "statement": "For every diagram of vector spaces over a line of nodes with arrows in either direction, barcode(dgm, hdim, flag) succeeds with each of the three algorithms (rightward, leftward, divide and conquer, for any number of levels) and returns the bars of an interval decomposition of the diagram: the number of bars alive on all nodes b..e equals the rank of the diagram between b and e (the rank of the composed map where all arrows point to the right), the number of bars at a node is the dimension there, the multiset of bars does not depend on the algorithm, and the version for stacked diagrams lists the bars of every dimension in turn. With no edges the functions read out of bounds.", "quantifier": "all fields, all diagrams (number of edges, directions, dimensions, matrices), all algorithms and thread levels", "why_tests_cant": "all diagrams and sizes", "anchors": ["include/quiver/sparse.hpp", "include/linalg/sparse_fact.hpp", "include/multigraph/diagram.hpp"]}
{"id": "C56", "title": "Validity check, subcomplex and relative complex", "statement": "For matrices of matching shapes is_valid_complex returns true exactly when consecutive boundary maps compose to zero. For a list of cells closed under boundaries, given in any order, subcomplex(inds) is the chain complex on exactly these cells (in increasing order) and its Betti numbers are the dimensions of the homology of the subcomplex; relative_complex(inds) is the chain complex on exactly the other cells and its Betti numbers are the dimensions of relative homology (chains with boundary in the subcomplex modulo boundaries and chains of the subcomplex).", "quantifier": "all fields, all chain complexes with zero boundary in dimension 0, all subcomplexes, all dimensions", "why_tests_cant": "Relative homology is a statement about quotient spaces of arbitrary dimension; tests compute a few Betti numbers.", "anchors": ["include/chain/chain_complex.hpp: ChainComplex::is_valid_complex, subcomplex, relative_complex", "include/linalg/col_matrix.hpp: ColumnMatrix::submatrix", "include/util/sorted.hpp: sorted_complement"]}
{"id": "C57", "title": "Homology and cohomology of DG vector spaces", "statement": "For every chain complex with zero boundary in dimension 0, building the differential graded vector space of degree -1 or +1 and reducing it with any of the flag combinations succeeds and hdim(k) is the dimension of homology (degree -1) or of cohomology, cocycles of the transposed boundary maps modulo coboundaries (degree +1); these agree with each other and with the chain complex reduction. With the augmentation flag, for complexes whose augmentation vanishes on boundaries, hdim(k) is the dimension of reduced homology or reduced cohomology: one less in dimension 0 for a nonempty complex, the same elsewhere. For a simplicial complex built by any history of calls these are its simplicial Betti numbers.", "quantifier": "all fields, all chain complexes, both degrees, augmented or not, all five reduction constructors, all dimensions", "why_tests_cant": "The equality is between the output of an elimination algorithm and the dimension of a quotient of kernels and images, over all complexes, all fields and all algorithm variants.", "anchors": ["include/dgvs/dgvs.hpp: DGVectorSpace", "include/homology/dgbasis.hpp: ReducedDGVectorSpace, hdim, set_indices"]}
{"id": "C58", "title": "Persistent cohomology equals persistent homology", "statement": "For every filtered chain complex, the filtered DG vector space of degree -1 has exactly the persistence pairs of the filtered chain complex, in the same order, and that of degree +1 has the same pairs (same birth and death values and cells) in reverse order, for all reduction flags; the number of bars born by s and alive after t is the rank of the map in homology between the sublevel complexes. With augmentation exactly one infinite bar of dimension 0 is missing, of smallest birth.", "quantifier": "all fields, all complexes of dimension at least 1, all filtration values, both degrees, augmented or not, all flags, all s <= t", "why_tests_cant": "The duality of persistence pairs under anti-transposition of the boundary matrix is a theorem about all filtered complexes.", "anchors": ["include/dgvs/filtered_dgvs.hpp: FilteredDGVectorSpace", "include/persistence/filtered_dgbasis.hpp: ReducedFilteredDGVectorSpace::persistence_pairs"]}
{"id": "C59", "title": "Updating filtrations of reduced DG vector spaces", "statement": "Any sequence of update_filtration calls on a filtered DG vector space reduced with a basis, of either degree, augmented or not, gives the values, orders, Betti numbers and persistence pairs of a reduction from scratch on the last filtration, and the stored factors are a reduction of its differentials. update_filtration of the unreduced FilteredDGVectorSpace does not: it stores a boundary matrix in a wrong order (degree -1) or fails (degree +1).", "quantifier": "all fields, all complexes, all initial filtrations and all histories of updates, both degrees, augmented or not", "why_tests_cant": "The claim is about arbitrarily long histories of updates.", "anchors": ["include/persistence/filtered_dgbasis.hpp: update_filtration", "include/homology/dgbasis.hpp: permute_basis, permute_matrices, update_reduction2", "include/dgvs/filtered_dgvs.hpp: update_filtration"]}
{"id": "C60", "title": "Representatives of classes in DG vector spaces", "statement": "With degree -1, get_preferred_representative(j, k) of a DG vector space reduced with a basis returns cycles whose classes are a basis of homology (reduced homology if augmented) in dimension k: every cycle is a unique combination of them plus a boundary. With degree +1 the index is off by one: it is get_preferred_representative(j, k+1) that returns cocycles whose classes are a basis of cohomology (reduced cohomology) in dimension k; get_preferred_representative(0, 0) reads out of bounds.", "quantifier": "all fields, all chain complexes, both degrees, augmented or not, both constructors with basis, all dimensions", "why_tests_cant": "A basis property quantifies over all cycles of all complexes.", "anchors": ["include/homology/dgbasis.hpp: get_preferred_representative"]}
{"id": "C61", "title": "Zigzag barcodes are interval decompositions", "statement": "For every chain complex with zero boundary in degree 0 and every valid sequence of entries and exits of cells (boundaries present on entry, no coface present and last in its dimension on exit), zigzag_barcode_reduction returns, and in each dimension k <= maxdim the reported pairs are exactly the bars of an interval decomposition of the zigzag H_k(X_0), H_k(X_1), ... of the homology of the subcomplexes present after each event: there are cycles, one per bar alive, whose classes form a basis at each time, and each inclusion-induced map sends the class of a bar to the class of the same bar, or to 0 where the bar ends. In particular the number of bars alive at time i is dim H_k(X_i). The result holds for the default maxdim = -1 and for an explicit maxdim if no cell of dimension above maxdim+1 leaves; without that condition the exit leaves a stale pivot and a later entry reads an empty column (undefined behaviour).", "quantifier": "all fields, all chain complexes, all valid orders of entries and exits of any length, all maxdim, all filtration value types", "why_tests_cant": "The claim quantifies over all zigzags; a test compares the bars of a few zigzags and never checks that compatible bases exist.", "anchors": ["include/zigzag/reduction.hpp: zigzag_barcode_reduction, reduce_column, detail::cycle_insertion_map, detail::boundary_insertion_map, detail::apply_basis, detail::update_bars"]}
{"id": "C62", "title": "Barcode of a zigzag filtration", "statement": "Let every cell of a chain complex carry a list of disjoint closed intervals of presence in increasing order, every interval of a cell lying in one interval of each cell of its boundary. If moreover the first interval of a cell lies in the first interval of each face and further intervals are not single points (in particular if every cell has exactly one interval), then barcode(F, maxdim, field) returns for each reported dimension pairs which are the bars of an interval decomposition of the zigzag of homology groups along an order of the entries and exits that is sorted by time with entries before exits; the number of pairs of dimension k alive at any time t equals dim H_k of the complex of the cells whose intervals contain t (closed end at an exit and at the entry giving birth, open end at the entry causing death and at the exit giving birth); a reported cell index is the index of the cell for events of its first interval. This holds for the general and for the simplicial (lexicographic) processing order and for every conforming std::sort. Without the extra conditions the call is undefined behaviour or throws on some valid zigzag filtrations, and events of further intervals report the index of an internal copy.", "quantifier": "every field, every chain complex of at least two dimensions (every simplicial complex with increasing vertices and an edge dimension), every assignment of intervals as described, every linear order of times, every implementation of std::sort, every time t and dimension, default maxdim or one above which only cells of dimension maxdim+1 exist", "why_tests_cant": "depends on all interleavings of entries and exits, on ties, on the unspecified order of equivalent elements in std::sort and on cells with several presences", "anchors": ["include/zigzag/zigzag_filtration.hpp: ZigzagFiltration, ZigzagChainComplex, prepare_ChainComplex, lex_cmp, rlex_cmp, barcode", "include/zigzag/reduction.hpp: zigzag_barcode_reduction"]}
{"id": "C63", "title": "Thickened level set zigzags", "statement": "extend_zigzag_filtration(f0, X, eps) on a simplicial complex throws exactly if some simplex has two vertices whose values differ by more than 2 eps or a vertex with a value below L - 2 eps, where L is numeric_limits<T>::min(). Otherwise it returns a valid zigzag filtration with one interval per simplex in which a simplex is present at time t exactly if t >= L - eps and all its vertices have values within eps of t. Hence if all values are at least L, the barcode of the result has, for each dimension k < maxdim and every time t, as many pairs alive at t as the k-th simplicial Betti number of the complex of simplices all of whose vertices have values within eps of t. For floating point types L is positive, so negative functions enter late or make the call throw.", "quantifier": "every complex built by add / add_recursive, every function on its vertices, every eps >= 0, every ordered group of times (exact arithmetic), every field, dimension and time", "why_tests_cant": "quantifies over all complexes, functions, radii and times and all interleavings of the resulting events", "anchors": ["include/zigzag/extension.hpp: simplex_extrema, extend_zigzag_filtration", "include/zigzag/zigzag_filtration.hpp: barcode"]}
{"id": "C64", "title": "Histories of zigzag filtrations and their level sets", "statement": "A ZigzagFiltration over a simplicial complex, built from empty by any sequence of add(entry, exit, s) and add_recursive(entry, exit, s) calls, stores exactly the intervals that the calls prescribe: add appends the interval to the list of the simplex if its codimension-one faces are present and otherwise accesses memory out of bounds; add_recursive of an absent simplex gives the interval to it and to those of its faces that are absent, and of a present simplex appends to that simplex only (so its faces are not extended and the result may be no filtration). If the intervals obtained form a filtration of the treatable kind with an edge, barcode succeeds and for every time t the pairs of dimension k alive at t are as many as the k-th simplicial Betti number of the complex of the simplices one of whose intervals contains t. levelset(s0, s1) returns the simplices all of whose faces have a first interval with an end strictly between s0 and s1; simplices present throughout [s0, s1] are missed although the documentation asks for all simplices whose interval meets [s0, s1].", "quantifier": "every sequence of calls with non-empty simplices (for the barcode: distinct vertices), all intervals over any linear order, every field, every sort implementation, all s0 and s1", "why_tests_cant": "ranges over all histories of calls and all interval data; the barcode statement is about homology at every time", "anchors": ["include/zigzag/zigzag_filtration.hpp: ZigzagFiltration::add, add_recursive, levelset, reserve, barcode"]}
{"id": "C65", "title": "Homology of diagrams of spaces: functors run in parallel, and the barcode of a zigzag of spaces", "statement": "Chain(D), Hom(D, k) and Hom(D, topd) apply the chain and homology functors to the nodes and edges of a diagram in OpenMP loops; a run which ends normally has the same result whatever the order in which the iterations are executed. For a diagram of simplicial complexes whose edges are simplicial maps or inclusions, Chain(D) succeeds and is a diagram of the same shape of chain complexes and chain maps; Hom(D, k) then succeeds for every k up to the dimensions of all nodes, and the matrix on each edge represents the map on H_k in the bases of the preferred representatives at its ends. If the diagram is a zigzag 0 - 1 - ... - m with arrows in any directions, barcode(Hom(D, k), k) with any of the three algorithms is an interval decomposition of the zigzag of homology groups: each bar has a cycle at every node where it is alive, the classes of the cycles form a basis of H_k at every node, and the arrows send the class of a bar to the class of the same bar or to 0 if it is not alive at the other end. The barcode is unique: every such decomposition has the same multiset of (birth, death). The number of pairs alive at node n is the k-th simplicial Betti number of the complex at node n, and along arrows to the right the number of pairs alive from b to e is the rank of the composed map on homology. Hom(D, topd) with barcode(D, flag) does the same for all dimensions of the first complex at once; if there are none it throws.", "quantifier": "every diagram of simplicial complexes built by any histories of calls with increasing vertices and of simplicial maps or inclusions, every zigzag shape, every schedule of the parallel loops, every field, every k up to the dimensions of the nodes, all three algorithms", "why_tests_cant": "ranges over all schedules of parallel loops, all diagrams and all fields; the statement is about homology classes and the uniqueness of decompositions, not about single outputs", "anchors": ["include/multigraph/diagram.hpp:Diagram, set_node, set_edge", "include/multigraph/functors.hpp:ChainFunctor, Hom", "include/quiver/sparse.hpp:barcode", "include/homology/induced_map.hpp:induced_map", "include/chain/chain_map.hpp:ChainMap"]}
{"id": "C66", "title": "Nerves of covers and functoriality of the nerve", "statement": "For a cover (a vector of sets of point indices) `Nerve(cover, dmax)` succeeds and contains one vertex for every set (also an empty one) and exactly those sets of 2 to dmax+1 cover indices whose cover sets have a common point; for dmax = 0 the edges are added, too. Its Betti numbers below dmax, by every reduction algorithm, are those of the full nerve. An assignment of the sets of one cover to larger sets of another extends to a simplicial map of the nerves inducing a chain map if dmax >= 1 (for dmax = 0 it may read out of bounds). For a zigzag of covers, in any order of the parallel loops, `Nerve`, `Chain`, `Hom` and `barcode` succeed, the bars decompose the homology of the diagram and the number of bars over a node is the Betti number of the nerve of its cover. `bivariate_cover` returns exactly the nonempty pairwise intersections in lexicographic order together with refinement maps to both covers. `landmark_eps_cover` puts a point into the set of a landmark exactly if no landmark is nearer by eps or more; the sets cover the data if eps > 0 and are all empty for eps = 0.", "quantifier": "all covers (any number and size of sets), all dmax, all refinement maps, all zigzags of covers, all schedules of the parallel loops, all reduction algorithms, all distance tables over an ordered group", "why_tests_cant": "the recursion must enumerate every common intersection of every cover exactly once and in an order in which faces come first; functoriality ranges over all refinements and all schedules", "anchors": ["include/topology/nerve.hpp: Nerve, add_dimension_recursive_nerve", "include/topology/cover.hpp: bivariate_cover, landmark_eps_cover", "include/multigraph/functors.hpp: Nerve"]}
{"id": "C67", "title": "Landmarks: farthest-first order, Hausdorff distances, covering and packing, termination", "statement": "For the table of distances of a data set (any exact ordered number type): `greedy_landmarks_hausdorff(D, dist, i0, k)` returns k landmarks, each the first point farthest from the landmarks before it, and exactly the Hausdorff distance of every prefix to the data; these decrease, any two of the first j+2 landmarks have distance at least hds[j], and in a metric the last one is at most twice the Hausdorff distance of any k points. The version without k orders all points, its final 0 is the true distance, and every point occurs once if points are distinct (with repeated points index 0 is repeated and others are missing). The matrix version agrees for symmetric matrices (it mixes rows and columns otherwise). `hausdorff_landmarks` for r >= 0 ends within n-1 iterations with a set covering the data within r and r-separated; for r < 0 it never ends. `greedy_landmarks` returns the first k landmarks of that order if no fewer than k points have distance 0 to all points; it never ends if k exceeds the number of different points by 2 or more. `approx_center` returns the first point minimising the largest distance to the landmarks, and is a centre up to their Hausdorff distance. `L1Dist` and `LInfDist` of points of equal dimension are metrics separating points.", "quantifier": "all distance tables of any size, all k, i0, r, all numbers of iterations, all competing sets of centres, all point sets", "why_tests_cant": "optimality bounds range over all competing centre sets, termination over all data sets; repeated points and ties are input shapes a test suite samples only", "anchors": ["include/topology/landmark.hpp: greedy_landmarks, hausdorff_landmarks, greedy_landmarks_hausdorff, approx_center", "include/topology/metric.hpp: L1Dist, LInfDist, AbstractMetric::operator()"]}
{"id": "C68", "title": "Rips complexes of diagrams of subsets; union, intersection, Morozov and oscillating Rips zigzags", "statement": "`RipsComplex(X, dist, rmax, dmax)` consists of the sets of at most dmax+1 points with pairwise distances at most rmax (for dmax = 0 it contains the edges, too); its Betti numbers below dmax, by every reduction algorithm, are those of the full Vietoris-Rips complex. For a diagram of subsets and inclusions, `Rips(D, X, dist, rmax, dmax)` succeeds in every order of its parallel loops and is the diagram of Rips complexes and induced simplicial maps; with a radius for every node it does so if the radii do not decrease along edges, and throws otherwise. For a zigzag, `Chain`, `Hom` and `barcode` succeed after it and the number of bars over a node is the Betti number of the Rips complex of its subset at its radius. `RipsHom` computes the same maps; it stores the Betti number at every node which is an end of an edge and 0 at the others. `vertex_inclusion_map(s, t)` gives the positions of s in t, and reads past the end if s is not a subset. `linear_subset_union_diagram` is the zigzag of the sets, the unions of neighbours and the inclusions. `linear_cover_intersection_diagram` is not a zigzag for two or more sets: its second edge at every intersection has the wrong target. `OscillatingRipsZigzagSets` gives the sets of the first i+1 landmarks with radius eta*hds[i], joined by the sets of the first i+2 landmarks with radius rho*hds[i], and throws for rho < eta; `DiscreteMorozovZigzagSets` gives the sets of landmarks up to its levels (each level is the first index whose Hausdorff distance is at most eta times that of the level before); the radii of both are monotone along edges for rho >= 0, so that the barcodes are computed as above. With repeated points the Morozov version can read past the end of the list of landmarks.", "quantifier": "all data sets (tables of distances of any size over any ordered field), all diagrams of subsets, all radii, dimensions, schedules of the parallel loops, fields of coefficients and barcode algorithms", "why_tests_cant": "the diagrams, schedules and data are unbounded; a wrong edge target or radius shows only for particular covers; repeated points make the outcome undefined rather than wrong", "anchors": ["include/topology/rips.hpp: rips_edges, RipsComplex", "include/topology/inclusion.hpp", "include/multigraph/functors.hpp: Rips, RipsHom", "include/topology/zigzag_zoo.hpp", "include/topology/cover.hpp: get_subset"]}
{"id": "C69", "title": "Dowker and witness complexes, nearest landmarks", "statement": "DowkerFiltration(pdist, rmax, dmax) contains exactly the sets of at most dmax+1 landmarks any two of which have a common witness at distance less than rmax, each with the smallest t for which any two of its landmarks have a common witness within t, and its persistence pairs count the ranks of the maps in homology between the flag complexes at two scales. neighborhood/neighborhoods(X, Y, dist, k) and landmark_cover list k nearest landmarks of every point for every schedule and every std::partial_sort (undefined if k exceeds the number of landmarks). WitnessComplex(X, L, dist, dmax) contains exactly the sets of landmarks all of whose faces are nearest landmarks of some point; it lies between the strict and the weak version of the witness complex, is the witness complex if no point has the same distance to two landmarks, and then its computed Betti numbers are right. get_m(pdist, nu) is the nu-th smallest of the distinct positive entries of a column (not the nu-th smallest entry). witness_edge_param, WitnessFiltration and StrictWitnessComplex are undefined when there are more points than landmarks; otherwise only the rows of the first |X| landmarks are decreased by m, and WitnessFiltration equals DowkerFiltration. neighborhoods(X, Y, dist, r) prepends |X| empty lists, so that witness_edges never finds an edge.", "quantifier": "all distance matrices, thresholds, dimensions, implementations of std::partial_sort, schedules of the parallel loop, fields and reduction algorithms", "why_tests_cant": "The claims are about every distance matrix, every tie-breaking and every schedule; tests would use a few point clouds with one compiler's partial_sort.", "anchors": ["include/topology/dowker.hpp: get_m, dowker_edge_param, witness_edge_param, witness_edges, WitnessComplex, StrictWitnessComplex, flag_filtration_edges, WitnessFiltration, DowkerFiltration", "include/topology/neighborhood.hpp: neighborhood, neighborhoods", "include/topology/cover.hpp: landmark_cover", "include/util/permutation.hpp: firstk"]}
{"id": "C70", "title": "Rips and Dowker filtrations subordinate to a cover; union of filtrations", "statement": "RipsCoverFiltration(X, dist, cover, rmax, dmax) contains exactly the sets of at most dmax+1 points any two of which lie in a common set of the cover and at distance less than rmax, each with its diameter; with the cover by one set of all points it is the Vietoris-Rips filtration; its persistence pairs count the ranks of the maps in homology between the flag complexes of the graphs of such pairs at two scales below rmax. StrictRipsCoverFiltration contains exactly the sets that lie (if they have more than one point) in one set of the cover, with the same values, hence is contained in the former; its pairs count the ranks of the maps between the unions of the Rips complexes of the sets. DowkerCoverFiltration contains the sets of landmarks any two of which lie in a common set and have a common witness at distance less than rmax, with their Dowker values. Filtration::union_add(F) contains the simplices of both filtrations; a simplex of F gets the value in F (not the smaller of the two).", "quantifier": "all ordered value types, distance functions, covers by sorted sets of point indices, thresholds, dimensions, fields and reduction variants; for union_add all pairs of histories", "why_tests_cant": "tests use one small cover; the claims range over all covers (overlapping, disjoint, empty sets, repeated sets), distance functions and thresholds", "anchors": ["include/topology/rips_cover.hpp: rips_edges, RipsCoverFiltration, StrictRipsCoverFiltration", "include/topology/dowker_cover.hpp: dowker_edges, DowkerCoverFiltration", "include/filtration/filtration.hpp: Filtration::union_add"]}
{"id": "C71", "title": "Divide-and-conquer reduction in parallel gives the same result for every schedule", "statement": "reduce_matrix(M, divide_conquer_flag()) splits the columns in two halves, reduces each half in an OpenMP task (recursively, down to a block size and a depth), and then reduces the nonzero columns of the second half against the first. For every matrix, block size, depth and every interleaving of the tasks: no step fails, there is no deadlock, every execution ends, tasks that run at the same time read and write disjoint sets of columns, and all executions return the same reduced matrix and pivot table, for every order of iteration through the unordered map of pivots. The reduced matrix is M times a unit upper triangular matrix, and the table is the one of the sequential standard algorithm, so a ReducedChainComplex built from it has the correct Betti numbers, tables and homology indices. The version that also updates a basis U multiplies M and U by the same unit upper triangular matrix (for block sizes of at least 2; it recurses for ever with a block size of 0 or 1). partial_reduce_parallel(M, block_size) reduces all blocks but the last independently: every schedule ends in the same matrix, M is multiplied by a unit upper triangular matrix, each swept block is reduced, the last block_size columns or fewer are untouched, and a later reduce_matrix returns the same table as without the sweep; with fewer columns than a block it runs out of bounds.", "quantifier": "every field, matrix, block size, recursion depth, schedule of the tasks and iteration order of the hash map", "why_tests_cant": "The number of schedules is unbounded and a test run observes one of them; the code is only called with a block size of 1024, so that small tests never reach the parallel part at all.", "anchors": ["include/homology/parallel.hpp: reduce_column_standard, reduce_block_sequential, reduce_block_dq, reduce_matrix, partial_reduce_parallel", "include/homology/reduction.hpp: reduce_matrix_standard", "include/homology/basis.hpp: ReducedChainComplex"]}
{"id": "C72", "title": "The enclosing radius, and Rips filtrations cut off there", "statement": "enclosing_radius(D) of a nonempty matrix of distances is the smallest radius of a ball around a data point that contains all points (of no points, the largest number). For a symmetric matrix the Vietoris-Rips complex at every scale from there on has the homology of a point: the Betti numbers computed from RipsComplex(X, dist, rmax, dmax) with rmax at least the enclosing radius are 1 in dimension 0 and 0 between 0 and dmax. In the persistent homology of RipsFiltration every bar of positive length between the dimensions 0 and dmax ends at the enclosing radius or before, exactly one bar of dimension 0 is alive from there on, and filtrations with different rmax, both at least the enclosing radius, have the same bars below dmax up to bars of length zero: cutting off at the enclosing radius loses nothing.", "quantifier": "every matrix of distances, field, reduction algorithm, scale and dimension bound", "why_tests_cant": "The claim that nothing is lost ranges over all point sets and all dimensions; a test compares two barcodes of one data set.", "anchors": ["include/topology/metric.hpp: enclosing_radius", "include/topology/rips.hpp: RipsFiltration, RipsComplex", "include/persistence"]}
{"id": "C73", "title": "General updates (insertions, deletions, new values) give the result of recomputation", "statement": "Reduce a filtered simplicial complex with a basis as a DG vector space of degree -1 (augmented or not). For any history of further filtrations, each built by add/add_recursive calls, describe each step by UpdateInfo2 of the previous and the next filtration and apply update_basis. If the number of dimensions stays the same, no vertex is added and the highest dimension never has more simplices than at the start, then every call succeeds and the stored values, permutations, Betti numbers and bars equal those of reducing the last filtration from scratch with any flags, hence the ranks of the maps between the homology groups of its sublevel complexes. UpdateInfo2 records, in every dimension, the permutation that lists the common simplices in the new order followed by the removed ones, the number of removed ones, and the positions of the new ones in the new order. The restrictions are needed: a new vertex or a growing top dimension is undefined behaviour, and with degree +1 the result is wrong once two simplices are inserted in one dimension.", "quantifier": "all fields, value types, initial filtrations, histories of filtrations of any length, and all reduction flags that keep the basis", "why_tests_cant": "A test exercises a few pairs of filtrations; the claim is about every history of insertions and deletions, and the shipped test does not compare the result.", "anchors": ["include/filtration/update_information.hpp: UpdateInfo2", "include/homology/dgbasis.hpp: update_basis, _delete_cells, _insert_cells, _make_U_upper_triangular", "include/persistence/filtered_dgbasis.hpp: update_basis", "include/linalg/col_matrix.hpp: insert_columns, insert_rows, erase_final_columns"]}
{"id": "C74", "title": "Unions, intersections and index queries of simplicial complexes", "statement": "For complexes whose simplices are stored in increasing order (always the case after add and add_recursive), simplicial_union(X, Y) returns a complex with exactly the simplices of X and of Y, and X.union_add(Y) adds the simplices of Y to X without changing the index of any simplex of X. intersection(X, Y) returns, for any X and Y, a complex with exactly the common simplices and the dimension bound of X. X.get_indices(A, d) lists, in the order of A, the index in X of every d-simplex of A (NO_IND for absent ones), and X.get_indices(A) does so for the dimensions 0..X.maxdim(). Exact behaviour outside the hypothesis: a union sorts the vertices of directed simplices, so the union of a complex with itself can differ from it.", "quantifier": "all complexes reachable by any history of additions", "why_tests_cant": "The claim is an equality of sets of simplices (and of all index queries) for every pair of complexes; tests/ compares cell counts of single examples.", "anchors": ["include/complex/simplicial_complex.hpp: union_add, simplicial_union, intersection, get_indices"]}
{"id": "C75", "title": "Chain complex and chain maps of pairs", "statement": "For a simplicial complex X (vertices of simplices increasing) and a complex A whose simplices of dimension at most X.maxdim() belong to X, ChainComplex<MT>(X, A) is a chain complex and hdim(k) after any reduction is the dimension of the relative homology H_k(K, L; F) of the abstract complexes. If A has another simplex, the constructor does not return a complex: the index NO_IND is treated as a row number and the complement grows until allocation fails. For a vertex map that is simplicial X -> Y and A -> B, ChainMap(f, X, A, Y, B) is a chain map of the relative complexes, made of the entries of f at the simplices outside B and A. The same holds for relative_map(inds1, inds2) of a chain map that sends listed cells to listed cells.", "quantifier": "all pairs of reachable complexes, vertex maps, fields, reduction algorithms, dimensions; all chain maps and subcomplexes for relative_map", "why_tests_cant": "Relative Betti numbers are ranks of quotients for every pair and every field; a test compares a few known spaces.", "anchors": ["include/chain/chain_complex.hpp: ChainComplex(X, A)", "include/chain/chain_map.hpp: ChainMap(f, X, A, Y, B), relative_map", "include/linalg/csc_matrix.hpp: submatrix", "include/util/sorted.hpp: sorted_complement"]}
{"id": "C76", "title": "Mayer-Vietoris boundary", "statement": "Let X have exactly the simplices of A and B, and Y the common ones. mayer_vietoris_boundary(A, X, Y, k) returns a matrix from the (k+1)-chains of X to the k-chains of Y that sends cycles to cycles and boundaries to boundaries, and the induced map H_{k+1}(X) -> H_k(Y) is the connecting homomorphism: for a cycle z = a + b with a on A and b on B the image is the boundary of a up to a boundary of Y. If the k-simplices of Y were added in lexicographic order, the columns are well-formed sparse vectors; otherwise they are stored unsorted and sparse products with the matrix are wrong.", "quantifier": "all reachable complexes A, B, X, Y, dimensions k, fields, cycles and decompositions", "why_tests_cant": "A statement about all cycles and all decompositions of every pair of complexes; tests/mayer_vietoris.cpp prints one matrix.", "anchors": ["include/topology/mayer_vietoris.hpp: mayer_vietoris_boundary"]}
{"id": "C77", "title": "Triangulated product of simplicial complexes", "statement": "For complexes X, Y with increasing simplices, TriangulatedProduct(X, Y, k, n) returns a complex of dimension bound k whose simplices are exactly the chains, in the product order of the vertices, inside sigma x tau for simplices sigma of X and tau of Y with dim sigma + dim tau <= k; vertex (i, j) is labelled i + n j. If all labels of X are smaller than n the labelling is injective, so that a list of labels is a simplex iff its decoding (v mod n, v div n) is such a chain. TriangulatedProduct(X, Y) contains all chains. Exact behaviour: the default n = X.ncells(0) identifies distinct points if the labels of X are not 0..ncells(0)-1, and with k smaller than the dimension of the product the result is not its k-skeleton.", "quantifier": "all pairs of reachable complexes, all k and n, all lists of labels", "why_tests_cant": "The set of simplices must be right for every pair of complexes; the enumeration of staircases is recursive over iterators that are moved back and forth.", "anchors": ["include/complex/simplicial_complex.hpp: prod_ind, product_paths, TriangulatedProduct"]}
{"id": "C78", "title": "Cochain complexes and ReducedCochainComplex: exact behaviour", "statement": "CochainComplex(X) of a chain complex stores the transposed boundary matrices, so consecutive coboundary maps compose to zero. Every constructor of ReducedCochainComplex (standard with basis, without basis, clearing, compression) gives the same answer on it: its stored matrices are reduced, with R[k] = coboundary[k] U[k] for an invertible upper triangular U[k] (standard), and dim H^k = (number of k-cells) - (nonzero columns of R[k]) - (nonzero columns of R[k+1]). But hdim(k) is not dim H^k: it counts the (k-1)-cells whose column in coboundary[k] has no pivot and whose index, read as the index of a (k+1)-cell, is not a pivot row of coboundary[k+1]. The construction succeeds exactly if all those indices exist; otherwise it reads a table out of bounds, which happens for every complex with an edge map whose columns sum to zero that has triangles but fewer triangles than vertices. For the interval hdim is (0,1) instead of (1,0), for the 2-sphere (1,0,3) instead of (1,0,1).", "quantifier": "every chain complex over a field with zero boundary in dimension 0, every constructor, every dimension", "why_tests_cant": "the exact range of validity and the equality of all constructors must hold for every complex; a test on one complex sees one number", "anchors": ["include/chain/cochain_complex.hpp: CochainComplex(const CpxT&)", "include/homology/cohom_basis.hpp: ReducedCochainComplex, set_indices, hdim"]}
{"id": "C79", "title": "Maps and diagrams of differential graded vector spaces", "statement": "DGLinearMap(f, degree) of a simplicial map or inclusion is the chain map for degree -1 and, for degree +1, the transposed matrices, which commute with the coboundary maps in the opposite direction; other degrees throw. For DG vector spaces of degree -1, augmented or not, reduced with a basis, induced_map(F, C, D, k) returns the matrix of the map on (reduced) homology in the bases of the preferred representatives: if the class of a chain has coordinates c, the class of its image has coordinates M c; the identity gives the identity matrix and a composite the product. DGLinearFunctor(D, degree) gives the DG vector spaces and maps of the diagram, with edges reversed for +1; Hom(D, k) and Hom(D, topd) succeed in degree -1 and their barcodes, with every algorithm, are interval decompositions of the zigzags of (reduced) homology groups. The results do not depend on the order in which the threads run the iterations. In degree -1 chain_preferred_representative(c, k) is a canonical representative of c modulo boundaries (equal for two chains exactly if they differ by a boundary). induced_map of spaces of different degrees throws. For degree +1 chain_preferred_representative is not canonical (a coboundary of the circle is returned unchanged; in degree 0 the basis of another space is used, out of bounds) and induced_map is wrong: a rotation of the circle, an automorphism, is sent to the zero map on H^1.", "quantifier": "every field, every chain complex and chain map, every diagram of simplicial complexes and maps of zigzag shape, every reduction with basis, every dimension, every algorithm, every schedule of the parallel loops", "why_tests_cant": "the induced map must represent the map on homology for every complex, map and choice of reduction, and the functors must be correct for every diagram and schedule", "anchors": ["include/dgvs/dgmap.hpp: DGLinearMap", "include/homology/dgbasis.hpp: find_preferred_representative, chain_preferred_representative", "include/homology/induced_map.hpp: induced_map for ReducedDGVectorSpace", "include/multigraph/functors.hpp: DGLinearFunctor, Hom for DGVectorSpace"]}
{"id": "C80", "title": "Persistent homology of cubical complexes and images", "statement": "For every cubical complex and every assignment of values to its cubes with no cube below one of its faces, the sublevel sets are nested cubical sets, the filtered chain complex is formed and reduced by every algorithm, and for s <= t the number of reported bars of dimension k born at or before s and alive at t is the rank of H_k(K_s) -> H_k(K_t) of the cubical sublevel sets. lower_star_filtration(X, image) for images of dimension 2 (3) on cubical complexes of dimension 2 (3) assigns to every cube the maximum of its 4 (8) pixels, so the bars are those of the sets of cubes all of whose pixels are at most a; if a cube sticks out of the image the image is read out of range.", "quantifier": "every history of add and add_recursive, every field, every linearly ordered value type, every monotone assignment, every image, every dimension, all pairs s <= t, every reduction algorithm", "why_tests_cant": "the bars must be the ranks of maps on homology for every complex and every image", "anchors": ["include/filtration/extension.hpp: max_cube_val, lower_star_filtration for CubicalComplex", "include/complex/cubical_complex.hpp: get_cubes, boundary_csc", "include/chain/filtered_chain_complex.hpp: FilteredChainComplex"]}
{"id": "C81", "title": "Gradients through lower star filtrations", "statement": "lower_star_backwards(grad_dgms, bdinds, imap) succeeds exactly if imap has a row for the vertices and all birth and death indices are -1 or indices of simplices of the right dimension whose recorded vertex is smaller than the number of vertices; otherwise memory out of range is accessed. The result has one entry per vertex and is the transpose of reading diagram entries off vertex values: its pairing with any vertex vector x is the sum of the gradient entries times x at the recorded vertices. With the values and indices of lower_star_filtration(X, f0) on a complex whose labels are smaller than the number of vertices it is the gradient: for all g0 for which the recorded vertices are still maxima, the change of the pairing of the gradient with the finite diagram entries is exactly the pairing of the result with g0 - f0.", "quantifier": "every complex, vertex function, gradient, index vectors, over every commutative ring (linearly ordered for the last part)", "why_tests_cant": "the chain rule must hold for every complex, diagram and gradient", "anchors": ["include/filtration/extension.hpp: lower_star_backwards, lower_star_filtration"]}
{"id": "C82", "title": "Zigzag filtrations of cubical complexes and of images", "statement": "Adding cubes with entry and exit values to a ZigzagFiltration<CubicalComplex> in an order in which faces come first (a cube may be added repeatedly) gives a filtration holding exactly the added cubes, each with its intervals in the order of the additions; if a face is missing the interval is written out of range. levelset(s0, s1) is the largest subcomplex of the cubes whose first entry or first exit lies strictly between s0 and s1; it therefore misses cubes that live through all of [s0, s1]. zigzag_toplex of an n1 x n2 x n3 image holds exactly the cubes of the box; the entry of a cube is the least value of the voxels containing it and, for cubes other than edges, the exit is the greatest. For edges the exit is the value of one particular voxel (of the last one tested), so no face enters after a cube and no vertex, square or cube exits before a cube it bounds, but an edge may exit before a square or voxel it bounds: the result is not always a zigzag filtration, and level sets may miss voxels inside the window. An empty image is read out of range.", "quantifier": "every history of additions, every level, every image of positive size over every linearly ordered value type", "why_tests_cant": "the intervals must be right for every image and every cube of the box, and level sets must be the stated complexes for every filtration and window", "anchors": ["include/zigzag/zigzag_filtration.hpp: ZigzagFiltration::add, levelset", "include/topology/levelset.hpp: zigzag_toplex"]}
{"id": "C83", "title": "Freudenthal triangulations of grids and of cubical complexes", "statement": "Freudenthal(m, n) and Freudenthal(n1, n2, n3) with all sides at least 2 give exactly the Freudenthal triangulation of the grid: the simplices are the sets of grid points, named by their row-major index, which are increasing in the coordinatewise order and lie in one unit cube; different points have different names. Freudenthal of a box [i0, i1) x [j0, j1) x [k0, k1), at most one of whose sides has length one, is the part of that triangulation with vertices in the box, with the same names. Freudenthal of any 3-dimensional cubical complex consists of the simplices of the triangulations of its cubes; complexes of other dimension are rejected. For grids and boxes inside the grid the same holds for LightSimplicialComplex as long as its keys fit into the index type. Grids with a side of length one, and boxes with two, give the empty complex, without vertices.", "quantifier": "every grid size, every box, every cubical complex built by additions in any order", "why_tests_cant": "the simplices must be right, without duplicates or omissions, for all sizes and all subcomplexes, including the borders and the degenerate sizes", "anchors": ["include/topology/grid.hpp: Freudenthal (all overloads), rowmajor::get_idx"]}
{"id": "C84", "title": "Cubical complexes of grids", "statement": "Cube(m, n) and Cube(n1, n2, n3) with all sides at least 2 consist of exactly the elementary cubes of all dimensions with corners in the grid. Cube of a box [i0, i1) x [j0, j1) x [k0, k1), at most one of whose sides has length one, consists of exactly the elementary cubes with corners in the box. If one side of a grid, or two sides of a box, have length one the result is the empty complex, without vertices.", "quantifier": "every grid size and every box", "why_tests_cant": "all cubes, and only those, must be present for every size, including the degenerate ones", "anchors": ["include/topology/grid.hpp: Cube (all overloads)"]}
{"id": "C85", "title": "Pairings of cells (MorsePairing)", "statement": "On a MorsePairing of given sizes, set_pair(d, i, j) succeeds (returns true) exactly if neither cell is paired, and then pairs them. set_pair_edge(i, j, e) succeeds exactly if i and j are not connected by the edges passed to earlier calls, and then pairs e with the younger of the oldest vertices of the two components (younger: larger rank, then larger index; without ranks larger index). is_paired, unpaired, up_paired, down_paired, size report exactly these pairs, in order, after every history; all calls terminate. With set_pair alone no cell is in two pairs; with set_pair_edge alone no vertex is paired twice and the unpaired vertices are the oldest vertices of the components. Not guaranteed: set_pair_edge does not look whether its vertex or edge is already paired, so mixing the two can pair a cell twice; clear removes the pairs but not the connections, so that after it edges between vertices connected earlier are refused.", "quantifier": "every list of sizes, every rank vector over every linear order, every history of calls", "why_tests_cant": "path compression makes each answer depend on the whole history of calls", "anchors": ["include/morse/pairing.hpp: MorsePairing (constructor from sizes, set_pair, set_pair_edge, clear, is_paired, unpaired, up_paired, down_paired)"]}
{"id": "C86", "title": "Cell complexes (CellComplex)", "statement": "After every history of add_vertex, add_vertices and add on a new CellComplex every call has returned the index of the new cell in its dimension (add_vertices: the number of vertices), maxdim() is the largest dimension used, ncells(k) and ncells() count the cells added, and boundary_csc(k) for 1 <= k <= maxdim() has in column j exactly the faces and coefficients of the j-th cell of dimension k, sorted. If the faces of each cell exist and are distinct, the coefficients are nonzero in the field and boundaries have boundary zero, ChainComplex(X) is a chain complex with the incidence numbers as entries and hdim(k) of its reduction with any algorithm is the dimension of the homology. Not guaranteed: faces are not checked to exist; a coefficient that is zero in the field (for example 2 over the field with two elements) is stored as an explicit zero and taken for a pivot, so that the Betti numbers are wrong (projective plane over F2: 1, 0, 0); add(b, c, 0) ignores b and c; boundary_csc(0) reads outside of its tables.", "quantifier": "every history of calls with any numbers of cells in any dimensions, every field, every algorithm", "why_tests_cant": "the boundary tables are concatenations whose offsets depend on the whole history of calls", "anchors": ["include/complex/cell_complex.hpp: CellComplex (constructors, add, add_vertex, add_vertices, maxdim, ncells, boundary_csc)", "include/chain/chain_complex.hpp: ChainComplex(X)"]}
{"id": "C87", "title": "Zigzags of level sets (zigzag_levelsets)", "statement": "For a simplicial zigzag filtration X built by an allowed history of calls and a positive window size eps, zigzag_levelsets(X, eps, t0, t1) ends and returns, in every schedule of its parallel loops, the zigzag of the windows [t0+j*eps, t0+(j+1)*eps] from t0 until t1 is reached, alternating with the unions of two consecutive windows: node i is the level set of window i, every edge is the inclusion from a window into a union. If there are at least two windows, Chain, Hom and the barcode computation succeed, the barcode is an interval decomposition of the homology of the zigzag and the number of pairs alive at node i is the Betti number of the level set of window i. Not guaranteed: for eps <= 0 the function does not end; a cell whose interval contains the window, or only touches its border, is not in the level set.", "quantifier": "every allowed history of calls, every positive window size and bounds in an Archimedean ordered group, every schedule, field, dimension and elimination algorithm", "why_tests_cant": "the number of windows, the schedules and the histories are unbounded", "anchors": ["include/topology/levelset.hpp: zigzag_levelsets", "include/zigzag/zigzag_filtration.hpp: ZigzagFiltration::levelset", "include/multigraph/diagram.hpp: Diagram"]}
{"id": "C88", "title": "Vectors stored in sets (SetVector)", "statement": "After any calls the entries of a SetVector are stored in increasing order of their indices. The constructor from lists of indices and values takes them in any order and keeps the first value of an index; SetVector(i) is the unit vector; get(i) is the coordinate i; set(i, v) changes coordinate i to v and no other; permute(perm) with distinct entries moves coordinate i to perm[i] (an index outside of perm is undefined behaviour); lastnz() is the entry with the largest index; axpy(a, x) adds a times x, and stores no explicit zero if a is not zero and there were none; without explicit zeros == is equality of vectors and nnz() the number of nonzero coordinates. axpy(a, x, first, last): if x has entries in the range and both vectors have entries from last on, a times the part of x in the range is added, but the entries of a*x from last on are stored too wherever the vector had none. Not guaranteed: axpy on a range drops entries behind the end of the vector and dereferences the end of x if x has no entry from last on; axpy(0, x) stores explicit zeros.", "quantifier": "every vector, list, index, value and field, every permutation, every range", "why_tests_cant": "vectors, ranges and histories are unbounded", "anchors": ["include/linalg/set_vector.hpp: SetVector (constructors, set, get, permute, lastnz, nnz, axpy, operator==)"]}
{"id": "C89", "title": "Distances to the k-th nearest neighbours (kdist)", "statement": "For k below the number of points kdist(X, dist, k) returns for every point j the k-th smallest (counted from 0) of the distances of the points to j: at most k points are strictly nearer than the value and more than k points are as near; this determines the value, so it does not depend on the implementation of std::nth_element. The point itself counts: for k = 0 the value is the distance of j to itself if no point is nearer. If k is not below the number of points (and there are points) the behaviour is undefined.", "quantifier": "every number of points, matrix of distances in a linear order, k, and implementation of nth_element allowed by the standard", "why_tests_cant": "the standard leaves the order after nth_element open; sizes are unbounded", "anchors": ["include/topology/density.hpp: kdist"]}
{"id": "C90", "title": "Command line arguments (parse_argv)", "statement": "For a token without '=', parse_argv (for strings) returns the value of the first entry behind the name of the program of the form token=value (up to the end of the line, further '=' included), the empty string if the first entry about the token is the token alone, and the default if there is none. A token with '=' in it is never found.", "quantifier": "every list of entries, token, value and default", "why_tests_cant": "entries and their number are unbounded", "anchors": ["include/util/io.hpp: parse_argv<std::string>"]}
