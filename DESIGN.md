# Formal model of CompTop/BATS in Lean 4 — design

## 1. Layout
* `lean/Verif/Model/*`  – the model: total computable functions, each citing the `/repo` file and lines it models and saying where
  it simplifies.
* `lean/Verif/Spec/*`   – small specifications (matrices over `Matrix (Fin m) (Fin n) F`, homology as quotient spaces, abstract
  simplicial complexes as sets of finsets, filtrations, interval decompositions, …) which do not mention the model's helpers.
* `lean/Verif/Proofs/*` – helper lemmas.
* `lean/Verif/Props/*`  – the property theorems, named `Cnn_…` after the property in `properties.jsonl`, each followed by an
  `example` showing that its hypotheses are met by a concrete non-trivial case, and by witnesses (`…_wrong`, `…_ub`) where the code
  does not do what one would expect.
* `seeded/LOG.jsonl`, `seeded/mutants/*` – wrong programs tried against the theorems (`tools/mutate.py`).
* `tools/` – `manifest.py` (regenerates MANIFEST.json), `coverage.lean.txt` (model definitions not reached from any property
  theorem), `axioms.lean.txt` (axioms of every property theorem).

## 2. Modelling conventions
* A coefficient type is any Mathlib `Field F` with decidable equality. `ModP<int,P>`, `ModP<int,2>` and `Rational<int>` have their own
  models (Model/Field) and are proved to compute in `ZMod P`, `ZMod 2` and `ℚ` (C01–C05). This is the link between the C++ template
  parameter and `F`.
* `std::vector<T>` is `List T`; in-place mutation returns the new value; `size_t` is `Nat` (no overflow), except where the property is
  about wrap-around (field elements, light simplex keys, `j-1`, `size()-1`), where the wrap is modelled; `bats::NO_IND` is `none`.
* Undefined behaviour, exceptions and non-termination are three distinct outcomes (`Except Err` with `Err.ub`, `Err.thrown`,
  `Err.diverge`, abbreviated `Res`). A theorem `f x = .ok y` therefore asserts that none of them happens. Vector indexing is `rd`/`wr`,
  which give `Err.ub` out of bounds; iterators that leave their range give `Err.ub`.
* While-loops with data-dependent termination take fuel; running out of it is the outcome `Err.diverge`, and the theorems prove that
  it does not occur (or, where it does, prove divergence for every amount of fuel).
* Filtration values are elements of a linear order (no NaN); conversions to `double`/`float` are modelled only where stated.
* Hash tables and `std::map` are association lists with the C++ overwrite/no-overwrite behaviour.
* OpenMP loops are modelled sequentially; iterations write disjoint elements.

## 3. Plan per property: what is modelled, how it is proved
| id | model | specification and proof |
|----|-------|-------|
| C01 C02 C03 C04 | Field: `ModP`, `ModP<.,2>`, `isprime`, `ff_inv`, 32-bit wrap where relevant | values in `ZMod P`; modular arithmetic, loop invariant of the extended Euclid; exact iff for the constructor |
| C05 | Field: `Rational` over unbounded integers | value in `ℚ`, gcd lemmas |
| C06 | SparseVec: merge loops of `axpy` | coordinates `Nat → F`; induction on the merge |
| C07 C08 C41 C42 | Matrix: `ColumnMatrix` | Mathlib matrices; sums over lists; representation uniqueness lifts to equality of stored objects |
| C09 | Matrix: `u_solve`, `l_solve`, `u_inv`, `l_inv` | loop invariants, termination |
| C10 C11 C12 | Reduction: `reduce_matrix_standard` with/without basis | loop invariant; pivots and lower-left ranks |
| C13 C14 C15 C16 C17 C18 | Complex: `ReducedChainComplex`, flags standard/clearing/compression/extra | rank–nullity, pivot pairing; basis of the quotient space |
| C19 C20 C51 | Simplicial (on Trie) as a state machine | refinement to a set of finsets over all histories; sign cancellation; homology of the abstract complex |
| C21 C22 C54 | Light | digits modulo the word size; same refinement |
| C23 | Cubical | same refinement; cube boundary signs |
| C24 C25 C26 C27 | Permutation, Sorted | permutations of `range n`, inversions, sorted lists |
| C28 | Trie | refinement to a finite map over all histories |
| C29 C52 | Filtration | history invariant; sublevel sets; rank of the inclusion on homology |
| C30 C31 C32 C33 C45 C50 | Chain, Complex, Update | permutation matrices; pivot uniqueness; persistent Betti number of sublevel subspaces |
| C34 | Barcode | multisets |
| C35 | UnionFind | forest invariant, connected components, link to `C32` |
| C36 C53 | Flag | clique characterisation, Rips filtration, link to `C52` |
| C37 | SimplicialMap | sign of the sorting permutation; functoriality |
| C38 | Fact | loop invariants; permutation/echelon shapes |
| C39 C40 | Induced | canonical coset representative; matrix of the map on quotients |
| C48 C49 | MatOps | entrywise laws |
| C55 | Quiver | interval decomposition of zigzag modules, uniqueness by rank invariants |
| C56 | Relative/`subcomplex`, `relative_complex` | restriction and quotient complexes |
| C57 C58 C59 C60 | DG (`DGVectorSpace`, `ReducedDGVectorSpace`, filtered versions) | pivots under anti-transposition; rank of transposes; permutation of factors |
| C61 | zigzag/reduction.hpp (`zigzag_barcode_reduction`, standard flag), function by function | invariant of the loop: RU factorisation of the present columns, preferred bases, induced maps of one insertion/removal, running change of basis as type-A quiver sweep, bookkeeping of bars |
| C62 | zigzag/zigzag_filtration.hpp (`ZigzagChainComplex` constructor with `_correct_indices`, `prepare_ChainComplex` of both overloads, `barcode`), function by function; `std::sort` is a parameter with the contract of the C++ standard | the built complex is the complex of copies (labelling of columns by intervals); the comparators are strict weak orders whose sorted lists are valid event orders for C61; relabelling copies to cells preserves cycles, boundaries and hence the decomposition; Betti numbers at `t` by cutting the event list at `t` |
| C63 | zigzag/extension.hpp `simplex_extrema`, `extend_zigzag_filtration` (simplicial), `numeric_limits` as parameters | universal properties of the extrema; the intervals form a zigzag filtration; present simplices at `t` form an abstract complex whose simplicial homology is the cell-supported homology of C62 |
| C64 | zigzag_filtration.hpp `ZigzagFiltration` (members, `reserve`, `add`, `add_recursive`, `levelset`) over simplicial complexes | simulation with `Filtration` (values = interval lists); induction over the history; barcode through C62, level sets through the sublevel set theorem of C29 applied to 0/1 values |
| C65 | multigraph/diagram.hpp `Diagram`; functors.hpp `Chain`, `Hom` (one dimension, all dimensions) with OpenMP loops run in an arbitrary order given by a schedule; quiver/sparse.hpp `barcode` | loops are functions of the iteration set (any permutation gives the same result); edges through C37 and C40, zigzag through C55; coordinates in the stored bases translate decompositions of the matrices into decompositions of homology and back; counting bars by independent classes |
| C66 | topology/nerve.hpp `Nerve`; topology/cover.hpp `bivariate_cover`, `landmark_eps_cover`; functors.hpp `Nerve` | the recursion enumerates a downward closed family in an order with faces first (generic lemma `downSeq_spec`), then C19; Betti numbers depend only on the (k+1)-skeleton (Proofs/Skeleton); maps through C37, diagrams through C65; loops by induction |
| C67 | topology/landmark.hpp (all but `random_landmarks`); topology/metric.hpp `L1Dist`, `LInfDist`, tables of distances | invariant: the vector `d` holds the distances to the set of landmarks; pigeonhole for the 2-approximation and for divergence; termination by counting distinct landmarks |
| C68 | topology/inclusion.hpp; topology/zigzag_zoo.hpp; multigraph/functors.hpp `Rips` (both), `RipsHom`; topology/rips.hpp `rips_edges`, `RipsComplex` | reuse of C36 (flag complexes), C37 (simplicial maps), C65 (diagrams), C67 (landmarks); loop invariants for the two inclusion diagrams; both zigzag loops are folds over lists of nested sets with radii |
| C69 | topology/dowker.hpp (except the lazy witness overload, which does not compile), topology/neighborhood.hpp, `landmark_cover`, `firstk` | loop invariants for the parameter matrices; flag filtration of a graph (C36) and the persistence theorem (C53); nearest neighbours for every `std::partial_sort` and schedule; the dimension-by-dimension loop of `WitnessComplex` keeps "all faces have witnesses" |
| C70 | topology/rips_cover.hpp, topology/dowker_cover.hpp, `Filtration::union_add` | the edge list of the cover is a simple graph (invariant over pairs and sets), then the flag filtration of a graph (C36) and the persistence theorem; the strict version by induction over the sets with the effect of `union_add` |
| C71 | Model/Parallel: a running reduction is a tree of tasks (block, loop over a block, waiting for two tasks, merge, done) over a shared list of columns; one step of a chosen task per schedule step; the map of pivots is a list of pairs read in any order. Invariant: each task owns a range of columns and its part of the work is described by `Prog`; steps in different tasks commute (diamond), a measure decreases, Church–Rosser gives one final state; the table is that of the standard algorithm by uniqueness of pivots. The sweep of `partial_reduce_parallel` is a pool of such tasks. |
| C72 | `enclosing_radius` (Model/Landmark) | fold invariants; a cone is acyclic, by the cone contraction on simplicial chains (Proofs/Cone); the persistence theorem C53 beyond `rmax` |
| C73 | Model/GenUpdate: `UpdateInfo2(F1, F2)`, `_make_U_upper_triangular`, `_delete_cells`, `_insert_cells`, `update_basis(UpdateInfo2)` | per matrix the equation `D U = R` with `U` invertible is carried through the permutation, the re-triangularisation, the deletion of final rows and columns (removed cells are no faces of kept ones) and the insertion of rows and columns; `U` is made upper triangular before each deletion; then clearing (Proofs/GenUpd1–4). `UpdateInfo2` is shown to describe the difference of the two complexes (GenUpd5–7). The table of the top level that is never updated is tracked as `stale` (GenUpd4, 8). |
| C74 | Model/Pair: `union_add`, `simplicial_union`, `intersection`, `get_indices` | the loops replay a history of additions (invariant of C19); the intersection is closed under faces, so that `_add_unsafe` keeps the invariant (Proofs/Pair1–2) |
| C75 | Model/Pair: `ChainComplex(X, A)`, `ChainMap(f, X, A, Y, B)`, `relative_map`, `CSCMatrix::submatrix` | the constructor equals `relative_complex` of the positions of `A` in the chain complex of `X` (Proofs/Pair3), a subcomplex in the sense of C56; comparison with the relative homology of abstract complexes (Spec/Pair) by bijections of bases (Pair4); maps: restriction to the complementary cells commutes with boundaries (Pair5, Pair9); `NO_IND` in the index list exhausts memory (Pair8) |
| C76 | Model/Pair: `mayer_vietoris_boundary` | chains as finitely supported functions on simplices (Spec/MayerVietoris); the matrix is the boundary of the part on `A`, restricted to `Y`; for a cycle `a + b` the difference of two choices of `a` is a chain of `Y` (Pair6–7) |
| C77 | Model/Product: `prod_ind`, `product_paths`, `TriangulatedProduct` | the loops replay a history of recursive additions of staircases (C19); every chain in a product of two increasing lists is part of a staircase, by induction on the lists (Proofs/Product) |
| C47 | Model/Tensor: both overloads of `tensor_product`; the out-of-bounds reads of `ind_shift` are parameters | closed form of the loops (Proofs/Tensor1), entries (Tensor2); a stored complex is a graded complex with a basis (Tensor3, Tensor4); Künneth: every finite graded complex over a field contracts onto its homology (generalised inverse of d, Proofs/Kunneth1) and contractions tensor (Proofs/Kunneth2) |
| C44 | Model/Poly: vectors of coefficients with the loops of `polynomial.hpp`; `generating_basis` of `rcf.hpp` | each loop against Mathlib's `F[X]` (Proofs/Poly1), `p(A)v` as `aeval` (Poly2), companion matrix: `C^k e_0 = e_k`, hence `p(C) = 0` and no polynomial of smaller degree vanishes (Poly3), `xI - A` column by column (Poly4) |
| C46 | Model/Poly: `extended_euclidean` over an interface `PidOps`, instances `int` (truncating division, no overflow) and polynomials | one invariant of the loop for every ring with a size that decreases under remainder (Proofs/Poly2): `s a + t b = r`, `os t - s ot = (-1)^i` |
| C78 | Model/Cochain: `CochainComplex(X)`, `set_indices` and the four constructors of `ReducedCochainComplex` | transposed boundaries; each constructor keeps the level invariant of C13 for the transposed matrices (clearing towards the top, compression downwards); then `set_indices` is computed exactly from that invariant (Proofs/Cochain) |
| C79 | Model/DGMap: `DGLinearMap`, `find_preferred_representative`, `chain_preferred_representative` and `induced_map` for DG vector spaces, `DGLinearFunctor`, `Hom(D, k)`, `Hom(D, topd)` | the reduced DG vector space of degree `-1` contains a valid reduction `toCpx` of the complex with prescribed boundary in dimension 0 (zero or augmentation), on which every step of `induced_map` agrees with the version for complexes; then C40, C65 and C55 apply. Transposes commute with coboundaries; degree `+1` of `induced_map` refuted by a rotation of the circle |
| C80 | Model/CubicalFilt: cubical `lower_star_filtration` (images of dimension 2 and 3), `max_cube_val` | inclusion of cubical chains is a chain map; the positions of the cubes in the sublevel set give isomorphic subspaces, so C32 becomes a statement on cubical homology; maximum over the vertices by case analysis on cubes (2D) and an invariant of the loop (3D) |
| C81 | Model/CubicalFilt: `lower_star_backwards` | each step adds one term to the linear functional given by the vector (`Adds`); induction over pairs and dimensions; with the vertices recorded by `lower_star_filtration` (C29) the functional is the pairing with the diagram |
| C82 | Model/CubicalZigzag: `ZigzagFiltration<CubicalComplex>` (constructor, `add`, `levelset`), `zigzag_toplex` | simulation with the cubical trie (`Cub.add_spec`) plus one row of interval lists per dimension; the level set loop adds cubes whose faces of all dimensions pass the test; the eight triple loops add the cubes shape by shape (`BlockInv`), the guards are shown to select exactly the voxels containing the cube, `std::min/max` folds are minima and maxima, the fold of the edges keeps the last voxel. Witnesses by `decide +kernel`. Values are a linear order (no NaN) |
| C83, C84 | Model/Grid: `get_idx`, `Freudenthal` (plane, space, box, cubical complex; for `SimplicialComplex` and `LightSimplicialComplex`), `Cube` (plane, space, box) | the loops are lists of `add_recursive` calls, run through C19 (`SCpx.run_set`), C54 and C23; specification by chains in `ℕ × ℕ`, `ℕ × ℕ × ℕ`; the six tetrahedra of a voxel give all chains of its corners (finite order on the cube, transported by translation); every chain lies in a unit cube of the box (clamping); for cubical complexes the simplices added with plain `add` find their faces because vertices and edges come first. The code's `n - 1` wraps for `n = 0` (not modelled) |
| C85 | Model/Pairing: `MorsePairing` without the underlying complex: `reserve`, constructor from sizes, `find_parent`, `_set_pair_unsafe`, `set_pair`, `set_pair_edge` (both), `clear`, queries | the program state is a function of the list of pairs (`form`) plus the forest of parents; forest invariant of C35's union-find (`UF.Forest`) with recursive path compression; roots are the oldest vertices of the components (`EInv`); simulation of a small relational specification (`Steps`, proved deterministic), from which matching and elder rule follow by induction over the specification alone |
| C86 | Model/CellComplex: `CellComplex` (constructors, `reserve`, `add`, `add_vertex(s)`, `maxdim`, `ncells`, `boundary_csc`) and `ChainComplex(X)` of it | the program state is a function (`form`) of the largest dimension, the number of vertices and the lists of cells, by induction over the history; `boundary_csc` via the block description of CSC matrices of C19 (`CSC.mk'_toCMat`); Betti numbers via C13 and `Matrix.rank` of the incidence matrices |
| C87 | Model/ZZLevelsets: `zigzag_levelsets` (simplicial), the two parallel loops in arbitrary schedules, the `while` loop with fuel | the windows by induction on the steps of the `while` loop, which ends in an Archimedean group; nodes via the level sets of C64, edges via the inclusions of C37, the loops via C65 (`spaceLoops_iff`); barcode via C65_spaces |
| C88 | Model/SetVector: `SetVector` (constructors, `set`, `get`, `permute`, `lastnz`, `nnz`, both `axpy`, `==`); `std::set` is the list of its elements in order | lookups in increasing lists; the loops of `axpy` by functional induction |
| C89 | Model/Density: `kdist`, with `std::nth_element` as a parameter restricted by the guarantee of the standard | counting elements below and up to the value in a reordering; uniqueness, hence independence of the implementation |
| C90 | Model/Argv: `parse_argv` for strings, with `getline` of Model/Text | induction on the entries |
| C43 | Model/Text: `std::getline`, `std::stoi`, `<<` on character lists; `write`/`read` of sparse vectors, column matrices, `CellularMap::save` and constructor, `write_simplex`, `read_simplex`, `SimplicialComplex::save` and constructor | decimal printing and parsing are inverse; every line is free of delimiters; token and line loops by induction with fuel bounded by the length of the file; the file of a complex lists faces first, so reloading replays the additions (invariant of C19) |

## 4. Trusted base
* Lean's kernel (the project is also replayed by `vcheck`). No axioms are added; every property theorem depends on at most `propext`,
  `Classical.choice` and `Quot.sound` (regenerate with `tools/axioms.lean.txt`; 530 of the 609 theorems use all three, the rest
  fewer, 9 none). No `native_decide`/`bv_decide`, no `implemented_by`, no `unsafe`.
* The hand translation from C++ to Lean: nothing here runs the C++ code. Every definition cites the lines it models.
* The modelling conventions of section 2 (unbounded `size_t`, exact arithmetic, sequential loops, total orders on filtration values).
* The C++ standard library functions used by the code are modelled by their contract: `std::sort`/`std::stable_sort` (a sort for the
  given order; for `std::sort` the theorems hold for the sorted order used by the code whenever ties matter), `std::lower_bound`,
  `std::unordered_map`, `std::map`, `std::vector`.

## 5. What is modelled and what is not
Modelled (file of /repo/include → model module):
`linalg/field.hpp` → Field; `linalg/sparse_vector.hpp`, `abstract_vector.hpp` → SparseVec, MatOps, Fact; `linalg/col_matrix.hpp` →
Matrix, MatOps, Chain, Fact, Quiver; `linalg/csc_matrix.hpp` (conversion used by chain complexes, `block_select`) → Simplicial, Sorted; `linalg/sparse_fact.hpp` → Fact;
`linalg/schur.hpp` (`schur_complement`) → MatOps; `homology/reduction.hpp` (standard, with basis, extra, clearing, compression) → Reduction, Complex;
`homology/basis.hpp` (constructors, betti, representatives, preferred representatives, `update_reduction` by permutation) → Complex, Induced, Update;
`homology/induced_map.hpp` (homology) → Induced; `chain/{chain_complex,chain_map,filtered_chain_complex}.hpp` → Chain, Complex, Induced;
`persistence/{filtered_basis,barcode,union_find}.hpp` → Complex, Barcode, Update, UnionFind; `complex/simplicial_complex.hpp`,
`complex/light_simplicial_complex.hpp`, `complex/cubical_complex.hpp`, `complex/{cell_map,simplicial_map}.hpp` → Simplicial, Light,
Cubical, SimplicialMap; `filtration/{filtration,flag,rips,extension}.hpp`, `topology/{flag,rips}.hpp` → Filtration, Flag, UnionFind;
`quiver/sparse.hpp` → Quiver; `multigraph/diagram.hpp` and `Chain`, `Hom` of `multigraph/functors.hpp` → Diagram; `tensor_product` of `chain/chain_complex.hpp` → Tensor; `dgvs/dgmap.hpp`, the DG version of `homology/induced_map.hpp`, the DG functors of `multigraph/functors.hpp` → DGMap; `filtration/extension.hpp:45-167` → CubicalFilt; `complex/cell_complex.hpp` → CellComplex; `topology/levelset.hpp:235-291` → ZZLevelsets; `linalg/set_vector.hpp` (without printing and iterators) → SetVector; `topology/density.hpp` → Density; `parse_argv` for strings of `util/io.hpp` → Argv; `topology/grid.hpp` → Grid; `morse/pairing.hpp` (without the complex) → Pairing; `topology/levelset.hpp` (`zigzag_toplex`), `homology/cohom_basis.hpp`, the constructor of `chain/cochain_complex.hpp` → Cochain; `linalg/polynomial.hpp`, `extended_euclidean` of `linalg/pid.hpp`, `generating_basis` of `linalg/rcf.hpp` → Poly; `topology/mayer_vietoris.hpp`, the constructors for pairs of `chain/{chain_complex,chain_map}.hpp`, unions and intersections of `complex/simplicial_complex.hpp` → Pair; `TriangulatedProduct` → Product; `topology/nerve.hpp`, `bivariate_cover` and `landmark_eps_cover` of `topology/cover.hpp`, `Nerve` of `multigraph/functors.hpp` → Nerve; `topology/{dowker,neighborhood,rips_cover,dowker_cover}.hpp`, `Filtration::union_add` → Witness; `homology/parallel.hpp` → Parallel; `UpdateInfo2` of `filtration/update_information.hpp`, `update_basis(UpdateInfo2)` of `homology/dgbasis.hpp` and `persistence/filtered_dgbasis.hpp` → GenUpdate; the text formats (`write`, `read`, `save`, constructors from strings and files) → Text; `topology/landmark.hpp`, `L1Dist`, `LInfDist`, `enclosing_radius` of `topology/metric.hpp` → Landmark; `topology/inclusion.hpp`, `topology/zigzag_zoo.hpp`, `RipsComplex`, `Rips`, `RipsHom` → RipsDiagram; `topology/{dowker,neighborhood}.hpp`, `landmark_cover` → Witness; `dgvs/{dgvs,filtered_dgvs}.hpp`, `homology/dgbasis.hpp` (constructors, `hdim`, representatives, `permute_basis`),
`persistence/filtered_dgbasis.hpp` (pairs, `update_filtration`) → DG; `util/{permutation,sorted,set,trie,simplex}.hpp` → Permutation, Sorted, Trie, Simplicial.

Not modelled: printing, timing and file I/O (except C43); the Smith normal form of `pid.hpp` and the basis of `rcf.hpp` (see findings 78, 79),
`naive_dense.hpp`; `permute_basis`, `ipermute_basis` of `chain/cochain_complex.hpp` (read only, finding 80); `morse/pairing.hpp`;
the other functors of `multigraph/functors.hpp`; `zigzag/` flags other than the standard reduction and the parts of zigzag_filtration.hpp not listed at C62; `topology/` other than what is listed above (metrics in floating
point); `future/*`; the older general update `update_basis_general` of `homology/basis.hpp` and the cubical and generic parts of
`update_information.hpp`.

## 6. Findings (behaviour of the code that contradicts its documentation or the obvious contract)
Those marked with a theorem are proved about the model with a concrete witness; the others were found by reading.
1. `reduce_matrix_extra`, `reduce_column_sparsify`, `remove_extra_cycles`: the guard `piv - nzbegin > 0` skips the first nonzero of the column (C18_not_a_reduction, C18_loses_rank); on an empty column the iterator points before `begin`.
2. `ColumnMatrix::operator-` returns `B - A` (C08_sub_wrong).
3. `set_block` also erases the entry at the end index (C42_set_block_wrong, C49_set_block_wrong).
4. `ModP(int)` is wrong for values below `-P` (C03_ofInt_wrong); `==(int)`/`!=(int)` likewise.
5. `ModP<.,2>::operator=(int)` does nothing; `!=(int)` is inconsistent with `==(int)` (C02_neInt_inconsistent).
6. `is_upper_invert` accepts zero columns (C41_upper_invert_accepts_singular).
7. `mix_rows` erases and then inserts at a stale iterator (C48_mix_rows_wrong).
8. `insert_rows` dereferences the end iterator before the check.
9. `SparseVector::tensor` recurses forever; `tensor_product` of matrices uses `A[j]` for `A[i]`.
10. `union_find_pairs` stores births as float and assumes two entries per edge column.
11. The boundary iterator of the light complex reads `offset(-1)` (modelled as an arbitrary value); its `operator--` is wrong except right after `begin` (C22_decrement_wrong); keys collide for vertices `≥ n` or on overflow (C21_overflow_collision, C21_vertex_out_of_range); `add` does not check faces, so `boundary_csc` throws later (C54_missing_face).
12. `find_sorted_lt` steps before `begin`; `intersect_sorted_lt` does not check the bound for equal first elements (C27_find_sorted_lt_ub, C27_intersect_sorted_lt_bad_head).
13. `simplex_extrema` starts the maximum at `numeric_limits::min()`, which is positive for floating point types: negative functions enter late or make `extend_zigzag_filtration` throw (C63_negative_late, C63_negative_throws).
14. `SparseTrie` copy assignment leaks/dangles.
15. `update_basis_general` assumes coefficients mod 2 and is off by one.
16. `find_preferred_representative` with `j == 0` wraps `j-1`: harmless (C39).
17. CSC `block_select` reads `colptr[j]` for `colptr[Mj]`; `sort_sum_reduce` reads out of bounds on empty input (C27_sort_sum_reduce).
18. `LowerStarFiltration` (star.hpp) cannot compile; `ipermute` of a vector is the same as `permute` (C48, C49_permute_rows).
19. `Filtration::add` with a missing face writes out of bounds (C29_history).
20. `kendall_tau` truncates to `int`.
21. `add({})` underflows and throws length_error (C19_empty).
22. `FilteredChainComplex::update_filtration` permutes in the wrong direction (C45_wrong_direction).
23. `is_pivot_matrix` does not check that the values are 1 (C38_shape_checks).
24. `mix_cols` with a zero coefficient stores explicit zeros (C49_mix_cols_stores_zeros).
25. `axpy` with an index list: the trailing loop takes entries outside the list (C48_axpy_coefficients_wrong).
26. `insert_column(index)` moves the old column to the end (C49_insert_zero_column_wrong).
27. `ReducedDGVectorSpace`: `hdim(maxdim()+1)` with degree -1 reports the generators of `maxdim()` (its index list is filled from `R[maxdim()]`).
28. `PersistencePair` of an integral type has death `numeric_limits<T>::infinity() = 0`.
29. `clear_compress_apparent_pairs` compresses rows it must not.
30. `tensor_product` of complexes reads `ind_shift[-1]`.
31. In compression mode `B U ≠ R` (C17_compression_basis_not_factorisation), and preferred representatives are wrong (C39_compression_wrong).
32. `permute_matrices` with `maxdim 0` reads `R[1]`.
33. `sorted_complement` diverges on unsorted input (C27_sorted_complement_diverges).
34. `insert_rows(r_inds, rows)` and `insert_rows(r_inds)` use different index conventions (C49_insert_rows_disagree).
35. `update_filtration` sends permutation indices through `std::vector<FT>` (precision loss for `float` above 2^24).
36. `permute_basis`/`ipermute_basis` with `k = 0` and `maxdim 0` read `boundary[1]` (C30_vertices_only_ub).
37. `update_filtration` of a reduction without basis is undefined (C33_no_basis_ub), after compression with basis gives wrong bars (C33_compression_wrong).
38. A refused `SimplicialComplex::add` still raises `maxdim()` (C19_add_result).
39. Edge cases of flag filtrations: a repeated edge gets the larger parameter (C36_repeated_edge); `maxdim 0` still adds edges; sublevel sets of non-monotone values drop simplices (C29_sublevel).
40. `union_find_pairs` indexes values in original order with indices of the sorted complex (C35_unsorted_values_wrong).
41. `CubicalComplex(0).add({})` reports an index without storing (C23_dimension_zero); `find_idx` of a proper prefix returns 0 (C23_find_prefix); `set_dimension` never shrinks (C23_set_dimension).
42. `SimplicialMap`/inclusion with `X.maxdim() > Y.maxdim()` reads out of bounds (C37_dimension_ub).
43. Quiver barcodes of a diagram without edges read out of bounds (C55_no_edges).
44. `get_preferred_representative` of a DG vector space of degree +1 is off by one in the dimension (C60_cohomology_index_wrong); `find_preferred_representative`, `chain_preferred_representative` mix the two conventions.
45. `FilteredDGVectorSpace::update_filtration` permutes in the wrong direction and ignores the degree (C59_space_update_wrong).
46. `zigzag_barcode_reduction` with an explicit `maxdim` below `C.maxdim() - 1`: the exit of a cell of dimension ≥ `maxdim + 2` clears its column but not its entry in the pivot table; a later entering column with the same pivot reads `lastnz()` of an empty column (C61_stale_pivot_above_maxdim).
47. `ZigzagChainComplex`: the column of the first copy of a cell is not redirected to the copies of its faces present at that time; a cell entering during the second presence of a face makes the reduction undefined (C62_first_interval_not_redirected). A later interval which is a single point is redirected to the wrong copy because the test is strict (C62_point_interval_wrong_copy).
48. Zigzag pairs document `birth_ind`/`death_ind` as indices in the original complex; for events of the second and later presence they are indices of internal copies, beyond the number of cells (C62_copy_index).
49. `prepare_ChainComplex` for simplicial complexes orders by vertices read backwards, which is a valid order only if the vertices of each simplex increase (not guaranteed by `add_directed`).
50. `ZigzagFiltration::levelset` documents a non-empty intersection of intervals but tests end points strictly inside, so cells present throughout are missed; `extend_levelset` returns a value of the wrong type and cannot be instantiated. (C64_levelset, C64_levelset_misses)
51. `ZigzagFiltration::add_recursive` of a simplex which is present appends the interval to that simplex only, not to its faces: the result is in general no filtration (C64_readd_not_recursive). The forwarding constructor `ZigzagFiltration(args...)` fills the complex but leaves `val` empty.
52. `Nerve(cover, 0)` adds the edges of the nerve in spite of `dmax = 0` (C66_nerve); the map of nerves for `dmax = 0` may read out of bounds (C66_dimension_zero); empty cover sets give vertices. `landmark_eps_cover` compares strictly, so that `eps = 0` gives empty sets and not the nearest landmarks (C66_landmark_eps_covers).
53. `greedy_landmarks` never ends if `k` exceeds the number of different points by two (C67_too_many_diverges); `hausdorff_landmarks` never ends for `r < 0` (C67_negative_radius_diverges). With repeated points `greedy_landmarks_hausdorff(D, dist)` repeats index 0 and leaves out points (C67_repeated_index). The matrix version reads row `i0` and then columns (C67_matrix_asymmetric).
54. `RPCosineDist` derives from `AbstractMetric<CosineDist>`: calls through the base class use the distance of `CosineDist` (and cast to an unrelated type).
55. `linear_cover_intersection_diagram` uses the loop index `i` in place of the node index `i1` as target of the edge from an intersection to the second set: the result is no zigzag (C68_intersection_diagram, C68_intersection_wrong).
56. `vertex_inclusion_map(s, t)` runs past the end of `t` if `s` is not a subset (C68_vertex_inclusion).
57. `DiscreteMorozovZigzagSets` waits for the set of landmarks to grow, which it does not if the farthest-first order repeats a point; it then reads past the end of the list (C68_morozov_ub, C68_equal_points, C68_morozov_ub_example).
58. `RipsHom` sets the dimension of a node only if it is an end of an edge; other nodes keep dimension 0 (C68_rips_hom). It also reduces the complex at a node once for each of its edges.
59. `neighborhoods(X, Y, dist, r)` creates the vector with `X.size()` empty entries and appends the neighbourhoods (also a data race on the vector in the parallel loop): the result has `2n` entries, the first `n` empty (C69_neighborhoods_r). `witness_edges` reads the first `n` and never finds an edge (C69_witness_edges).
60. `witness_edge_param` loops over `X.size()` rows of a matrix with `L.size()` rows: out of bounds if there are more points than landmarks, the normal case for witness complexes (C69_witness_param_ub, C69_witness_filtration_ub); with fewer points the other rows are not adjusted (C69_witness_param).
61. `get_m(pdist, nu)` skips zeros and repeated values, contrary to the comment "nu-th smallest" (C69_get_m); if a column has fewer than `nu` distinct positive entries it is the largest number.
62. The lazy witness overload `WitnessComplex(X, L, dist, nu, rmax, dmax)` calls `RipsComplex` without the complex type, which cannot be deduced: it does not compile when used (dowker.hpp:229). `StrictWitnessComplex` takes the nerve of balls in the landmark-to-landmark parameter, whose diagonal is 0 (C69_strict_witness).
63. `neighborhood(x, X, dist, k)`, `landmark_cover` and `WitnessComplex` with `k` (`dmax + 1`) greater than the number of landmarks pass an iterator behind the end to `std::partial_sort` (C69_firstk_ub, C69_witness_complex_ub).
64. `Filtration::union_add` replaces the value of a simplex that is in both filtrations by that in the argument, instead of taking the smaller one: the union of two filtrations need not be monotone (C70_union_add, example in Props/CoverFilt). The cover versions of the Rips and Dowker filtrations use `< rmax` where RipsFiltration uses `<= rmax`; an index in the cover behind the last point is undefined.

65. `partial_reduce_parallel(M, block_size)` (parallel.hpp:339-352): the bound `n - block_size` is unsigned, so that with fewer columns than `block_size` the first iteration reads columns that do not exist (`C71_sweep_ub`); the last block is never swept (harmless). `reduce_block_dq(M, U, …)` (95-129) with a block size of 0 or 1 recurses for ever (`C71_small_blocks`; the only caller passes 1024).
66. Text formats (C43): `CellularMap(fname)` throws on every file written by `CellularMap::save`, because `while (!file.eof())` runs once more behind the last end of line; `SparseVector(v.str())` always throws, because `str()` ends with an end of line that `stoi` does not accept; `Rational` entries lose their denominators silently; truncated matrix files are read without an error (missing columns become zero, or copies of the truncated one); the vector overload of `write_simplex` writes blanks that `read_simplex` does not accept; indices are read with `stoi`, so those from 2^31 on throw.
67. `ReducedDGVectorSpace::update_basis` (dgbasis.hpp:625-662) never updates `p2c[maxdim+1]`: when the top dimension gets more cells than at the start, `set_indices` reads behind its end (`C73_top_grows_ub`).
68. `UpdateInfo2` (update_information.hpp:171-186) calls `X2.boundary(0, j)` for an inserted vertex, which evaluates `faces[-1]` (`C73_new_vertex_ub`); with augmentation the inserted column would be zero instead of one.
69. Degree `+1` (dgbasis.hpp:582-612): `insert_rows(r_inds, rows)` (col_matrix.hpp:376-428) takes positions relative to the matrix before the insertion, so that row `k` lands at `r_k + k`, while `insertion_indices` are positions in the new matrix: as soon as two cells are inserted in one dimension the bars are wrong (`C73_cohomology_wrong`) or the write is out of bounds. tests/update_new.cpp does not compare the results.
70. `SparseVector::insert_rows` evaluates `*ri` before it tests `ri != r_inds.end()` (sparse_vector.hpp).
71. `mayer_vietoris_boundary` (mayer_vietoris.hpp:44-61) stores the entries of a column in the order of the faces, not sorted by row: unless the `k`-simplices of `Y` were added in lexicographic order, sparse products with the matrix are wrong (`C76_unsorted`).
72. `ChainComplex(X, A)` with a simplex of `A` that is not in `X` passes `NO_IND` to `sorted_complement`, which then fills memory (`C75_not_contained`); there is no check.
73. `simplicial_union` and `union_add` sort the vertices of every simplex, so directed simplices are lost (`C74_directed_sorted`), whereas `intersection` keeps them.
74. `TriangulatedProduct(X, Y)` labels the vertex `(i, j)` by `i + n j` with `n = X.ncells(0)`: unless the labels of `X` are `0, .., n-1` distinct points get the same label (`C77_collision`). With a bound on the dimension the result lacks simplices of that dimension (`C77_not_skeleton`), against the comment "up to simplex dimension k".
75. `EilenbergZilber` (eilenberg_zilber.hpp, read only): all coefficients of the map are `+1` (the shuffle signs are missing), `F[0]` is the identity although the vertices of `X x Y` are added in another order, and `ind_shift[dX-1][dY]` is evaluated for `dX = 0`.
76. `tensor_product` (chain_complex.hpp:325-326) reads `ind_shift[Adim-1][Bdim]` with `Adim = 0` and `ind_shift[Adim][Bdim-1]` with `Bdim = 0`: outside of the array (undefined behaviour). For complexes built from spaces the value only shifts empty vectors (`C47_stray`); for complexes with a non-zero boundary in dimension 0 it changes the result (`C47_stray_witness`).
77. `companion_matrix` stores explicit zeros for zero coefficients, wraps around `n - 1` for the constant `1` and reads the last element of an empty vector for `0` (`C44_companion_other`, example); `degree()` of the zero polynomial is `SIZE_MAX`; division by the zero polynomial reads the last coefficient of an empty vector (`C44_divrem_zero`).
78. `RCF_basis` (rcf.hpp, read only) appends `degree + 1` vectors per block instead of `degree`, more columns than the matrix it builds declares.
79. `smith_normal_form`, `smith_factorization`, `smith_rows` (pid.hpp, read only) keep an iterator `p` into column `j` while `mix_cols` replaces the storage of that column: a use after free as soon as two columns to the right have an entry in row `j`. In `smith_factorization` the branch `p->val == g` updates only column `j` of `S` although `R` is updated with the full operation; since `extended_euclidean(a, a)` returns `x = 0, y = 1` (`C46_equal`) the operation changes the other columns too, and `R * S * C != A` for `[[1,0],[1,1]]`.
80. `ReducedCochainComplex::set_indices` (cohom_basis.hpp:34-43) looks the columns of `R[k]` (cells of dimension `k-1`) up in `p2c[k+1]` (rows: cells of dimension `k+1`); it should be the table of the dimension below and the result belongs to dimension `k-1`. So `hdim` is not the dimension of cohomology (`C78_not_cohomology`: interval `(0,1)`, sphere `(1,0,3)`) and a table is read out of bounds as soon as there are triangles but fewer than vertices (`C78_fewer_triangles`). `CochainComplex::permute_basis` and `ipermute_basis` are copied from `ChainComplex`: they permute the columns of `coboundary[k]`, which belong to dimension `k-1`, by a permutation of the `k`-cells.
81. `ReducedDGVectorSpace::find_preferred_representative` (dgbasis.hpp:304-340) adds `dg_offset` to `k` and then uses `R[k+1]`, `p2c[k+1]`. For degree `+1` the coboundaries of that dimension are the columns of `R[k-1]` in the shifted numbering, so the pivots of the wrong matrix are used: `induced_map` on cohomology is wrong (a rotation of the circle induces 0 on `H^1`, `C79_cohomology_wrong`; `chain_preferred_representative` leaves a coboundary unchanged and in degree 0 solves with `U[0]` of the wrong space, `C79_preferred_cohomology_wrong`), and for complexes of suitable sizes `p2c[k+1][j]` is read out of bounds.
82. `lower_star_backwards` (extension.hpp:64-65, 74) takes the number of vertices as the length of the gradient but indexes it by vertex labels: for a complex on the labels 0 and 5 it writes past the end (`C81_labels`). An odd number of gradient entries in a dimension is read out of range unless the next death index is `-1`.
83. `zigzag_toplex` (levelset.hpp:89-154) updates the exit of an edge with `d = std::max(b, v)` instead of `std::max(d, v)`: the exit is the value of the last voxel tested, so an edge can exit before squares and voxels it bounds (`C82_toplex_edge_wrong`: `[0,0]` under a voxel on `[5,5]`), and the level set (4, 6) lacks a voxel of value 5 (`C82_levelset_wrong`).
84. Grids with a side of length 1 (`Freudenthal(1, n)`, `Cube(1, n)`, boxes with two sides of length 1) give the empty complex, not even the vertices (`C83_degenerate`, `C83_box_line`, `C84_degenerate`, `C84_box_line`). The comments in grid.hpp give the index as `k + n2*(j + n1*i)`; the code uses `k + n3*(j + n2*i)`, which is the right one. `n = 0` wraps around in the loop bound `n - 1`. `LightSimplicialComplex` needs `(n1 n2 n3)^4 <= 2^64`: in three dimensions keys are only guaranteed to be distinct for at most 65536 vertices.
85. `MorsePairing::set_pair_edge` pairs without looking whether the vertex or the edge is already paired (`C85_mixed_wrong`); `clear()` does not reset `parent`, so that a cleared pairing refuses edges (`C85_clear_wrong`). Read only: `_set_pair_supersafe` (private, unused) tests `size(dim) < i` where `<= i` is needed; `add_pair` with a simplex that is already there pairs it a second time.
86. `ChainComplex(CellComplex)` stores coefficients that are zero in the field as explicit zeros (`ColumnMatrix(CSCMatrix)` does not test), and the reduction takes them for pivots: the projective plane (one cell in each dimension, coefficient 2) over F2 gets the Betti numbers 1, 0, 0 instead of 1, 1, 1 (`C86_zero_coefficient_wrong`). `CellComplex::add` does not check that the faces exist (`C86_missing_face`), `add(b, c, 0)` ignores `b` and `c` (`C86_add_assert`), `boundary_csc(0)` reads `ptr[-1]` (`C86_boundary_ub`); `boundary(k, row, col)` is declared but not defined.
87. `zigzag_levelsets` does not end for a window size `eps <= 0` (C87_windows_diverge), and because `levelset` asks for an end of the interval strictly inside of the window, a cell whose interval contains the window, or starts at its border, is not in the level set (C87_misses): the level set of a cell alive throughout is empty
88. `SetVector::axpy(a, x, firstind, lastind)`: the condition of the last loop is the negation of what is meant: entries of `x` from `lastind` on are stored, entries in the range behind the end of the vector are dropped; and the end of `x` is dereferenced if `x` ends in or before the range (C88_window, C88_window_wrong, C88_window_end). `axpy(0, x)` stores explicit zeros, so that `==` and `nnz` are wrong (C88_axpy_zero)
89. `kdist`: the comment says k-th largest, the value is the k-th smallest counted from 0 with the point itself as number 0 (C89_zero); `k >= X.size()` reads outside of the vector (C89_undefined)
90. `parse_argv` returns the empty string (the version for numbers: `std::stod` of it throws) for an entry which is the token without `=`, and never finds a token with `=` in it (C90_flag, C90_token)
