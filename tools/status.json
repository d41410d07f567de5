{
"C01": ["proved", "every canonical operand, P*P < 2^31 (no signed overflow); loop termination included"],
"C02": ["proved", "all 2^32 stored representations; also the exact behaviour of the int overloads"],
"C03": ["proved", "exact characterisation C03_ofInt_iff; witness C03_ofInt_wrong"],
"C04": ["proved", "32-bit wrap of p*p outside the modelled range is discussed in Field.lean"],
"C05": ["proved", "over unbounded integers; machine overflow of numerator/denominator is not modelled"],
"C06": ["proved", "coordinate law needs no hypothesis; sortedness, no stored zeros, bounds, nnz = support size, windowed form, getval, +, =="],
"C07": ["proved", "entrywise products/sums/transposes; associativity, distributivity, neutrality and transpose laws as equalities of the stored objects"],
"C08": ["proved", "defect: operator- returns B - A; exact law, characterisation of when it is right, witness"],
"C09": ["proved", "termination, no UB/throw, unique solution; two-sided inverses"],
"C10": ["proved", "termination, memory safety, reducedness, exact table"],
"C11": ["proved", "any U, equality with the basis-free run, mismatch throws"],
"C12": ["proved", "uniqueness, algorithm-independent pivots, rank of every lower-left block, table of the code; clearing/compression tables in C15/C17"],
"C13": ["proved", "six constructors (standard, no basis, clearing with/without basis, compression with/without basis)"],
"C14": ["proved", "all constructors that compute a basis"],
"C15": ["proved", ""],
"C16": ["proved", ""],
"C17": ["proved", "also proved: B*U=R fails under compression"],
"C18": ["proved", "C18_exact for every input; C18_reduction for the case in which it is a reduction; C18_not_a_reduction, C18_loses_rank are witnesses"],
"C19": ["proved", "a refused add still raises maxdim(): stated exactly in C19_add_result"],
"C20": ["proved", ""],
"C21": ["proved", "unsigned arithmetic modulo the word size is modelled"],
"C22": ["proved", "the read of offset(-1) in the last step is undefined behaviour in C++; modelled as an arbitrary value that the results do not depend on"],
"C23": ["proved", "exact behaviour, with two findings as witnesses"],
"C24": ["proved", ""],
"C25": ["proved", ""],
"C26": ["proved", ""],
"C27": ["proved", ""],
"C28": ["proved", ""],
"C29": ["proved", "NaN and the passage through double in lower_star_filtration are not modelled; star.hpp: LowerStarFiltration does not compile (uses members that do not exist) and is not modelled"],
"C30": ["proved", "Assumes the 1 x n zero matrix as boundary[0], which is what the constructor from a complex builds."],
"C31": ["proved", "All six flag combinations; both values of `permuted`."],
"C32": ["proved", "For arbitrary values (no filtration hypothesis needed)."],
"C33": ["proved", "histories of any length; defects (no basis, compression) proved as the exact behaviour"],
"C34": ["proved", ""],
"C35": ["proved", "exact arithmetic for binom_to_inds (sqrt) and an order-preserving float conversion are assumed; defect for unsorted input proved as a witness"],
"C36": ["proved", "flag_filtration, flag_complex, rips (matrix and data set); the pairing and extension variants of FlagFiltration are not modelled"],
"C37": ["proved", "exact columns, success iff simplicial, chain map, composition, inclusion, identity, functoriality on homology; out of bounds read when the source has larger dimension proved"],
"C38": ["proved", "all six factorisations, inv, the four commutation functions and the shape checks, for all sizes and fields"],
"C39": ["proved", "reductions standard and clearing with basis; compression refuted by witness"],
"C40": ["proved", "reductions standard and clearing with basis"],
"C41": ["proved", "exact characterisations; the defect of is_upper_invert is proved as a witness"],
"C42": ["proved", "defect: set_block also erases coordinate i1; exact law, iff characterisation, witness"],
"C43": ["proved", "std::getline, std::stoi, eofbit/failbit and decimal output are modelled on character lists; opening files is assumed to succeed; int has 32 bits"],
"C44": ["proved", ""],
"C45": ["proved", "exact behaviour, sufficient condition, and a witness with wrong bars"],
"C46": ["proved", ""],
"C47": ["proved", "Reads of ind_shift[-1][j] and ind_shift[i][-1] are undefined behaviour in C++; they are modelled as arbitrary values."],
"C48": ["proved", "exact behaviour incl. the wrong cases of mix_rows, ipermute and coefficient-list axpy, with witnesses"],
"C49": ["proved", "exact behaviour incl. the wrong cases, with witnesses"],
"C50": ["proved", ""],
"C51": ["proved", ""],
"C52": ["proved", "complexes with maxdim 0 are excluded: the code reads out of bounds there (C30_vertices_only_ub)"],
"C53": ["proved", "C53_rips_persistence"],
"C54": ["proved", ""],
"C55": ["proved", "OpenMP tasks on disjoint ranges are modelled one after the other."],
"C56": ["proved", ""],
"C57": ["proved", ""],
"C58": ["proved", ""],
"C59": ["proved", ""],
"C60": ["proved", ""],
"C61": ["proved", "standard reduction flag; std::unordered_map as association list; the condition on explicit maxdim is necessary (C61_stale_pivot_above_maxdim)"],
"C62": ["proved", "interval decomposition, Betti numbers at every time, both overloads; witnesses for the two excluded kinds of filtrations"],
"C63": ["proved", "simplicial overload; floating point rounding not modelled; the cubical overload is not modelled"],
"C64": ["proved", "simplicial complexes; the add_recursive and levelset behaviour is stated exactly, with witnesses for the deviations from the documentation"],
"C65": ["proved", "C65_schedule (independence of the schedule), C65_chain_functor, C65_hom (edges represent the induced maps), C65_barcode (interval decomposition of homology), C65_unique, C65_rank (Betti numbers and ranks of composites), C65_spaces (from spaces to barcodes, simplicial Betti numbers), C65_all_dimensions, C65_no_dimension (throws); zigzag_of_spaces exhibits a diagram satisfying the hypotheses and zigzag_of_spaces_barcode its barcodes"],
"C66": ["proved", "complete; distances are modelled in an ordered abelian group without rounding; negative behaviour for dmax = 0 and eps = 0 is part of the statement"],
"C67": ["proved", "complete for landmark.hpp except random_landmarks (random numbers); distances are modelled without rounding"],
"C68": ["proved", "all parts; theta = sqrt(d/(2d+1)) is a parameter, arithmetic is exact"],
"C69": ["proved", "The lazy-witness overload WitnessComplex(X, L, dist, nu, rmax, dmax) does not compile when instantiated and is not modelled."],
"C70": ["proved", "Full statement; all reduction variants and fields."],
"C71": ["proved", ""],
"C72": ["proved", ""],
"C73": ["proved", "degree -1 for all histories that meet the stated restrictions; outside them counterexamples are theorems (C73_top_grows_ub, C73_new_vertex_ub, C73_cohomology_wrong)"],
"C74": ["proved", "C74_directed_sorted is the witness for directed simplices."],
"C75": ["proved", "C75_not_contained states the exact behaviour when A is not contained in X."],
"C76": ["proved", "C76_unsorted is the witness for unsorted columns."],
"C77": ["proved", "C77_collision and C77_not_skeleton are the witnesses for the exact behaviour."],
"C78": ["proved", "The intended statement (hdim = dim H^k) is false; proved: the exact result, the exact domain of success, the top dimension, and the cohomology formula that the stored matrices do give. Finding 80."],
"C79": ["proved", "Degree -1 and the functors are proved; for degree +1 the intended statement is false and a counterexample is proved (finding 81)."],
"C80": ["proved", ""],
"C81": ["proved", ""],
"C82": ["proved", "the exit of edges is wrong in the code (std::max(b, ..) for std::max(d, ..)); the theorem states what is computed, with witnesses"],
"C83": ["proved", ""],
"C84": ["proved", ""],
"C85": ["proved", "one rank vector per history; the members that use the underlying complex (add, add_pair, faces) are not modelled"],
"C86": ["proved", "the assertion on the lengths of the two lists is a hypothesis; the coefficients of boundary_csc are unbounded integers"],
"C87": ["proved", "simplicial complexes only; times are elements of an Archimedean ordered group, rounding is not modelled"],
"C88": ["proved", "std::set is modelled by the list of its elements in the order of iteration; axpy for arguments x with increasing indices"],
"C89": ["proved", "the matrix of distances is given, values are in a linear order (no NaN)"],
"C90": ["proved", "the conversion to numbers by std::stod of the general version is not modelled"]
}
