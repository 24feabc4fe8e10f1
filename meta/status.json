{
"C01": [
"proved",
"for every fusion rule with duplicate-free outcome lists"
],
"C02": [
"proved",
""
],
"C03": [
"proved",
"iff-form for structurally well-formed trees (right number of inner sectors and labels)"
],
"C04": [
"proved",
""
],
"C05": [
"proved",
"extended, insert, split, split_bottom_vertex, braid"
],
"C06": [
"proved",
"for any fusion rule (with multiplicities) whose C/R symbols are unitary; instantiated for every multiplicity-free unitary braided category, hence ZN/U1/fermion/anyon categories below. The numerical cutoff is assumed to drop only exact zeros (cutoff 0 in the category instance)."
],
"C07": [
"proved",
"2 <= N <= 32768 (int16 storage); exact complex arithmetic"
],
"C11": [
"proved",
"U1, ZN, NoSymmetry, FermionParity, FermionNumber incl. int16 wrap-around; integer charge conservation fails exactly at overflow; ZN(N>32768) is not closed"
],
"C08": [
"proved",
"both handednesses, exact complex arithmetic; kernel-evaluated equations over Q(zeta_10, sqrt(1/phi)) transported to C"
],
"C09": [
"partial",
"FALSE of the code: the guard all_sigma(b,c) makes the C-symbol 1 for (psi,psi), (sigma,psi), (psi,sigma); proved: negation for every nu, and correctness for the remaining pairs"
],
"C42": [
"proved",
"all odd nu"
],
"C12": [
"proved",
"within int16 range; behaviour at overflow proved separately (C12_overflow); F symbols of SU(2) come from numerical CG data and are not modelled"
],
"C43": [
"proved",
"F/C symbols (q-6j) not covered; 1<=k<=32767"
],
"C10": [
"proved",
"multiplicity-free factors for pentagon/hexagon; n_symbol and associativity also with multiplicities; the empty product Symmetry([]) is shown to violate the property"
],
"C13": [
"partial",
"FALSE of the code for labels of nested combined legs (proved: splitting raises/aborts); exact characterisation of when the round trip works is proved"
],
"C14": [
"partial",
"FALSE of the code for labels ending in **, for placeholders with offset; proved for elementary labels and one level of combination"
],
"C15": [
"proved",
"histories not ended by an assert abort; includes the finding that set_label(None) raises when another leg is unlabelled"
],
"C16": [
"partial",
"FALSE of the code in three ways, each proved: NaN accepted for fusion_tree_eps, set_options not atomic, temporary_options whose entry raises leaks; everything else proved for all programs"
],
"C17": [
"proved",
"common is the least upper bound for every non-empty list; set-dependence, complex iff, staged promotion."
],
"C18": [
"partial",
"Proved for all spectra and options with chi_max >= 1 (incl. the exact error and norm, priority of constraints, chi_min). chi_max = 0 is ignored by the code: proved as a defect with a witness. Floats are an ordered field."
],
"C19": [
"partial",
"The property is false of the code: proved norm^2 * (1-err) = x^2, equal to x^2 exactly if nothing of weight is truncated; witness included."
],
"C20": [
"proved",
"Model of _cmp_lexsort / iter_common_sorted / iter_common_noncommon_sorted / find_row_differences; statements in terms of an independent row order."
],
"C21": [
"proved",
"argsort is any stable argsort; numpy arrays are lists of naturals."
],
"C22": [
"proved",
""
],
"C44": [
"partial",
"C-style guard proved; the F-style guard is wrong (C44_fstyle_guard_fails), it suffices only if last dim <= first dim (C44_fstyle_guard_partial)."
],
"C23": [
"proved",
"For polynomials built from strings by + and *; strings are parsed to tokens outside the model, int64 is unbounded. Two corner-case defects outside parsed input are proved as witnesses."
],
"C24": [
"proved",
"unordered_map is a duplicate-free association list; scalars any commutative semiring."
],
"C25": [
"proved",
"from_basis, from_defining_sectors, from_sector_decomposition, sectors_of_basis, dim over arbitrary sector lists"
],
"C26": [
"proved",
"parse_index and idx_to_sector for every valid ElementarySpace and index"
],
"C27": [
"proved",
"includes the is_trivial theorem that records the null-space out-of-bounds read as a defect"
],
"C28": [
"proved",
"legs, pipes, elementary spaces and tensor products; fusion ring laws as hypotheses (proved for cyten symmetries in C07-C12, C43)"
],
"C29": [
"proved",
""
],
"C30": [
"proved",
""
],
"C40": [
"partial",
"insert_multiply, left_multiply, permuted, from_partial_products proved; right_multiply is proved to insert the new factor before the last one, so the documented factor order fails (C40_right_multiply_partial characterises exactly when it holds); sectors and multiplicities are right"
],
"C31": [
"proved",
"Construction of AbelianLegPipe from legs of any abelian, droppable symmetry: rows cover every combination once, slices tile, charges and basis order, dual. The dense use in combine_legs/split_legs is not part of this claim."
],
"C32": [
"proved",
"linear_combination and mul, over any semiring; block table consistency under C41"
],
"C34": [
"proved",
"exact arithmetic; keys are unbounded integers (make_stride overflow guard: C44); inner raises for tensors without legs (C34_inner_isSome)"
],
"C45": [
"proved",
"trivial braiding (bosonic abelian symmetry)"
],
"C41": [
"proved",
"C41_all_histories: induction over all histories of the modelled operations (constructors, linear algebra, legs, masks, diagonal tensors, decompositions, tensor_from_grid); from_tree_pairs and truncate_singular_values are not modelled for the abelian backend. Abelian group symmetries with trivial braiding, exact arithmetic."
],
"C33": [
"proved",
"all three branches of compose (scalar result, outer product, grouped contraction); charge conservation of the result; associativity. Exact arithmetic; the dtype conversion of the scalar branch is not modelled."
],
"C46": [
"proved",
"eye, trace_full, outer, add_trivial_leg over any semiring; keys unbounded"
],
"C35": [
"proved",
"exact dense <-> block conversion. Tensors without legs: from_dense_block raises (make_grid of an empty shape raises), proved in C35_from_dense_raises_iff. Finding: from_dense_block never checks the shape, so oversize arrays are silently truncated (C35_from_dense_excess)."
],
"C36": [
"proved",
"Every sentence of the statement is a theorem. The defect of partial_zero_is_zero is proved by a counterexample (C36_binary_flag_bug); C36_binary_flag_partial states the condition under which the flag is harmless."
],
"C37": [
"proved",
"Masks of the abelian backend: from_block_mask / from_DiagonalTensor / eye / zero / unary / binary / dagger all give well-formed masks whose boolean vector is the stated one, the small leg has one vector per True in increasing order of public index, get_item and the full tensor are the 0/1 matrix of that subset, all/any are quantifiers; as_block_mask is independent of block representation. Not modelled: Mask.from_random's random choice, fusion tree and no-symmetry backends."
],
"C47": [
"proved",
"Abelian backend; entries of a commutative monoid. That the leg of the tensor equals the leg of the mask (checked by _check_compatible_legs) is a hypothesis, as are the assertions on the kind of mask."
],
"C48": [
"proved",
"Abelian backend; the block decompositions (LAPACK) are arguments with their specification as hypothesis. Legs are combined before (combine_legs: C31, C49)."
],
"C49": [
"proved",
"Abelian backend. The groups are neighbouring legs (the tensor-level function permutes first: C45)."
],
"C38": [
"proved",
"Exact arithmetic over R or C. Documented claim for non-orthonormal ortho_vecs refuted (C38_documented_false, C38_adjoint_false)."
],
"C39": [
"proved",
"Exact arithmetic. For rcond > 0 the documented 'span the same space' is refuted (C39_span_false) and replaced by C39_near."
],
"C51": [
"proved",
"Exact arithmetic; numpy.linalg.eigh enters by its specification (EighSpec, shown satisfiable). The documented harmlessness of E_shift fails when a ProjectedLinearOperator object is used a second time (C51_shift_reused_wrong)."
],
"C52": [
"proved",
"Exact arithmetic; numpy.linalg.eigh enters by its specification. E_shift is not modelled for the evolution (the code does not compensate for it, the result is then the evolution with the shifted operator)."
],
"C50": [
"partial",
"proved for real vector spaces and for Hermitian operators over C; for complex non-Hermitian operators the English property (without the restriction) is false of the code (C50_complex_wrong: rotations lack conjugation); a breakdown before N_min steps makes the code raise (C50_breakdown_fails, C50_fails_only)"
],
"C53": [
"proved",
"numpy.linalg.eig/solve and std::sort enter through specifications that are proved satisfiable; defects proved: num_ev > N returns additional numbers 0 - E_shift (C53_excess); a second run of the same Arnoldi object raises after a run with N_max steps (C53_second_run)"
],
"C54": [
"proved",
"abelian backend, exact scalars; C54_compose_diagonal and C54_diagonal_compose relate it to the matrix product"
],
"C55": [
"proved",
"abelian backend, exact scalars; the charge rule of the result (C55_isHom) for symmetries given by abelian groups"
],
"C56": [
"proved",
"SymmetricTensor branch of tdot and partial_compose (abelian backend, exact scalars, labels omitted); the branches for Mask, DiagonalTensor, Identity and ChargedTensor are not covered"
],
"C57": [
"partial",
"Proved for one leg and, for any number of legs, if both sides use the same pipe. For two or more legs the code combines codomain and domain with different pipes: C57_exp_bug and C57_exp_bug_charge prove that exp is then wrong (exp of zero is not the identity, result violates the charge rule)."
],
"C58": [
"partial",
"Abelian and fusion tree backend: soundness proved in full; completeness if b stores no block that a lacks or rtol = 0. Without that it is false of the code: C58_almost_equal_bug, C58_ft_almost_equal_bug."
],
"C59": [
"proved",
""
],
"C60": [
"partial",
"Diagonal tensor second: proved for all leg choices. Diagonal tensor first: proved for two contracted legs and for one leg with equal numbers; otherwise false (C60_diagonal_left_bug). Identity first: proved except full contraction with a matrix, where the code raises (C60_identity_left_bug). Identity second: proved for two contracted legs; false for one (C60_identity_right_bug). Scalars commutative for the 'first' cases. tdot with Masks and ChargedTensors is not covered here."
],
"C61": [
"proved",
"Entries from a ring with conjugation; dtypes and rounding are not modelled (the code converts the results of inner to the dtype of the first tensor)."
],
"C62": [
"proved",
"The decompositions of single blocks are assumed to be correct; entries from a ring with conjugation."
],
"C63": [
"proved",
"Exact arithmetic, internal basis order, legs without pipes; the fusion tensors are a parameter with the documented orthonormality."
],
"C64": [
"proved",
"dense arrays of the degrees of freedom, labels and sectors; exact numbers instead of floats"
],
"C65": [
"partial",
"all documented formulas proved; hopping and pairing only for equivalent sites: for inequivalent sites the documented formula is false of the code (C65_hopping_bug)"
],
"C66": [
"partial",
"Proved for all permutations of the sites. The last sentence is false of the code: the length of the permutation is not compared with the number of sites (C66_permute_length_bug)."
],
"C67": [
"proved",
"Dense semantics for bosonic symmetries; qr of the numerical library is a parameter with its law, the truncating variant (cutoff) is not modelled."
],
"C68": [
"partial",
"Proved for all names except the empty string and names with a trailing space as factors of multiply_op_names; the empty string is accepted by add_onsite_operator, and then the statement is false of the code (C68_empty_name_bug)."
],
"C69": [
"partial",
"The round trip is proved for all graphs that satisfy Savable (simple keys not empty, no ignored objects, no tuple reachable from its own items). Without these it is false of the code: negations with witnesses (empty key, recursive tuple, ignored item, masked arrays; exact condition for masked arrays)."
],
"C70": [
"proved",
"dense operations in the public bases; block-level decompositions assumed to satisfy their defining law"
],
"C71": [
"proved",
"all permutations and bends; chirality of crossings only without bends to the left (with left bends the code adds crossings that cancel)"
],
"C72": [
"proved",
"For permutations that mix codomain and domain, legs that are not pipes, symmetric braid of a group. Inner permutations (FactorizedTreeMapping): C73."
],
"C73": [
"proved",
"For legs that are not pipes, symmetric braid of a group. Amplitudes are not rounded to real numbers: SymmetricTensor::verify_dtype excludes real tensors with complex symbols."
],
"C74": [
"proved",
"Planar contractions are accepted in at least one order of the tensors; acceptance in the given order fails when all legs of the first tensor are contracted in a rotated order (C74_rejected_defect)."
],
"C75": [
"proved",
"For lists of at most n legs (duplicates in longer lists are only detected by permute_legs); two empty lists: C75_empty_defect."
],
"C76": [
"partial",
"False of the code in the cases of C76_full_defect, C76_full_error_defect, C76_wrap_defect and C76_both_sides_defect (contracted legs across both sides of the tensor; all legs of tensor2 contracted with all domain legs of tensor1) and for a second tensor without legs; proved in all other cases."
],
"C77": [
"proved",
""
],
"C78": [
"proved",
"all orders"
],
"C79": [
"proved",
"labels only: dimensions, costs and charge legs are not modelled"
],
"C80": [
"proved",
"all definitions"
],
"C81": [
"proved",
"dim-1 sectors (all abelian symmetries); other sectors: C27."
],
"C82": [
"partial",
"C82_tensor_from_grid proves the positive part for the abelian backend with ElementarySpace legs; the rejection of grids with unequal legs within a row is false in the code (C82_row_legs_unchecked)."
],
"C83": [
"partial",
"Proved in full with the squared error (abelian backend, two legs, exact real arithmetic; LAPACK and argsort are arguments). The documented meaning of err is false of the code: C83_documented_error_iff / C83_documented_error_false."
],
"C84": [
"partial",
"All listed operations proved for all inputs except where the code is wrong: scalar multiplication by a complex number with a real invariant part, almost_equal with different states, inner(symmetric, charged) with a complex state (negations proved with witnesses). Not modelled: outer/tdot/compose/partial_trace of charged tensors, dagger, leg permutations, other backends."
],
"C85": [
"partial",
"proved for symmetries without fusion multiplicities; false of the code otherwise (C85_multiplicity, C85_outer_wrong)"
],
"C86": [
"proved",
"All 4 sectors are covered (the category is finite); numbers are exact, floating point rounding is not modelled."
],
"C87": [
"proved",
"Proved for every nonempty list of factors satisfying the laws themselves (hypothesis Good; met by SU(3)_3, C87_su33_power)."
],
"C88": [
"proved",
"For tensors with one leg in the codomain and one in the domain (svd combines legs before, C31/C49). The zero tensor (division by the norm 0) is excluded."
],
"C89": [
"partial",
"Proved for all tensors without leg pipes (and single-factor sides with or without pipes), also for dense blocks. With pipes before the leg the code computes the flat leg number wrongly: C89_flat_idx gives the cases where it is right, C89_pipes_raise and C89_pipes_wrong_leg prove the failures."
],
"C90": [
"partial",
"Legs in the domain: full statement. Legs in the codomain: proved when there is at most one fusion tree per choice of sectors (abelian symmetries, or two legs without fusion multiplicities); otherwise the code is wrong, C90_codomain_wrong."
],
"C91": [
"proved",
"dtypes, devices and the tolerance of from_block (an arbitrary comparison) are parameters; parse_index is outside the model of get_element"
],
"C92": [
"partial",
"Everything is proved except that the logical operations are wrong for dual legs whose sectors are not sorted (C92_unary_dual_wrong, C92_binary_dual_wrong are the negations); C92_unary_partial and C92_binary_partial cover all legs with sorted sectors. basis_perm is not modelled (C37 has it for the same code in the abelian backend)"
],
"C93": [
"proved",
"the selection is that of C18 with the order of priorities of its options; applying the mask to U and Vh is C90, to S C91; algorithms of the block decompositions are arguments; with normalize_to the norm of S is x / sqrt(new_norm), not x (C93_normalize_to, the defect of C19)"
]
}