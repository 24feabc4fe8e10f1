{"id": "C01", "title": "fusion_trees enumerates exactly the allowed trees, each once", "statement": "Iterating `fusion_trees(symmetry, uncoupled, coupled)` yields a FusionTree iff it is a consistent tree for these uncoupled/coupled sectors (every vertex allowed by the fusion rules, every multiplicity label in range), and yields no tree twice.", "quantifier": "every symmetry given by an arbitrary finite-outcome fusion rule with multiplicities, every list of uncoupled sectors of any length, every coupled sector and duality flags", "why_tests_cant": "The number of trees grows exponentially with the number of legs and depends on an arbitrary fusion rule; tests only sample few small categories and few legs.", "anchors": ["src/symmetries/trees.cpp:fusion_trees::all_trees", "src/symmetries/trees.cpp:FusionTree::test_sanity"]}
{"id": "C02", "title": "len(fusion_trees) is the number of yielded trees", "statement": "`len(fusion_trees(...))` (computed recursively without building trees) equals the number of trees yielded by iteration.", "quantifier": "every fusion rule, every list of uncoupled sectors, every coupled sector", "why_tests_cant": "Two independent recursions must agree for all depths and all fusion rules.", "anchors": ["src/symmetries/trees.cpp:fusion_trees::size", "src/symmetries/trees.cpp:fusion_trees::all_trees"]}
{"id": "C03", "title": "fusion_trees.index is the position in iteration order", "statement": "For every tree t yielded by the iteration, `fusion_trees.index(t)` equals the position at which t is yielded, so block offsets derived from `index` and from iteration agree.", "quantifier": "every fusion rule (with multiplicities), every number of legs, every yielded tree", "why_tests_cant": "Off-by-one errors in the stride/multiplicity arithmetic only show up for particular combinations of multiplicities and depths.", "anchors": ["src/symmetries/trees.cpp:fusion_trees::index", "src/symmetries/trees.cpp:fusion_trees::compute_index"]}
{"id": "C04", "title": "FusionTree.insert and FusionTree.split are inverse", "statement": "`t.split(n)` of a consistent tree returns two consistent trees with n and N-n+1 uncoupled legs whose `insert` gives back t; and splitting an insertion at the number of legs of the inserted tree recovers both trees.", "quantifier": "every consistent fusion tree of any size and every split position 2 <= n < N", "why_tests_cant": "Index bookkeeping of inner sectors and multiplicities must be right for every tree size and position.", "anchors": ["src/symmetries/trees.cpp:FusionTree::insert", "src/symmetries/trees.cpp:FusionTree::split"]}
{"id": "C05", "title": "FusionTree surgery preserves consistency", "statement": "`extended`, `insert`, `split`, `split_bottom_vertex`, and the trees in the result of `braid` of consistent trees are again consistent (pass test_sanity), with the documented uncoupled and coupled sectors.", "quantifier": "every consistent fusion tree, every admissible argument", "why_tests_cant": "Requires consistency for every tree shape and fusion rule.", "anchors": ["src/symmetries/trees.cpp:FusionTree::extended", "src/symmetries/trees.cpp:FusionTree::braid", "src/symmetries/trees.cpp:FusionTree::split_bottom_vertex"]}
{"id": "C06", "title": "Over-braid followed by under-braid is the identity", "statement": "Braiding legs j, j+1 of a fusion tree with over-braid and then braiding the resulting linear combination at the same position with under-braid (and vice versa) returns the original tree with coefficient 1 and no other tree.", "quantifier": "every consistent tree, every position, every symmetry whose R- and C-symbols are unitary in the documented sense", "why_tests_cant": "An identity between linear combinations over all trees and all positions, with complex coefficients.", "anchors": ["src/symmetries/trees.cpp:FusionTree::braid"]}
{"id": "C07", "title": "ZN anyon categories are consistent braided categories", "statement": "For ZNAnyonCategory(N, n), ZNAnyonCategory2(N, n) and QuantumDoubleZNAnyonCategory(N): the fusion rules are those of an abelian group; F, R, C symbols are unitary, satisfy the pentagon and both hexagon equations, and the C symbol equals R F R.", "quantifier": "every N, every n, all sector tuples of the pentagon/hexagon", "why_tests_cant": "Infinite family of categories (N, n) and all 4-tuples of anyons.", "anchors": ["src/symmetries/factors/zn_anyon_category.cpp", "src/symmetries/factors/zn_anyon_category2.cpp", "src/symmetries/factors/quantum_double_zn_anyon_category.cpp"]}
{"id": "C08", "title": "Fibonacci category satisfies pentagon, hexagon and unitarity", "statement": "The F and R symbols of FibonacciAnyonCategory (both handednesses) solve the pentagon and hexagon equations exactly, F and R are unitary, quantum dimensions satisfy d_a d_b = sum_c N d_c, and the topological twist / Frobenius-Schur data agree with R and F.", "quantifier": "all sector tuples, both handednesses; exact complex arithmetic", "why_tests_cant": "Tests check with floating point tolerance; exactness of the closed forms over the field is not observable numerically.", "anchors": ["src/symmetries/factors/fibonacci_anyon_category.cpp"]}
{"id": "C09", "title": "Ising category C symbol equals R F R", "statement": "For IsingAnyonCategory(nu) the returned c_symbol(a,b,c,d,e,f) equals the value determined by the F and R symbols, C = R^{ec}_d F^{cab}_d[e,f] conj(R^{ac}_f), for all allowed sectors.", "quantifier": "all odd nu and all allowed sector tuples", "why_tests_cant": "The hard coded guard for the C symbol covers tuples that random tests rarely draw.", "anchors": ["src/symmetries/factors/ising_anyon_category.cpp:IsingAnyonCategory::_c_symbol"]}
{"id": "C10", "title": "Product symmetries inherit fusion consistency from their factors", "statement": "For a product Symmetry the fusion outcomes are exactly the componentwise outcomes, n_symbol and quantum dimensions are products, the dual is componentwise, and associativity/duality/commutativity of the fusion rules of the factors imply those of the product.", "quantifier": "every nonempty list of symmetry factors and every sectors (the empty product fails: it has no fusion outcomes)", "why_tests_cant": "Quantifies over arbitrary combinations of factors.", "anchors": ["src/symmetries/symmetry.cpp:Symmetry::fusion_outcomes", "src/symmetries/symmetry.cpp:Symmetry::_n_symbol", "src/symmetries/symmetry.cpp:Symmetry::dual_sector"]}
{"id": "C11", "title": "U(1) and Z_N charges form an abelian group under fusion", "statement": "fusion of U(1) / Z_N / fermion sectors is associative, commutative, has the trivial sector as neutral element and dual_sector as inverse, and valid sectors are closed under fusion.", "quantifier": "all charges representable by the sector type (16 bit signed integers) and all N", "why_tests_cant": "2^48 triples of charges; wrap-around at the boundary of int16 is never hit by tests.", "anchors": ["src/symmetries/factors/u1.cpp", "src/symmetries/factors/zn.cpp", "src/symmetries/factors/fermion_parity.cpp", "include/cyten/symmetries/sector.h"]}
{"id": "C12", "title": "SU(2) fusion is the Clebsch-Gordan series", "statement": "For SU2, fusion_outcomes(a,b) are pairwise distinct sectors with sum of dimensions equal to the product of dimensions, fusion is commutative, every sector is self dual (the trivial sector is contained in a x b iff a = b), and multiplicity counting of three-fold fusion is associative.", "quantifier": "all SU(2) sectors (within the int16 range)", "why_tests_cant": "Unbounded spins.", "anchors": ["src/symmetries/factors/su2.cpp"]}
{"id": "C13", "title": "Combined leg labels split back into the original labels", "statement": "Combining leg labels with combine_legs and splitting the combined leg again recovers the original labels (None for unlabelled legs).", "quantifier": "every list of valid leg labels (including labels that are themselves combined labels)", "why_tests_cant": "String round trip over all labels including nested pipes.", "anchors": ["src/tensors/labels.cpp:_combine_leg_labels", "src/tensors/labels.cpp:_split_leg_label"]}
{"id": "C14", "title": "Dualising a leg label twice gives the label back", "statement": "The label operation used by dagger/transpose on leg labels is an involution, so `T.dagger.dagger` has the labels of T.", "quantifier": "every valid leg label", "why_tests_cant": "String function over all labels.", "anchors": ["src/tensors/labels.cpp:_dual_leg_label"]}
{"id": "C15", "title": "Leg labels stay unique and look up the right leg", "statement": "After construction and any sequence of successful set_label / set_labels / relabel calls, no two legs carry the same label, and looking up a label or an index (also negative) returns exactly the leg carrying it or raises if there is none.", "quantifier": "every number of legs, every sequence of labelling operations", "why_tests_cant": "Invariant over all histories of operations on the label map.", "anchors": ["src/tensors/labels.cpp:LabelledLegs"]}
{"id": "C16", "title": "Configuration always holds valid values, and failed updates and temporary options leave no trace", "statement": "After any sequence of set_option/update/temporary_options calls (successful or raising), every option holds a value of the documented range; a failed set_option changes nothing; leaving a temporary_options block (normally or by exception) restores the configuration at entry; a failed update leaves the configuration unchanged.", "quantifier": "every history of configuration calls", "why_tests_cant": "Histories with interleaved failures and nesting.", "anchors": ["src/config.cpp", "pybind/py_config.cpp:TemporaryOptions"]}
{"id": "C17", "title": "Dtype promotion is the least upper bound", "statement": "Dtype.common of a list is independent of order and repetition, is at least as precise as each argument, is complex iff some argument is complex, and is the smallest such dtype.", "quantifier": "all non-empty lists of dtypes", "why_tests_cant": "All lists of any length.", "anchors": ["src/block_backend/dtypes.cpp:common", "include/cyten/block_backend/dtypes.h"]}
{"id": "C18", "title": "Singular value truncation respects its constraints and reports the exact discarded weight", "statement": "truncate_singular_values keeps a set of singular values that is upward closed in the marginal error, keeps at least one and at most chi_max values (if given), and the reported error and new norm are exactly the discarded and kept weights, adding to the total.", "quantifier": "every list of singular values, quantum dimensions and truncation options", "why_tests_cant": "Interplay of five constraints on arbitrary spectra.", "anchors": ["src/backends/tensor_backend.cpp:_truncate_singular_values_selection", "src/tensors/decompositions.cpp:truncated_svd"]}
{"id": "C19", "title": "truncated_svd normalises the kept singular values", "statement": "truncated_svd(..., normalize_to=x) returns S with norm(S) = x.", "quantifier": "every spectrum and truncation options", "why_tests_cant": "A formula that is right without truncation or for norm 1 can be wrong in general.", "anchors": ["src/tensors/decompositions.cpp:truncated_svd", "src/backends/tensor_backend.cpp:_truncate_singular_values_selection"]}
{"id": "C20", "title": "Merge iteration over sorted block tables finds exactly the common entries", "statement": "The two-pointer iterations over lexsorted sector lists/block tables yield exactly the pairs of equal entries (and, in the non-common variant, also every one-sided entry exactly once), in order.", "quantifier": "every pair of strictly sorted tables of any length", "why_tests_cant": "Two pointer loops are correct only if every interleaving advances the right pointer.", "anchors": ["src/symmetries/sector_array.cpp:iter_common_sorted", "src/backends/block_inds.cpp:iter_common_noncommon_sorted", "cyten/tools/misc.py"]}
{"id": "C21", "title": "Permutation helpers are mutually consistent", "statement": "inverse_permutation is a two-sided inverse, combining permutations is their composition, rank_data is the inverse of a stable argsort, and the swap list of permutation_as_swaps applied in order performs the permutation by adjacent swaps.", "quantifier": "every permutation and every list", "why_tests_cant": "All permutations of all lengths.", "anchors": ["cyten/tools/misc.py:permutation_as_swaps", "cyten/tools/misc.py:inverse_permutation", "cyten/tools/misc.py:rank_data", "cyten/tools/misc.py:combine_permutations"]}
{"id": "C22", "title": "Strides and grids enumerate multi-indices bijectively", "statement": "make_grid lists every multi-index of a shape exactly once in the documented order and make_stride maps the k-th row of the grid to k, so packing block indices with strides is injective.", "quantifier": "every shape", "why_tests_cant": "All shapes of all ranks.", "anchors": ["cyten/tools/misc.py:make_stride", "cyten/tools/misc.py:make_grid", "src/backends/block_inds.cpp:pack"]}
{"id": "C23", "title": "Cost polynomials form a commutative semiring and evaluate homomorphically", "statement": "BigOPolynomial addition and multiplication are associative, commutative and distributive up to the library's ==, and simplification does not change the asymptotic class.", "quantifier": "all polynomials", "why_tests_cant": "Algebraic laws over all values.", "anchors": ["src/tools/cost_polynomials.cpp"]}
{"id": "C24", "title": "Sparse tree mappings compose like matrices", "statement": "SparseMapping.pre_compose computes the matrix product, the identity mapping is neutral, composition is associative, and prune(tol) drops exactly the entries with modulus <= tol.", "quantifier": "all sparse mappings over any scalars", "why_tests_cant": "All sparsity patterns.", "anchors": ["include/cyten/tools/mappings.h"]}
{"id": "C25", "title": "ElementarySpace construction from a basis is faithful", "statement": "ElementarySpace.from_basis(sectors) has each distinct sector once with multiplicity its number of occurrences (by sector dimension), sorted, and sectors_of_basis of the result gives back the input; dim is preserved and basis_perm is a permutation.", "quantifier": "every list of basis sectors", "why_tests_cant": "Lists of arbitrary length and order.", "anchors": ["src/symmetries/spaces.cpp:ElementarySpace::from_basis", "src/symmetries/spaces.cpp:ElementarySpace::sectors_of_basis"]}
{"id": "C26", "title": "parse_index locates the sector block and offset of a basis index", "statement": "For every basis index, parse_index returns the unique sector block and offset with slice start + offset equal to the (permuted) index; out of range indices raise.", "quantifier": "every space and every integer index", "why_tests_cant": "Bisection boundaries for every block layout (including zero-width blocks).", "anchors": ["src/symmetries/spaces.cpp:ElementarySpace::parse_index", "src/tools.cpp:to_valid_idx"]}
{"id": "C27", "title": "Direct sums and common subspaces of spaces count multiplicities correctly", "statement": "direct_sum adds sector multiplicities, from_largest_common_subspace takes their minimum, is_subspace_of is the pointwise order and is_isomorphic_to pointwise equality.", "quantifier": "all lists of spaces", "why_tests_cant": "All spaces of all sizes.", "anchors": ["src/symmetries/spaces.cpp:direct_sum", "src/symmetries/spaces.cpp:from_largest_common_subspace", "src/symmetries/spaces.cpp:is_subspace_of"]}
{"id": "C28", "title": "Taking the dual is an involution on legs", "statement": "Dual of dual of an ElementarySpace, LegPipe or TensorProduct is the original, duals reverse factors of products and pipes, and dual sectors are the pointwise duals.", "quantifier": "all (nested) legs", "why_tests_cant": "Nested pipes of any depth.", "anchors": ["src/symmetries/spaces.cpp:LegPipe", "src/symmetries/spaces.cpp:ElementarySpace::dual_es", "src/symmetries/spaces.cpp:TensorProduct"]}
{"id": "C29", "title": "TensorProduct sectors count fusion channels", "statement": "The sectors of a TensorProduct are sorted and duplicate free; the multiplicity of a coupled sector is the sum over uncoupled sectors of multiplicities times number of fusion trees; total dimension equals the product of the factor dimensions.", "quantifier": "every list of spaces over every symmetry", "why_tests_cant": "All products of all spaces.", "anchors": ["src/symmetries/spaces.cpp:TensorProduct::calc_sectors", "src/symmetries/spaces.cpp:TensorProduct::iter_tree_blocks"]}
{"id": "C30", "title": "Tree-block and forest-block slices tile each coupled block", "statement": "In the fusion tree layout, the slices of the tree blocks of a coupled sector are disjoint and cover [0, block_size) in iteration order.", "quantifier": "every list of spaces, every coupled sector", "why_tests_cant": "Offsets accumulate across sector combinations and trees.", "anchors": ["src/symmetries/spaces.cpp:TensorProduct::iter_tree_blocks", "src/symmetries/spaces.cpp:TensorProduct::tree_block_slice"]}
{"id": "C31", "title": "Fusing legs into an abelian pipe is a bijection of basis indices", "statement": "For AbelianLegPipe, the rows of the block index map assign each tuple of sector indices of the factor legs a slice of the fused leg; those slices tile the fused leg exactly, in the fused sector of matching charge, so combine_legs/split_legs lose nothing.", "quantifier": "every list of legs, both combine styles, every duality flag", "why_tests_cant": "Sorting plus offsets over arbitrary legs.", "anchors": ["src/symmetries/spaces.cpp:AbelianLegPipe", "src/backends/abelian.cpp:AbelianBackend::combine_legs", "src/backends/abelian.cpp:AbelianBackend::split_legs"]}
{"id": "C32", "title": "Abelian backend linear combination is linear on dense tensors", "statement": "linear_combination(a, v, b, w) of block-sparse tensors has dense representation a*dense(v) + b*dense(w), and its block table stays sorted and duplicate free.", "quantifier": "every pair of block-sparse tensors on the same legs, any scalars", "why_tests_cant": "All sparsity patterns.", "anchors": ["src/backends/abelian.cpp:AbelianBackend::linear_combination"]}
{"id": "C33", "title": "Abelian backend compose is the matrix product on dense tensors", "statement": "compose(A, B) of block-sparse tensors has dense representation equal to the contraction of the dense representations over the shared legs, and every result block is charge conserving.", "quantifier": "all block-sparse tensors with matching legs", "why_tests_cant": "All sparsity patterns and leg counts.", "anchors": ["src/backends/abelian.cpp:AbelianBackend::compose"]}
{"id": "C34", "title": "Abelian backend dagger, inner product and norm agree with dense", "statement": "dagger is an involution, inner(A,B) equals the dense inner product, norm^2 = inner(A,A), inner is conjugate symmetric.", "quantifier": "all block-sparse tensors", "why_tests_cant": "All sparsity patterns.", "anchors": ["src/backends/abelian.cpp:AbelianBackend::dagger", "src/backends/abelian.cpp:AbelianBackend::inner"]}
{"id": "C35", "title": "Dense round trip of abelian tensors", "statement": "to_dense_block(from_dense_block(D)) = D for symmetric D; from_dense_block(to_dense_block(T)) represents the same tensor as T; non-symmetric input raises; get_element equals the dense entry.", "quantifier": "all charge conserving tensors and all index tuples", "why_tests_cant": "All legs and all sparsity patterns.", "anchors": ["src/backends/abelian.cpp:AbelianBackend::from_dense_block", "src/backends/abelian.cpp:AbelianBackend::to_dense_block", "src/backends/abelian.cpp:AbelianBackend::get_element"]}
{"id": "C36", "title": "DiagonalTensors behave like their vector of diagonal entries", "statement": "With the abelian backend, for a DiagonalTensor: elementwise unary and binary functions act on every diagonal entry, including the entries of blocks that are not stored; all/any/trace/max and elementwise_almost_equal are the corresponding functions of the vector of all diagonal entries; from_diag_block and diagonal_as_block are inverse to each other (public basis order) and raise exactly for too short arrays; D[i,j] is the i-th entry if i=j and 0 otherwise; as_SymmetricTensor is the diagonal matrix and from_tensor inverts it, raising exactly if an off-diagonal entry is not small. With partial_zero_is_zero=True the binary result is correct for data in which the second operand stores no block the first operand lacks, and there are operands for which it is wrong.", "quantifier": "all diagonal tensors with any leg, basis permutation and block sparsity, all elementwise functions", "why_tests_cant": "The two-pointer loops misbehave only for particular sparsity patterns; basis permutations and missing blocks interact.", "anchors": ["src/backends/abelian.cpp:AbelianBackend::diagonal_elementwise_unary", "src/backends/abelian.cpp:AbelianBackend::diagonal_elementwise_binary", "src/backends/abelian.cpp:AbelianBackend::reduce_DiagonalTensor", "src/tensors/diagonal_tensor.cpp:DiagonalTensor"]}
{"id": "C37", "title": "Masks behave like subsets of basis vectors", "statement": "Mask.from_block_mask(v, leg) raises iff v is shorter than the leg dimension, otherwise as_block_mask returns v; and/or/xor/not (and every unary or binary boolean function) act pointwise, and a binary function raises iff exactly one operand is a projection; any/all are the quantifiers; the small leg has one basis vector per True; entry (i, j) of the mask, read with get_item or from the full tensor, is one iff j is the i-th True (both counted in the public basis order); dagger keeps the subset; eye/zero keep everything/nothing.", "quantifier": "all masks of any leg", "why_tests_cant": "All boolean vectors.", "anchors": ["src/tensors/mask.cpp", "src/backends/abelian.cpp:AbelianBackend::mask_binary_operand"]}
{"id": "C38", "title": "LinearOperator wrappers compute the documented operators and their adjoints", "statement": "Every operator expression built with SumLinearOperator, ShiftedLinearOperator, ProjectedLinearOperator, LinearOperatorWrapper, DirectSumLinearOperator over tensors is linear and acts as documented (sum; A + shift; P H P + penalty (1 - P) with P the orthogonal projector on the complement of the ortho_vecs), to_tensor represents matvec, and adjoint() satisfies <x, A y> = <A^dagger x, y>; DirectSum norm/inner/axpy are those of the orthogonal sum. For projections this holds when the ortho_vecs are orthonormal; the documentation's claim that they need not be (Gram-Schmidt being performed on them) is false of the code.", "quantifier": "all operator expressions, on any inner product space over R or C, and all vectors", "why_tests_cant": "Universally quantified operator identities over all expressions and vectors.", "anchors": ["src/tensors/sparse.cpp", "src/tensors/direct_sum.cpp", "pybind/tensors/py_sparse.cpp:ProjectedLinearOperator"]}
{"id": "C39", "title": "gram_schmidt returns an orthonormal family spanning the kept vectors", "statement": "gram_schmidt(vecs, rcond) with rcond >= 0 returns orthonormal vectors in the span of the inputs; every input is within rcond of the span of the result; with rcond = 0 the spans agree and the number of results is the dimension; the results for a prefix of the inputs are a prefix of the results; orthonormal inputs are unchanged.", "quantifier": "all finite families of vectors of any inner product space and all rcond >= 0", "why_tests_cant": "All lengths, exact arithmetic.", "anchors": ["src/tensors/sparse.cpp:gram_schmidt"]}
{"id": "C40", "title": "TensorProduct.right_multiply appends on the right", "statement": "right_multiply(space) gives the product with the new factor last, left_multiply with it first, insert_multiply at the position; each is equal to the product built from scratch with the list of factors.", "quantifier": "every product and new factor", "why_tests_cant": "The result must equal the from-scratch construction for all factors.", "anchors": ["src/symmetries/spaces.cpp:TensorProduct::right_multiply", "src/symmetries/spaces.cpp:TensorProduct::insert_multiply"]}
{"id": "C41", "title": "Block index tables stay lexsorted and duplicate free", "statement": "Every operation of the abelian backend that produces a tensor yields a block table sorted lexicographically (last leg first) without duplicates whose block count matches the number of blocks, provided its inputs satisfy this.", "quantifier": "all histories of backend operations", "why_tests_cant": "Invariant over all operation sequences.", "anchors": ["src/backends/abelian.cpp", "src/backends/block_inds.cpp"]}
{"id": "C42", "title": "Ising category satisfies pentagon, hexagon, unitarity and the ribbon equation", "statement": "For every odd nu the F and R symbols of IsingAnyonCategory(nu) are unitary and solve the pentagon and both hexagon equations exactly, quantum dimensions form a character of the fusion ring, the topological twist is a phase with theta_sigma = exp(2 pi i nu / 16) satisfying the ribbon equation, and F^{a abar a}_a = frobenius_schur(a) / qdim(a).", "quantifier": "all odd integers nu, all sector tuples, exact complex arithmetic", "why_tests_cant": "Tests check selected nu with floating point tolerance.", "anchors": ["src/symmetries/factors/ising_anyon_category.cpp"]}
{"id": "C43", "title": "SU(2)_k fusion ring, quantum dimensions and braid phases are consistent for every level", "statement": "For every level k and both handednesses: fusion outcomes of SU2_kAnyonCategory are exactly the truncated Clebsch-Gordan list, duplicate-free, in range, commutative, associative and self dual; quantum dimensions form a positive character of the fusion ring; R symbols are phases and with the topological twist satisfy the ribbon equation.", "quantifier": "all levels 1 <= k <= 32767, all sectors", "why_tests_cant": "Infinitely many levels; tests use a few small k with tolerance.", "anchors": ["src/symmetries/factors/su2_k_anyon_category.cpp"]}
{"id": "C44", "title": "make_stride guards packed indices against machine-integer overflow", "statement": "If make_stride returns strides, then packing any multi-index of the shape with them stays below the largest machine integer (otherwise it raises), for C- and F-style strides.", "quantifier": "all shapes, both styles", "why_tests_cant": "Only astronomically large shapes violate it; tests use small shapes.", "anchors": ["cyten/tools/misc.py:make_stride"]}
{"id": "C45", "title": "permute_legs of the abelian backend only reorders legs", "statement": "For a symmetry with trivial braiding, the entry of permute_legs(T, codomain, domain) at the permuted multi-index is the entry of T at the multi-index; permuting back restores T; the table stays sorted.", "quantifier": "every block-sparse tensor and every permutation/bipartition of its legs", "why_tests_cant": "Index bookkeeping for every number of legs and every permutation; errors cancel for involutions and symmetric shapes.", "anchors": ["src/backends/abelian.cpp:AbelianBackend::permute_legs", "src/block_backend/numpy.cpp:NumpyBlockBackend::permute_axes"]}
{"id": "C46", "title": "Identity, trace, outer product and trivial legs of the abelian backend agree with dense", "statement": "eye is the identity for compose on both sides, trace_full is the sum of diagonal matrix elements and is cyclic under compose, outer multiplies entries of the two factors at the concatenated multi-index, and adding a trivial leg only inserts an index of value zero; none of the operations disturbs the block table.", "quantifier": "all block-sparse tensors, all legs, exact arithmetic over any (semi)ring", "why_tests_cant": "Block bookkeeping with every pattern of present and absent blocks; unbounded leg counts.", "anchors": ["src/backends/abelian.cpp:AbelianBackend::eye_data", "src/backends/abelian.cpp:AbelianBackend::trace_full", "src/backends/abelian.cpp:AbelianBackend::outer", "src/backends/abelian.cpp:AbelianBackend::add_trivial_leg"]}
{"id": "C47", "title": "Applying a mask selects slices, enlarging a leg pads with zeros", "statement": "For a tensor with an abelian symmetry and a mask on one of its legs: apply_mask returns a consistent, charge conserving tensor whose slice at index i of that leg (public basis order) is the slice of the tensor at the position of the i-th True; enlarge_leg returns the tensor whose slice at j is the slice of the argument at i if j is the position of the i-th True and zero if the mask is False at j; enlarge_leg after apply_mask is the projection; a mask applied to a diagonal tensor keeps the diagonal entries at the Trues.", "quantifier": "all masks, all block-sparse tensors with any number of legs and sectors, any leg in codomain or domain", "why_tests_cant": "All masks and tensors, including missing blocks and sectors that vanish completely.", "anchors": ["src/backends/abelian.cpp:AbelianBackend::_mask_contract", "src/backends/abelian.cpp:AbelianBackend::apply_mask_to_DiagonalTensor", "src/tensors/ops_algebra.cpp:apply_mask_py", "src/block_backend/numpy.cpp:enlarge_leg"]}
{"id": "C48", "title": "QR, LQ, SVD and eigh decompose every symmetric tensor", "statement": "For every tensor with an abelian symmetry from one leg to another (multi-leg tensors are combined first): the new leg of qr/lq/svd has exactly the common sectors of both sides with the smaller multiplicity and the requested duality; the factors are consistent charge conserving tensors; composing the factors gives the tensor back; Q and U are isometries and Vh a co-isometry on the whole new leg, also for common sectors in which the tensor has no block; eigh gives a unitary V and a diagonal W with V W V^dagger equal to the tensor. Assumed is only that the LAPACK call does its job for each block.", "quantifier": "all symmetric tensors with any sectors, multiplicities and missing blocks, all dualities of the three legs, all per-block decompositions that are valid", "why_tests_cant": "All tensors; the loop has a separate code path for each combination of dual legs and for missing blocks.", "anchors": ["src/backends/abelian.cpp:AbelianBackend::qr", "src/backends/abelian.cpp:AbelianBackend::lq", "src/backends/abelian.cpp:AbelianBackend::svd", "src/backends/abelian.cpp:AbelianBackend::eigh", "src/tensors/helpers.cpp:_decomposition_prepare"]}
{"id": "C49", "title": "Combining and splitting legs only renames basis vectors", "statement": "For every block-sparse tensor with an abelian symmetry and every choice of disjoint groups of neighbouring legs: after combine_legs the entry at a multi-index in which the indices of each group are fused (C style or F style as the pipe says, with reversed order of the legs in the domain) is the entry of the tensor before, for every multi-index; fusing indices is a bijection onto the multi-indices of the new legs; split_legs does the reverse; splitting what was combined and combining what was split give the tensor back; the data stay consistent and charge conserving.", "quantifier": "all tensors, all leg groups, all sectors, multiplicities, dualities and basis permutations, pipes in C style and F style, in the codomain and in the domain", "why_tests_cant": "All tensors and groupings; the slices of a block are found by a search in the sorted table of sector combinations.", "anchors": ["src/backends/abelian.cpp:AbelianBackend::combine_legs", "src/backends/abelian.cpp:AbelianBackend::split_legs", "src/block_backend/block_backend.cpp:BlockBackend::combine_legs", "src/symmetries/spaces.cpp:AbelianLegPipe"]}
{"id": "C50", "title": "GMRES minimises the residual over the Krylov space", "statement": "In exact arithmetic, for a real vector space or a Hermitian operator, every cycle of GMRES(A, x, b) that does not raise returns the vector of x + K (K the Krylov space of the initial residual, one dimension per step) with the smallest residual, the errors recorded are the relative residuals of these minimisers, residuals do not increase from cycle to cycle, and a residual of zero is reached when the Krylov space contains the solution.", "quantifier": "all operators, right hand sides, starting vectors and options; unbounded dimension, steps and restarts", "why_tests_cant": "Unbounded numbers of steps and dimensions; the tests use one random matrix.", "anchors": ["src/tensors/krylov_based.cpp:GMRES"]}
{"id": "C51", "title": "Lanczos returns the ground state of the Krylov space", "statement": "For a Hermitian operator and exact arithmetic, lanczos(H, psi0) raises exactly if the norm of psi0 is below the cutoff; otherwise the returned vector is normalised, lies in the Krylov space of the N steps and minimises the energy there, the returned energy is its energy; if that space is invariant the pair is an exact eigenpair; the result does not depend on N_cache nor on reortho, the energy lies between the lowest one and that of psi0; if the iteration ends before N_max an error bound by the tolerances holds; E_shift changes nothing.", "quantifier": "all Hermitian operators on all inner product spaces, all starting vectors, all options with N_cache >= 2, N_max >= 1 and positive cutoff", "why_tests_cant": "The number of steps and the dimension are unbounded; the vectors that were dropped from the cache are recomputed, on inputs tests are too small to reach.", "anchors": ["src/tensors/krylov_based.cpp:KrylovBased", "src/tensors/krylov_based.cpp:LanczosGroundState", "src/tensors/krylov_based.cpp:lanczos"]}
{"id": "C52", "title": "LanczosEvolution applies the exponential of the operator on the Krylov space", "statement": "For a Hermitian operator and exact arithmetic, LanczosEvolution(H, psi0).run(delta, normalize=False) returns exp(delta * H_K) psi0 with H_K the compression of H to the Krylov space of the N steps (equal to exp(delta * H) psi0 if that space is invariant), with normalize=True that vector divided by its norm; for imaginary delta the norm is conserved; the result depends neither on N_cache and reortho nor on earlier runs of the same object; stopping before N_max means an error criterion was met.", "quantifier": "all Hermitian operators on all complex inner product spaces, all starting vectors, complex time steps and histories of runs, all options as in C51", "why_tests_cant": "Unbounded numbers of steps, dimensions and histories.", "anchors": ["src/tensors/krylov_based.cpp:LanczosEvolution", "src/tensors/krylov_based.cpp:KrylovBased"]}
{"id": "C53", "title": "Arnoldi returns Ritz pairs, ArnoldiEvolution applies the exponential on the Krylov space", "statement": "In exact arithmetic and for every operator (not necessarily Hermitian): Arnoldi(H, psi0).run() returns min(N, num_ev) normalised vectors of the Krylov space which with the numbers returned at the same positions are eigenpairs of the compression of H to that space, exact eigenpairs if the space is invariant, sorted as requested by `which`, the first one extremal; E_shift is compensated; stopping early means an error criterion was met. ArnoldiEvolution(H, psi0).run(delta) returns exp(delta * H_K) psi0 (exp(delta * H) psi0 for an invariant space), independent of earlier runs of the object.", "quantifier": "all operators on all complex inner product spaces, all starting vectors, options, time steps and histories of runs", "why_tests_cant": "Unbounded dimension, steps and histories; non-normal operators.", "anchors": ["src/tensors/krylov_based.cpp:Arnoldi", "src/tensors/krylov_based.cpp:ArnoldiEvolution", "src/tensors/krylov_based.cpp:argsort_which"]}
{"id": "C54", "title": "scale_axis multiplies the entries with the diagonal of the diagonal tensor", "statement": "scale_axis(a, d, leg) multiplies every entry of a with the diagonal entry of d selected by the component on that leg (zero for missing blocks); it keeps the charge rule and consistent block data; compose(a, d) and compose(d, a) with a diagonal tensor, which are computed this way, are the matrix products with the diagonal matrix.", "quantifier": "all block-sparse tensors, diagonal tensors and legs of tensors of an abelian symmetry", "why_tests_cant": "Unbounded legs, sectors and blocks; duplicate values in the compared column.", "anchors": ["src/backends/abelian.cpp:scale_axis", "src/block_backend/numpy.cpp:scale_axis", "src/tensors/ops_algebra.cpp:scale_axis_py"]}
{"id": "C55", "title": "partial_trace sums over equal components of the paired legs", "statement": "For legs that pass the checks, partial_trace does not raise, and the entries of the result are the sums of the entries with the given components on the remaining legs and equal components on both legs of each pair, also if both legs are in the codomain or both in the domain; the result is a symmetric tensor on the remaining legs in their order; tracing all legs agrees with the full trace.", "quantifier": "all block-sparse tensors of an abelian symmetry, all lists of pairs of matching legs", "why_tests_cant": "Unbounded legs, pairs, sectors and blocks; several blocks contribute to one block of the result.", "anchors": ["src/backends/abelian.cpp:partial_trace", "src/block_backend/numpy.cpp:trace_partial", "src/tensors/ops_algebra.cpp:partial_trace_py"]}
{"id": "C56", "title": "tdot and partial_compose are contractions of the dense tensors", "statement": "For symmetric tensors of a group symmetry: the legs of tdot(a, b, legs1, legs2) are the other legs of a and then the other legs of b in their order, and its entries are the sums of products over all basis vectors with the given components on the other legs and equal components on the contracted legs, whether these are in the codomain or the domain; partial_compose(a, b, first) contracts the domain (codomain) of b with consecutive legs of the codomain (domain) of a and puts the codomain (domain) of b in their place; the results are consistent symmetric tensors; tdot raises only for invalid arguments or overflowing strides.", "quantifier": "all symmetric tensors of abelian group symmetries and all lists of matching legs", "why_tests_cant": "Unbounded legs, sectors and blocks, all permutations of legs.", "anchors": ["src/tensors/ops_algebra.cpp:tdot_py", "src/tensors/ops_algebra.cpp:partial_compose_py", "src/backends/abelian.cpp:partial_compose", "src/tensors/ops_legs.cpp:permute_legs_py", "src/tensors/helpers.cpp:_compose_SymmetricTensors"]}
{"id": "C57", "title": "exp of a symmetric operator is the matrix exponential", "statement": "For every operator (same legs in codomain and domain) with an abelian symmetry, exp returns the symmetric tensor whose dense matrix is the matrix exponential of the dense matrix; functions applied to block-diagonal square matrices act on the block of every sector, including the blocks that are zero and not stored.", "quantifier": "all symmetric operators with any number of legs, sectors, multiplicities and missing blocks", "why_tests_cant": "Unbounded numbers of legs, sectors and blocks, all patterns of missing blocks.", "anchors": ["src/tensors/ops_elementwise.cpp:exp", "src/backends/abelian.cpp:AbelianBackend::act_block_diagonal_square_matrix", "src/tensors/ops_legs.cpp:combine_legs_py"]}
{"id": "C58", "title": "almost_equal compares all entries with the tolerances", "statement": "almost_equal(a, b, rtol, atol) is true exactly if |a - b| <= atol + rtol |b| holds for all entries of the two tensors; the answer depends on the entries of the tensors only and not on which blocks happen to be stored.", "quantifier": "all pairs of block-sparse tensors of equal legs, all nonnegative tolerances", "why_tests_cant": "All patterns of blocks that are stored in one, both or none of the tensors.", "anchors": ["src/backends/abelian.cpp:AbelianBackend::almost_equal", "src/backends/fusion_tree_backend.cpp:FusionTreeBackend::almost_equal", "src/tensors/ops_algebra.cpp:almost_equal_py", "src/block_backend/numpy.cpp:allclose"]}
{"id": "C59", "title": "squeeze_legs removes trivial legs and nothing else", "statement": "Removing trivial one-dimensional legs of a tensor with an abelian symmetry keeps each entry, the new basis vectors are those of the tensor without the components of the removed legs, the result is a consistent charge conserving tensor, and removing the leg added by add_trivial_leg gives the tensor back.", "quantifier": "all symmetric tensors, all sets of trivial legs of codomain and domain", "why_tests_cant": "Unbounded numbers of legs and blocks; sortedness of the block table after removing columns is asserted by the code without a check.", "anchors": ["src/backends/abelian.cpp:AbelianBackend::squeeze_legs", "src/tensors/ops_legs.cpp:squeeze_legs_py", "src/block_backend/numpy.cpp:squeeze_axes"]}
{"id": "C60", "title": "tdot with a DiagonalTensor or an Identity is the contraction with the full matrix", "statement": "tdot of a symmetric tensor with a DiagonalTensor or an Identity, over one or two legs, gives the tensor with the other legs of the first tensor as codomain and the other legs of the second as domain whose entries are the contraction with the dense diagonal matrix, and a number if no legs are left.", "quantifier": "all symmetric tensors and diagonal tensors with an abelian group symmetry, all valid choices of contracted legs", "why_tests_cant": "Unbounded legs, sectors and blocks; the shortcuts of the code skip the generic contraction and are exercised by tests for few leg numbers.", "anchors": ["src/tensors/ops_algebra.cpp:tdot_py", "src/tensors/ops_algebra.cpp:scale_axis_py", "src/tensors/ops_algebra.cpp:partial_trace_py", "src/tensors/ops_legs.cpp:bend_legs_py"]}
{"id": "C61", "title": "Tensors of the fusion tree backend form the algebra of matrices per coupled sector", "statement": "For tensors of the fusion tree backend, compose, dagger, multiplication with a number, linear combination, the identity, zero tensors, block functions and functions of square matrices act as the corresponding operations on the family of matrices labelled by the coupled sectors, where a sector without stored block has the zero matrix; inner, trace and norm are the sums over the coupled sectors weighted with the quantum dimensions. All results have sorted, complete and consistent data.", "quantifier": "all symmetries, all (co)domains with any number of coupled sectors and multiplicities, all data with any subset of the blocks stored, all scalars", "why_tests_cant": "The stored blocks are any subset of the coupled sectors and the merge loops depend on which are missing; tests use few random patterns.", "anchors": ["src/backends/fusion_tree_backend.cpp:compose", "src/backends/fusion_tree_backend.cpp:linear_combination", "src/backends/fusion_tree_backend.cpp:inner", "src/backends/fusion_tree_backend.cpp:trace_full", "src/backends/fusion_tree_backend.cpp:act_block_diagonal_square_matrix", "src/backends/fusion_tree_backend.cpp:block_ind_from_coupled"]}
{"id": "C62", "title": "Decompositions of tensors of the fusion tree backend are decompositions in every coupled sector", "statement": "qr, lq, svd and eigh of a tensor of the fusion tree backend give consistent tensors whose product is the tensor in every coupled sector; the isometries are isometries in every coupled sector of the new leg, also where the tensor has no block; the new leg always exists and has the common coupled sectors with the smaller multiplicity.", "quantifier": "all symmetries, all (co)domains and multiplicities, all data with any subset of the blocks stored, all block decompositions that satisfy the defining equations of QR, SVD and eigenvalue decompositions", "why_tests_cant": "Which blocks are stored and which sectors are common is arbitrary; the running block index and the identity columns for missing blocks matter only for special patterns.", "anchors": ["src/backends/fusion_tree_backend.cpp:qr", "src/backends/fusion_tree_backend.cpp:lq", "src/backends/fusion_tree_backend.cpp:svd", "src/backends/fusion_tree_backend.cpp:eigh", "src/tensors/helpers.cpp:_decomposition_prepare"]}
{"id": "C63", "title": "Dense blocks of the fusion tree backend represent the tensors faithfully", "statement": "For a symmetry with fusion tensors, to_dense_block of the fusion tree backend turns linear combination, compose, dagger, inner, norm, trace and the identity into the corresponding operations on dense arrays; from_dense_block(to_dense_block(t)) is t; for any array a, from_dense_block(a) is the orthogonal projection onto the symmetric tensors, it raises exactly if the distance from this projection exceeds the tolerance, and never for an array that comes from a symmetric tensor.", "quantifier": "all symmetries with orthonormal fusion tensors (also non-abelian, with fusion multiplicities and dual legs), all numbers of legs, sectors and multiplicities, all subsets of stored blocks, all dense arrays, all tolerances", "why_tests_cant": "The layout of the blocks (trees, multiplicities, coupled sectors) and the fusion tensors of arbitrarily many legs have to fit; tests compare few random tensors numerically.", "anchors": ["src/backends/fusion_tree_backend.cpp:to_dense_block", "src/backends/fusion_tree_backend.cpp:from_dense_block", "src/backends/fusion_tree_backend.cpp:_get_forest_block_contribution", "src/backends/fusion_tree_backend.cpp:_add_forest_block_entries", "src/symmetries/trees.cpp:FusionTree::to_dense_block"]}
{"id": "C64", "title": "The operators of the predefined sites obey their defining algebras", "statement": "For every spin S the spin site's operators are hermitian, obey the su(2) commutation relations with S(S+1) as total spin, and have the documented ladder coefficients; for every q the clock operators satisfy X Z = exp(2 pi i/q) Z X and X^q = Z^q = 1; for every number of species and cutoffs, bosonic operators commute between species and lower/raise the occupation with sqrt(n), fermionic operators with the on-site Jordan-Wigner strings satisfy the canonical anticommutation relations; the state labels are a bijection onto the basis and the charge sectors of the leg are the charges of the labelled states.", "quantifier": "all spins, all clock orders, all numbers of species and all cutoffs per species", "why_tests_cant": "Unbounded spin, clock order, number of species and cutoffs; tests use the few smallest.", "anchors": ["src/models/degrees_of_freedom.cpp:SpinDOF", "src/models/degrees_of_freedom.cpp:ClockDOF", "src/models/degrees_of_freedom.cpp:OccupationDOF", "src/models/degrees_of_freedom.cpp:BosonicDOF", "src/models/degrees_of_freedom.cpp:FermionicDOF", "src/models/sites.cpp:SpinSite", "src/models/sites.cpp:SpinHalfFermionSite", "src/models/sites.cpp:ClockSite"]}
{"id": "C65", "title": "The predefined couplings are the documented operators", "statement": "spin_spin_coupling, spin_field_coupling, heisenberg_coupling, aklt_coupling, chiral_3spin_coupling, chemical_potential, onsite_interaction, density_density_interaction, hopping, pairing, onsite_pairing, clock_clock_coupling and clock_field_coupling return the operators of their documented formulas, with hermitian conjugate and Jordan-Wigner strings where documented; Heisenberg, AKLT and chiral couplings are SU(2) symmetric, AKLT on two spins one is twice the projector on total spin two plus a constant, hopping conserves the particle number.", "quantifier": "all spins, clock orders, numbers of species, cutoffs, prefactors, choices of species; all pairs of sites of the same kind", "why_tests_cant": "Unbounded spins, species and cutoffs, and pairs of inequivalent sites; tests use equal small sites.", "anchors": ["src/models/couplings.cpp:spin_spin_coupling", "src/models/couplings.cpp:aklt_coupling", "src/models/couplings.cpp:chiral_3spin_coupling", "src/models/couplings.cpp:quadratic_coupling_numpy", "src/models/couplings.cpp:hopping", "src/models/couplings.cpp:pairing", "src/models/couplings.cpp:density_density_interaction", "src/models/couplings.cpp:clock_clock_coupling"]}
{"id": "C66", "title": "Permuting the sites of a coupling", "statement": "Coupling.permute(permutation, levels) puts site permutation[k] at position k, with labels p0, p1, ... in order, using the adjacent exchanges of adjacent_transpositions. Each pair of sites whose order is reversed braids exactly once, no other pair braids, and of such a pair the site with the higher level passes over the other; if the levels of such a pair are missing or equal the call raises. adjacent_transpositions returns a shortest sequence of adjacent exchanges realising the permutation. Anything that is not a permutation of the sites is rejected.", "quantifier": "all numbers of sites, all permutations, all levels", "why_tests_cant": "Permutations of any length and all level assignments; tests use two and three sites.", "anchors": ["src/models/couplings.cpp:Coupling::permute", "src/models/couplings.cpp:adjacent_transpositions", "src/models/couplings.cpp:is_permutation"]}
{"id": "C67", "title": "A coupling is faithfully stored as a matrix product operator", "statement": "Coupling.from_tensor(op, sites) succeeds exactly for operators with the legs of the sites and labels p0, p1, ..., p1*, p0*, gives one tensor per site with matching virtual legs and trivial ends, and to_tensor() returns the operator again, leg order included. to_tensor() of any valid coupling is the matrix product of its site tensors. stretch_with_identities(all_sites, positions) is the operator at the given positions times the identity on every site in between; a wrong number of positions, positions that are not strictly ascending and mismatched legs are rejected.", "quantifier": "all numbers of sites, all dimensions, all operators, all lists of positions", "why_tests_cant": "Any number of sites and any gaps; the tests factorise two and three sites and compare numerically.", "anchors": ["src/models/couplings.cpp:Coupling::from_tensor", "src/models/couplings.cpp:Coupling::to_tensor", "src/models/couplings.cpp:Coupling::stretch_with_identities", "src/models/couplings.cpp:Coupling::test_sanity", "src/tensors/planar.cpp:planar_decomposition", "src/models/degrees_of_freedom.cpp:Site::identity_tensor"]}
{"id": "C68", "title": "Operators of a site by name", "statement": "Site.get_op(name) returns the product, in order, of the operators named by the space separated words of name and raises if one does not exist. multiply_op_names(names) is a name of the product of the named operators and multiply_operators returns this product. add_onsite_operator rejects existing names and names with spaces, and afterwards the new operator is available under its name and all names that were valid before still denote the same operators. A site constructed from the saved arguments of a site equals it. state_index accepts exactly known labels and integers from -dim to dim-1, wrapping negative ones.", "quantifier": "all operator registries, all names, all lists of names, all histories of added operators", "why_tests_cant": "Names are arbitrary strings and products arbitrarily long.", "anchors": ["src/models/degrees_of_freedom.cpp:Site::get_op", "src/models/degrees_of_freedom.cpp:Site::multiply_op_names", "src/models/degrees_of_freedom.cpp:Site::multiply_operators", "src/models/degrees_of_freedom.cpp:Site::add_onsite_operator", "src/models/degrees_of_freedom.cpp:Site::state_index", "src/models/degrees_of_freedom.cpp:Site::hdf5_init_kwargs"]}
{"id": "C69", "title": "HDF5 round trip of object graphs", "statement": "An object saved with save_to_hdf5 is loaded by load_from_hdf5 as an isomorphic object graph: the same types and values (numpy bools become bools), with references shared and cyclic exactly as before, whatever the order in which h5py lists names. This covers None, numbers, strings, arrays, lists, tuples, sets, dictionaries with simple and general keys, ranges and instances of exportable classes. Masked arrays keep their mask.", "quantifier": "all finite object graphs with arbitrary sharing and cycles, all orders of names in groups", "why_tests_cant": "Sharing and cycles give infinitely many shapes of object graphs; the memos of saver and loader must be consistent for all of them.", "anchors": ["cyten/tools/hdf5_io.py:Hdf5Saver", "cyten/tools/hdf5_io.py:Hdf5Loader", "cyten/tools/hdf5_io.py:Hdf5Exportable", "cyten/tools/hdf5_io.py:save_to_hdf5", "cyten/tools/hdf5_io.py:load_from_hdf5"]}
{"id": "C70", "title": "The backend without symmetry computes the dense operations", "statement": "Without symmetry, from_dense_block and to_dense_block are inverse, tensor[i,j,...] is the entry of the dense array, and linear combinations, eye, dagger, permute_legs, outer, compose, partial_compose, inner, trace, partial_trace, diagonal tensors, scale_axis, apply_mask, enlarge_leg, combine_legs, split_legs, qr and eigh act on the dense arrays (in the public bases of the legs) as the numpy operations of the same meaning, whatever the basis permutations of the legs.", "quantifier": "all numbers of legs, dimensions, basis permutations, dense arrays over any ring, all positions, groupings and orders of legs, all masks", "why_tests_cant": "Any number of legs, any basis permutation per leg and any grouping; tests draw a few random ones, mostly with trivial permutations.", "anchors": ["src/backends/no_symmetry.cpp:NoSymmetryBackend", "src/block_backend/block_backend.cpp:combine_legs", "src/block_backend/block_backend.cpp:split_legs", "src/symmetries/spaces.cpp:combined_basis_perm"]}
{"id": "C71", "title": "permute_legs decomposes every permutation into executable braids, bends and twists", "statement": "For every requested codomain and domain (each leg exactly once, with a direction for each leg that changes sides), the instructions computed for a permutation of legs of a tensor with a non-abelian or anyonic symmetry are executable (every braid and twist addresses existing legs, a bend finds a leg) and bring exactly the requested legs into the requested order. The computation never fails an assertion; it raises BraidChiralityUnspecifiedError only if the braid is not symmetric and two legs have missing or equal levels. Without bends to the left, two legs cross exactly once if the permutation reverses their order and not at all otherwise, and the leg with the larger level goes over.", "quantifier": "all numbers of legs, all permutations, all patterns of bends to the left and right, all levels, symmetric and non-symmetric braids", "why_tests_cant": "The number of permutations and bend patterns grows factorially; the check in the code runs only for the inputs of the tests and only compares the final order.", "anchors": ["src/backends/fusion_tree_permute.cpp:PermuteLegsInstructionEngine", "src/backends/fusion_tree_backend.cpp:permute_legs"]}
{"id": "C72", "title": "permute_legs with a non-abelian symmetry transposes the dense array", "statement": "For every tensor of the fusion tree backend over a symmetry with a group (bosonic braiding, fusion tensors and symbols consistent), every permutation of its legs that moves legs between codomain and domain, all levels and all directions of the bends, permute_legs succeeds, the result is a valid tensor, and its dense array is the transposed dense array: the entry with permuted indices is the old entry. The single moves do the same for fusion trees: braid exchanges two indices of the tree tensor, bend_leg moves an index between the trees of a pair.", "quantifier": "all fusion rules with multiplicities, all consistent symbols, all numbers of legs, sectors and multiplicities, all blocks, all permutations", "why_tests_cant": "The result combines F, R, C and B symbols over exponentially many fusion trees; tests compare few shapes of SU(2) tensors, with all levels equal.", "anchors": ["src/backends/fusion_tree_mapping.cpp:TreePairMapping::transform_tensor", "src/backends/fusion_tree_mapping.cpp:TreePairMapping::from_instructions", "src/backends/fusion_tree_backend.cpp:permute_legs", "src/symmetries/trees.cpp:FusionTree::braid", "src/symmetries/trees.cpp:FusionTree::bend_leg"]}
{"id": "C73", "title": "permuting legs within codomain and domain with a non-abelian symmetry transposes the dense array", "statement": "For every tensor of the fusion tree backend over a symmetry with a group (bosonic braiding), every permutation of its legs that keeps each leg in its codomain or domain, and all levels, permute_legs (which here uses two independent mappings of splitting and of fusion trees and permutes block rows and columns in turn) succeeds, the result is a valid tensor and its dense array is the transposed dense array.", "quantifier": "all fusion rules with multiplicities, all consistent symbols, all numbers of legs, sectors and multiplicities, all blocks, all permutations of the codomain and of the domain", "why_tests_cant": "The linear combinations of row and column slices run over exponentially many fusion trees; tests compare few shapes.", "anchors": ["src/backends/fusion_tree_mapping.cpp:FactorizedTreeMapping::transform_tensor", "src/backends/fusion_tree_mapping.cpp:FactorizedTreeMapping::from_instructions", "src/backends/fusion_tree_mapping.cpp:transform_splitting_trees", "src/backends/fusion_tree_backend.cpp:apply_instructions"]}
{"id": "C74", "title": "planar bipartitions and planar contractions are recognised exactly", "statement": "parse_leg_bipartition accepts a list of legs iff they are distinct, valid and contiguous around the tensor, and returns these and the other legs in the order around the tensor. planar_contraction accepts only contractions whose pairs of legs can be connected without crossings, and it accepts every such contraction (in at least one of the two orders of the tensors), with the open legs returned in the order around the result.", "quantifier": "all numbers of legs, all lists of legs of both tensors in all orders", "why_tests_cant": "Contiguity around a circle has many cases (wrapping at either end, all legs, no legs); tests use a few lists.", "anchors": ["src/tensors/planar.cpp:parse_leg_bipartition", "src/tensors/planar.cpp:planar_contraction"]}
{"id": "C75", "title": "planar permutations of legs never need a braid", "statement": "For every tensor and every planar permutation of its legs (the new codomain from left to right followed by the new domain from right to left are the legs once around the tensor), specified by the codomain, the domain or both, planar_permute_legs succeeds: none of its internal consistency checks fails, none of its calls of permute_legs (without levels) raises a braid chirality error, for any symmetry, and the legs of the result are the requested ones. Permutations that are not planar are rejected.", "quantifier": "all numbers of legs of codomain and domain, all cyclic permutations and all bipartitions, all ways to specify them", "why_tests_cant": "There are eleven branches with boundary cases (legs that wind around, no leg that stays, empty codomain); tests enumerate small tensors only.", "anchors": ["src/tensors/planar.cpp:planar_permute_legs", "src/backends/fusion_tree_permute.cpp:LegPermutationEngine", "src/tensors/ops_legs.cpp:permute_legs_py"]}
{"id": "C76", "title": "planar_contraction contracts the requested pairs of legs", "statement": "planar_contraction(tensor1, tensor2, legs1, legs2) bends the legs of both tensors and composes them such that exactly the requested pairs of legs are contracted, and the legs of the result are the open legs of both tensors, in their order around the diagram.", "quantifier": "all numbers of legs in codomain and domain of both tensors, all planar contractions", "why_tests_cant": "There are four ways to bend the tensors, each with several cases in the helper; tests use a few tensors with legs in codomain and domain.", "anchors": ["src/tensors/planar.cpp:planar_contraction", "src/tensors/planar.cpp:_planar_contraction_helper", "src/tensors/ops_algebra.cpp:partial_compose_py"]}
{"id": "C77", "title": "planar_partial_trace accepts exactly the planar traces", "statement": "planar_partial_trace accepts a list of pairs of legs iff all legs are distinct, no two loops cross and every loop can be closed around traced legs only, over the right or over the left side. With the fusion tree backend, the legs are first bent such that every loop can be closed over the right side; this never fails, and the traced pairs are the given ones.", "quantifier": "all numbers of legs of codomain and domain, all lists of pairs", "why_tests_cant": "The number of possible pairings grows exponentially; loops over the left side, nested loops and winding bends are rare in tests.", "anchors": ["src/tensors/planar.cpp:planar_partial_trace", "src/tensors/ops_algebra.cpp:partial_trace_py"]}
{"id": "C78", "title": "ContractionTree.from_contraction_order builds a tree iff the order connects all tensors", "statement": "ContractionTree.from_contraction_order(order) returns a tree iff at least one pair of the order consists of two different tensors and any two tensors of such pairs are connected by a chain of pairs; otherwise it raises. The leaves of the tree are exactly these tensors, each once, the number of inner nodes is one less than the number of leaves, and each inner node contracts two parts that are connected by a pair of the order.", "quantifier": "all lists of pairs of names, with repetitions and traces", "why_tests_cant": "The parts are merged in an order that depends on the whole history of pairs; tests use a few orders of up to four tensors.", "anchors": ["src/tensors/planar.cpp:ContractionTree::from_contraction_order", "src/tensors/planar.cpp:ContractionTreeNode::fuse", "src/tensors/planar.cpp:ContractionTree::num_inner_nodes"]}
{"id": "C79", "title": "An accepted PlanarDiagram contracts exactly the pairs of its definition", "statement": "If PlanarDiagram(tensors, definition, order) is accepted, every leg of every tensor occurs exactly once in the definition, evaluating the diagram connects exactly the pairs of legs given in the definition (traces and contractions, for any order of contractions), and the legs of the result are exactly the open legs, with the labels given in the definition.", "quantifier": "all diagrams: any number of tensors and legs, any definition, any contraction order with distinct leaves", "why_tests_cant": "Contractions refer to intermediate results by name, which change during the evaluation; tests use a few diagrams.", "anchors": ["src/tensors/planar.cpp:PlanarDiagram::verify_diagram", "src/tensors/planar.cpp:PlanarDiagram::evaluate", "src/tensors/planar.cpp:PlanarDiagram::_do_contractions", "src/tensors/planar.cpp:PlanarDiagram::_do_traces", "src/tensors/planar.cpp:PlanarDiagram::_extract_result", "src/tensors/planar.cpp:ContractionTreeNode::pop_contraction"]}
{"id": "C80", "title": "add_tensor and remove_tensor change only the legs at the tensor", "statement": "PlanarDiagram.add_tensor keeps all connections of the diagram, adds those of extra_definition and removes exactly the open legs that are connected with the new tensor; remove_tensor keeps all connections and open legs of the other tensors and turns every leg that was connected with the removed tensor into an open leg, labelled as in extra_definition or with its own label. No leg is lost or duplicated. Removing the added tensor restores the definition up to the order of instructions.", "quantifier": "all definitions and extra definitions", "why_tests_cant": "The definition is edited by positions and by names; tests edit one or two diagrams.", "anchors": ["src/tensors/planar.cpp:PlanarDiagram::add_tensor", "src/tensors/planar.cpp:PlanarDiagram::remove_tensor", "src/tensors/planar.cpp:PlanarDiagram::_find_open_leg_definition"]}
{"id": "C81", "title": "The basis of a direct sum", "statement": "For an abelian symmetry with one-dimensional sectors, basis vector j of summand k of direct_sum is basis vector (dimensions of the previous summands) + j of the sum, with the same sector, and inside the block of the sector it stands behind the vectors of the previous summands in this sector.", "quantifier": "all lists of valid elementary spaces with equal duality, all basis permutations, all summands and basis vectors", "why_tests_cant": "The sum sorts and merges sectors and composes basis permutations; tests compare a few spaces.", "anchors": ["src/symmetries/spaces.cpp:ElementarySpace::direct_sum"]}
{"id": "C82", "title": "tensor_from_grid builds the block matrix", "statement": "tensor_from_grid of a consistent grid (abelian backend) succeeds and returns a symmetric tensor whose first codomain leg is the direct sum of the row legs, whose last domain leg is the direct sum of the column legs, and whose dense array is the block matrix of the dense arrays of the grid, with zeros for None. A grid whose legs do not fit is rejected (false in the code: the legs of the tensors within a row or column are not compared, see C82_row_legs_unchecked).", "quantifier": "all grids with at least one tensor in each row and column, any number of further legs, all sectors, multiplicities and basis permutations", "why_tests_cant": "The blocks are placed by slices of multiplicities per sector, found independently of the basis permutations of the summed legs; tests use few grids.", "anchors": ["src/tensors/constructors.cpp:tensor_from_grid", "src/backends/abelian.cpp:AbelianBackend::from_grid"]}
{"id": "C83", "title": "The truncated singular value decomposition approximates with the reported error", "statement": "truncated_svd of a nonzero symmetric tensor (abelian backend) returns isometries U and Vh and a diagonal S through a common leg of dimension between 1 and chi_max, and the error reported is the relative 2-norm error norm(a - U S Vh / renormalize) / norm(a) (false in the code: err is the square of it; proved: the squared relative error is err, and the documented claim holds exactly if err = 0).", "quantifier": "all nonzero symmetric tensors between two legs, all block decompositions that meet the specification of an SVD, all argsort functions, all options with chi_max >= 1, all normalize_to != 0", "why_tests_cant": "The selected mask, its small leg with basis permutation, and the contraction of three tensors with it have to fit together in every sector; the tests use only err close to 0, where a value and its square agree.", "anchors": ["src/tensors/decompositions.cpp:truncated_svd_py", "src/tensors/decompositions.cpp:svd_apply_mask_py", "src/backends/abelian.cpp:AbelianBackend::truncate_singular_values"]}
{"id": "C84", "title": "Operations on charged tensors act on the dense tensors they represent", "statement": "A ChargedTensor (abelian backend) stands for its invariant part with the charge leg contracted with the charged state. to_dense_block, element access, from_dense_block, norm, linear_combination, scalar multiplication, almost_equal and inner agree with the corresponding operations on the dense tensors. (False in the code for: multiplying a complex number to a tensor with a real invariant part, which drops the imaginary parts; almost_equal, which multiplies each invariant part with the state of the other tensor; inner(symmetric, charged) with a complex state, which conjugates the state.)", "quantifier": "all abelian group symmetries, all charged tensors with consistent data, all states, all legs with basis permutations, all multi-indices and wrapped negative indices, all scalars and dtypes real or complex", "why_tests_cant": "The state lives in the public basis order while the blocks live in the internal order; the tests use real one-dimensional states, for which the three defects cannot be seen.", "anchors": ["src/tensors/charged_tensor.cpp:ChargedTensor::ChargedTensor", "src/tensors/charged_tensor.cpp:to_dense_block", "src/tensors/charged_tensor.cpp:_get_item", "src/tensors/ops_algebra.cpp:inner_py", "src/tensors/ops_algebra.cpp:almost_equal_py", "src/tensors/ops_algebra.cpp:linear_combination_py", "src/tensors/ops_algebra.cpp:scalar_multiply_py", "src/tensors/ops_algebra.cpp:norm_py"]}
{"id": "C85", "title": "Outer products with the fusion tree backend", "statement": "FusionTree.insert_at and FusionTree.outer give linear combinations of valid, distinct trees that represent the contraction of the trees' tensors, and FusionTreeBackend outer(a, b) gives a tensor that passes test_sanity and whose dense block is the outer product of the dense blocks of a and b. (False in the code when a fusion multiplicity N(a, b, c) is larger than one: spurious terms appear; and insert_at of an empty tree at the last leg gives an invalid tree.)", "quantifier": "all symmetries with fusion tensors, F symbols and fusion multiplicities (at most one for the tensors), all trees, all tensors with any number of legs, sectors, multiplicities and blocks", "why_tests_cant": "The result is a double sum over tree pairs with F symbols whose terms are added into slices of blocks; symmetries with fusion multiplicities are not in the test matrix for outer products of tensors with dense blocks.", "anchors": ["src/symmetries/trees.cpp:FusionTree::insert_at", "src/symmetries/trees.cpp:FusionTree::outer", "src/backends/fusion_tree_backend.cpp:FusionTreeBackend::outer", "src/backends/fusion_tree_backend.cpp:tree_block_iter"]}
{"id": "C86", "title": "The SU(3)_3 anyon category", "statement": "The symbols of SU3_3AnyonCategory form a unitary ribbon category with fusion multiplicities: the fusion rules are a commutative ring with duals and Frobenius reciprocity, F moves are unitary and satisfy the triangle and pentagon equations, R symbols are phases and satisfy both hexagon equations, C symbols are the braids given by F and R and are unitary, B symbols satisfy the normalisation and snake equations, quantum dimensions are a character, twists satisfy the balancing equation, and every symbol is an array with one axis per vertex whose extent is the multiplicity.", "quantifier": "all sectors and all multiplicity indices, with the exact real and complex numbers the tables stand for", "why_tests_cant": "The tests compare floating point numbers for random samples of labels; the identities involve sums over intermediate sectors and multiplicity labels.", "anchors": ["src/symmetries/factors/su3_3_anyon_category.cpp:SU3_3AnyonCategory", "src/symmetries/fusion_symbol.cpp:FusionSymbol", "src/symmetries/base_symmetry.cpp:BaseSymmetry::_b_symbol", "src/symmetries/base_symmetry.cpp:BaseSymmetry::topological_twist"]}
{"id": "C87", "title": "Products of symmetries with fusion multiplicities", "statement": "A Symmetry built from several factors, any of which may have fusion multiplicities, is again a unitary ribbon category: its multiplicities are the products of the factors' multiplicities, every symbol is an array with one axis per vertex whose extent is the product's multiplicity and no index computation fails, the multiplicity label of a vertex enumerates the factors' labels with the last factor fastest and the symbol is the product of the factors' symbols at these labels, F moves are unitary and satisfy triangle and pentagon, R and C symbols satisfy both hexagons, quantum dimensions are a character, and the twists, B symbols and Frobenius-Schur indicators the generic code derives for the product satisfy the balancing, snake and normalisation equations.", "quantifier": "all nonempty lists of factors of any multiplicities, all sectors and multiplicity labels", "why_tests_cant": "The tests evaluate floating point symbols for a few products of small factors and sample sectors; the claim is about every list of factors, with sums over all intermediate sectors and labels.", "anchors": ["src/symmetries/symmetry.cpp:Symmetry::_f_symbol", "src/symmetries/symmetry.cpp:Symmetry::_n_symbol", "src/symmetries/symmetry.cpp:Symmetry::qdim", "src/symmetries/fusion_symbol.cpp:FusionSymbol::kron", "src/symmetries/base_symmetry.cpp:BaseSymmetry::_c_symbol", "src/symmetries/base_symmetry.cpp:BaseSymmetry::_b_symbol"]}
{"id": "C88", "title": "The pseudo-inverse of a tensor", "statement": "pinv(tensor, cutoff) is the Moore-Penrose inverse of the tensor whenever no nonzero singular value lies below the cutoff, neither absolutely nor relative to the norm of the tensor; in general it is the Moore-Penrose inverse of the tensor that is left after truncated_svd with svd_min = cutoff and after setting the remaining singular values below the cutoff to zero. In particular a tensor all of whose singular values lie below the cutoff gives zero, however well conditioned it is. For a diagonal tensor the result is the pseudo-inverse if no nonzero entry is below the cutoff.", "quantifier": "all nonzero symmetric tensors between two legs, all block decompositions, all positive cutoffs, every argsort", "why_tests_cant": "The Moore-Penrose equations for every block structure, every spectrum and every cutoff; a test evaluates a few random well-conditioned tensors (there is none for pinv in the repository).", "anchors": ["src/tensors/ops_algebra.cpp:pinv_py", "src/tensors/decompositions.cpp:truncated_svd_py", "src/block_backend/numpy.cpp:NumpyBlockBackend::cutoff_inverse", "src/tensors/ops_elementwise.cpp:cutoff_inverse"]}
{"id": "C89", "title": "Scaling a leg in the fusion tree backend", "statement": "scale_axis(tensor, diagonal, leg) of the fusion tree backend never raises for compatible arguments and multiplies every entry of the tensor, as a dense array, with the number of the diagonal tensor that belongs to the index of the leg (zero where the diagonal tensor stores no block); the block structure stays consistent.", "quantifier": "all fusion rules (including non-abelian ones with several trees), all numbers of legs, all multiplicities, all sets of stored blocks of both arguments, legs in the codomain and in the domain", "why_tests_cant": "The row of an entry depends on the enumeration of all uncoupled sectors, trees and multiplicities; the reshape that exposes the leg has to be right for every one of these structures. Tests use a few random legs.", "anchors": ["src/backends/fusion_tree_backend.cpp:FusionTreeBackend::scale_axis", "src/tensors/ops_algebra.cpp:scale_axis_py"]}
{"id": "C90", "title": "Masks applied to a leg in the fusion tree backend", "statement": "Contracting a leg of a tensor with the large leg of a mask (apply_mask, truncation of decompositions) keeps exactly the entries whose index the mask keeps: for every fusion tree, every sector and every kept index the result has the entry of the tensor for the same tree and the index of the large leg. Contracting with the small leg (enlarge_leg) embeds: kept indices carry the old entries, the others zero. Blocks, block numbers and shapes of the result belong to the new leg.", "quantifier": "all fusion rules, all numbers of legs, all masks including those that drop whole sectors or coupled sectors, legs in the domain and in the codomain, all sets of stored blocks", "why_tests_cant": "The reshape must be right for every forest of fusion trees and every multiplicity; the bug for codomain legs is invisible unless some forest has at least two trees and the mask is not a prefix of the data.", "anchors": ["src/backends/fusion_tree_backend.cpp:FusionTreeBackend::_mask_contract", "src/backends/fusion_tree_backend.cpp:FusionTreeBackend::mask_contract_large_leg", "src/backends/fusion_tree_backend.cpp:FusionTreeBackend::mask_contract_small_leg"]}
{"id": "C91", "title": "Diagonal tensors of the fusion tree backend", "statement": "A DiagonalTensor with the fusion tree backend assigns a number to every sector and every multiplicity index of its leg, missing blocks being zero. Elementwise functions (with and without the promise that zero maps to zero), binary functions (both settings of partial_zero_is_zero), all, any, max, trace (weighted with quantum dimensions), transpose, conversion from and to a full tensor, application of a mask, indexing, and conversion from and to a dense vector act on these numbers exactly as named; from_block refuses exactly the vectors that are not symmetric, the round trips through dense vectors and full tensors lose nothing.", "quantifier": "all symmetries (any sector dimensions), all legs, also dual legs whose sectors are not sorted, all multiplicities, all sets of stored blocks", "why_tests_cant": "Missing blocks, unsorted sectors of dual legs and sectors of dimension above one interact; every loop walks over two sorted lists at once and must be right for every pattern of missing blocks.", "anchors": ["src/backends/fusion_tree_backend.cpp:FusionTreeBackend::diagonal_elementwise_binary", "src/backends/fusion_tree_backend.cpp:FusionTreeBackend::diagonal_elementwise_unary", "src/backends/fusion_tree_backend.cpp:FusionTreeBackend::diagonal_from_block", "src/backends/fusion_tree_backend.cpp:FusionTreeBackend::diagonal_tensor_to_block", "src/backends/fusion_tree_backend.cpp:FusionTreeBackend::diagonal_transpose", "src/backends/fusion_tree_backend.cpp:FusionTreeBackend::apply_mask_to_DiagonalTensor", "src/backends/fusion_tree_backend.cpp:FusionTreeBackend::get_element_diagonal"]}
{"id": "C92", "title": "Masks of the fusion tree backend are subsets of basis vectors", "statement": "A Mask with the fusion tree backend keeps, of every sector of its large leg, a set of multiplicity indices. from_DiagonalTensor and from_block_mask keep exactly the indices where the input is true; to a dense vector, to a diagonal tensor, dagger, transpose and mask[i, j] give exactly this set; logical operations (~, &, |, ^, ==) act on it elementwise. The new small leg has exactly the sectors of which something is kept, with the number of kept indices as multiplicity, and the stored data are consistent with both legs.", "quantifier": "all symmetries (any sector dimensions), all legs including dual legs whose sectors are not sorted, all multiplicities, all masks and all functions of booleans", "why_tests_cant": "Numbers of blocks refer to the sorted sectors of the tensor product, numbers of sectors of the leg to its own order; the two agree on legs that are not dual, so a confusion shows only on dual legs with sectors that are not self-dual.", "anchors": ["src/backends/fusion_tree_backend.cpp:FusionTreeBackend::diagonal_to_mask", "src/backends/fusion_tree_backend.cpp:FusionTreeBackend::mask_binary_operand", "src/backends/fusion_tree_backend.cpp:FusionTreeBackend::mask_unary_operand", "src/backends/fusion_tree_backend.cpp:FusionTreeBackend::mask_from_block", "src/backends/fusion_tree_backend.cpp:FusionTreeBackend::mask_to_block", "src/backends/fusion_tree_backend.cpp:FusionTreeBackend::mask_transpose", "src/backends/fusion_tree_backend.cpp:FusionTreeBackend::get_element_mask"]}
{"id": "C93", "title": "Truncation of singular values with the fusion tree backend", "statement": "truncate_singular_values of a diagonal tensor with the fusion tree backend keeps at least one and at most chi_max of the values of all sectors together, and never drops a value whose contribution qdim(sector) * value^2 to the squared norm is larger than that of a kept one. The mask keeps exactly these values, its small leg has their sectors with the number of kept values as multiplicity, with the duality of the leg. The returned error and norm are the contributions of the dropped and the kept values; for the singular values of a tensor divided by its norm they add up to 1, and the error times the squared norm is the squared distance of the tensor from U S Vh restricted to the kept values. truncated_svd without normalize_to contracts U, S and Vh with the mask: all steps succeed, the new leg has between 1 and chi_max states, the new U and Vh are isometries, and the distance of the tensor from the new U S Vh is the returned error.", "quantifier": "all symmetries and quantum dimensions, all legs including dual legs, all multiplicities, missing blocks, all options with chi_max >= 1, all tensors and decompositions of their blocks", "why_tests_cant": "The flat list of values runs over sorted sectors with zeros for missing blocks, and is cut into slices again; a shifted slice or a quantum dimension of the wrong sector shows only for some distributions of values over sectors.", "anchors": ["src/backends/fusion_tree_backend.cpp:FusionTreeBackend::truncate_singular_values", "src/backends/tensor_backend.cpp:TensorBackend::_truncate_singular_values_selection", "src/tensors/decompositions.cpp:truncated_svd_py"]}
