# Design: a Lean 4 model of tenpy/cyten

The code base is C++ (`/repo/src`, `/repo/include/cyten`) behind pybind, plus thin Python
(`/repo/cyten`). The model is a shallow embedding in Lean 4: one Lean function per C++/Python
function, lists for vectors and arrays, `Option` (or an outcome type) for exceptions, loops as
structural recursion or folds with explicit fuel where the C++ loop has a counter. Nothing of the
code is executed; the model was written by reading it.

## Layout

* `lean/Verif/Model/*.lean` — the model of the code. Every definition cites the file and lines of
  `/repo` it models and says where it simplifies.
* `lean/Verif/Lemmas/*.lean` — helper lemmas, loop invariants.
* `lean/Verif/Props/*.lean` — the specifications (at the top of each file, in terms of dense arrays,
  matrices, inner product spaces, counting, …, not of model helpers), the property theorems `Cnn_…`
  and, beside them, `example`s or theorems showing that non-trivial cases meet the hypotheses.
* `properties.jsonl`, `MANIFEST.json` — generated by `meta/props.py` and `meta/manifest.py`.
* `seeded/LOG.jsonl` — wrong programs the theorems were tested against.

## Trusted base

* **Kernel.** Lean 4.33.0's kernel. No `native_decide`, no `bv_decide`, no added axioms. Every
  theorem depends on a subset of `propext`, `Classical.choice`, `Quot.sound` (vcheck replays all
  modules). Facts about finite tables (e.g. the Fibonacci pentagon over ℚ(ζ₁₀, √(1/φ))) are
  evaluated by the kernel (`decide`, `decide +kernel`), the results are then transported to ℂ.
* **Faithfulness of the model**, i.e. the hand translation C++ → Lean. Aids: line citations
  (checked for existence of the cited functions), mutation tests (below), and that the model is
  precise enough to find defects: more than twenty of them are theorems (list below).
* **Exact arithmetic.** `float64`/`complex128` are ℝ/ℂ, or elements of an arbitrary (semi)ring or
  ordered field where no analysis is needed. Rounding, NaN, infinities and overflow of floats are
  not modelled, except NaN in the configuration (C16). A division by zero in the Krylov methods is
  `none`.
* **Integers.** `int64` sizes and indices are unbounded ℕ/ℤ (the overflow guard of `make_stride` is
  C44). Charges are `int16` *with* wrap-around (C11, C12, C43).
* **Library calls** are parameters with a specification as hypothesis, and the specifications are
  proved satisfiable: `numpy.argsort` (stable argsort / any argsort), `numpy.linalg.eigh`
  (`EighSpec`, `exists_eighSpec`), `numpy.linalg.eig`/`solve` (`EigSpec`, `SolveSpec`,
  `SolveComplete`), block-wise LAPACK decompositions (C48), `std::sort` with an arbitrary order of
  ties, `std::stoll`/`std::stod` of configuration strings.
* `std::unordered_map`/`dict` are duplicate-free association lists in unspecified order; `std::map`
  and `std::set` are sorted lists.
* Devices, dtypes (except C17), logging, threads, pybind conversions and memory management are not
  modelled. C++ `assert`s count as failures (the project is built in Debug mode).

## What is modelled, property by property

| id | code | proof method |
|----|------|--------------|
| C01–C03 | `fusion_trees` (all_trees, size, index) in `trees.cpp` over any fusion rule with duplicate-free outcome lists and multiplicities | induction over the uncoupled list |
| C04, C05 | `FusionTree` surgery: insert, split, extended, split_bottom_vertex, `test_sanity` | list algebra, invariants |
| C06 | `braid` as finite linear combinations of trees; C symbols with unitarity as hypothesis, discharged for every unitary braided category (`CatBraid`) | finite sums, induction over braid words |
| C07, C11 | all abelian factors and pointed anyon categories (`factors/*.cpp`), int16 wrap-around | modular arithmetic, roots of unity |
| C08, C09, C42 | Fibonacci and Ising categories, tables as in the code | kernel evaluation over exact number fields, transport to ℂ; Ising for all odd ν |
| C10 | `Symmetry` products (`symmetry.cpp`): concatenated sectors, product symbols | induction over factors |
| C12, C43 | SU(2) and SU(2)_k fusion, dimensions, R symbols, twists (not F: numerical CG data / q-6j) | arithmetic, q-numbers |
| C13–C15 | label strings and `LabelledLegs` (`labels.cpp`) | list induction; counterexamples |
| C16 | `config.cpp` as a state machine incl. failing updates and context managers | invariant over operation lists |
| C17 | dtype promotion | lattice of the finite enum, fold induction |
| C18, C19 | singular value truncation, `truncated_svd` normalisation | list induction over ordered fields |
| C20, C41 | sorted tables, merge iterations (`sector_array.cpp`, `block_inds.cpp`, `abelian.cpp`) | induction on two sorted lists |
| C21, C22, C44 | permutation, stride and grid helpers (`tools/misc.py`) | induction, mixed radix |
| C23, C24 | cost polynomials, sparse tree mappings | finite maps, ordered monomials |
| C25–C29, C40 | `ElementarySpace`, `LegPipe`, `TensorProduct` (`spaces.cpp`) | sorting lemmas, counting |
| C30 | tree-block and forest-block slices | prefix sums |
| C31 | `AbelianLegPipe` | mixed radix, bijection |
| C32–C35, C45, C46 | `AbelianBackend` on block-sparse data: linear_combination, mul, dagger, permute_legs, inner, norm, outer, compose (all branches), eye, trace, add_trivial_leg, dense conversions | refinement to dense arrays `multi-index → K` |
| C36, C37, C47 | `DiagonalTensor`, `Mask`, contraction with masks | refinement to vectors of diagonal entries / sets of basis vectors |
| C48 | qr, lq, svd, eigh of the abelian backend | blockwise decompositions glued together |
| C54, C55, C56 | scale_axis, partial_trace, partial_compose, tdot, permute_legs with bent legs | refinement to dense arrays, sums over bases with fixed components, charges in an abelian group |
| C57, C58, C59 | act_block_diagonal_square_matrix, exp, almost_equal, squeeze_legs of the abelian backend | conjugation of the matrix exponential by basis bijections; per-row case analysis of the merge of two sorted tables; charge fold without units. exp on two or more legs and the representation independence of almost_equal are false of the code: both are proved as negations with witnesses |
| C60 | the branches of tdot for DiagonalTensor and Identity (abelian backend, group symmetry) | contraction with the dense diagonal matrix, through C54 (scale_axis), C55 (partial_trace) and C45 (permute_legs). One contracted leg with the diagonal tensor first, or with the Identity second, and the full contraction of an Identity with a matrix are false of the code: negations with witnesses |
| C61 | `Model/FTData.lean`: the data of the fusion tree backend (rows of sector numbers with matrices) and the functions that act block by block | a tensor is its family of Mathlib matrices per coupled sector (zero where no block is stored); the merge loops visit exactly the common (or all) sectors, by induction on the rounds; lookup by bisection. Scalars are from a ring: the conversion of results to the dtype of the first tensor is not modelled |
| C62 | `Model/FTDecomp.lean`: qr, lq, svd, eigh of the fusion tree backend, with the block decompositions as arguments | the rounds of the loops are the common sectors in order with the block of the tensor or none (induction on the list of common sectors); the factors per coupled sector as Mathlib matrices; the new leg by C25 |
| C63 | `Model/FTDense.lean`: fusion tree tensors, iteration over uncoupled sectors with slices, forest and tree blocks, `to_dense_block`, `from_dense_block` with tolerance, in the internal basis order and without leg pipes; fusion tensors are a parameter that satisfies the documented orthonormality | tree tensors are orthonormal by induction over the vertices; the visited tree blocks tile the rows (C30); every row and state of the coupled sector gives an orthonormal vector, so the dense block is `Vᴴ (⊕ M_c ⊗ 1) V` with `V Vᴴ = 1`; everything else is matrix algebra |
| C64 | `Model/Sites.lean`: the arrays of spin, clock, boson and fermion degrees of freedom, the Kronecker products over the species, occupation tables, labels and sectors of the predefined sites; square roots and phases are real/complex numbers instead of floats | Mathlib complex matrices: products of Kronecker factors by induction over the species; mixed radix digits of the state index |
| C65 | `Model/Couplings.lean`: the dense blocks of the predefined couplings (axes `[p0, p1, p1*, p0*]`), exact numbers | Mathlib Kronecker products; vector operators and their commutators; integer matrices with kernel evaluation only for the fixed spins 1/2 and 1 of the documented AKLT remarks. hopping and pairing between inequivalent sites are false of the code: negation with a witness |
| C66 | `Model/CouplingPermute.lean`: `is_permutation`, `adjacent_transpositions`, the loop of `Coupling.permute` on leg labels, sites and levels with a log of the braids | induction on the list of exchanges; braids = inversions; minimality by counting inversions. A permutation of the wrong length is accepted: negation with a witness |
| C67 | `Model/CouplingMpo.lean`: `from_tensor`, `to_tensor`, `stretch_with_identities`, the leg permutations of `planar_decomposition`, dense arrays with labelled legs; `qr` is a parameter with the law that the factors multiply to the matrix | induction over the sites; leg order followed through every permutation |
| C68 | `Model/SiteOps.lean`: operator registry of a site, names as lists of characters, operators in any monoid | words of a name by induction; invariant of reachable sites. The empty string as a name breaks `multiply_op_names`: negation with a witness |
| C69 | `Model/Hdf5.lean`: saver and loader on a heap of objects and a file of nodes with links, both with their memos; `Model/Hdf5Misc.lean`: masked arrays | induction on the number of objects not yet in the memo; invariants of saver (what is memorised is stored) and loader (what is memorised matches, except the open containers). Empty keys, recursive tuples, ignored items, fully unmasked arrays equal to the fill value: negations with witnesses |
| C70 | `Model/NoSym.lean`: every operation of `no_symmetry.cpp` on a block plus the legs of the result | the public index of a leg is an relabelling (`intl`), each operation commutes with it; sums over the grid are reindexed; pipes by C21, masks by the ranks of the kept indices |
| C71 | `Model/PermuteEngine.lean`: the engine with its state, the five steps, `verify` as an interpreter of instructions that also records the crossings | ghost arrangement of the legs related to the state (`Rel`), preserved by `swap`, `bend`, `move_leg`; each step has a shape lemma; crossings by an induction over the order of pairs. The chirality of the crossings that realise a bend to the left is not specified |
| C72 | `Model/TreePairMapping.lean`: `braid`, `bend_leg`, `twist`, `TreePairMapping` with its compositions, `transform_tensor`, `apply_instructions`, `permute_legs` for mixing permutations; the symbols are data (`Topo`) with the laws of a group symmetry as hypotheses (`GroupLaws`, proved for the dihedral group with eight elements) | each move keeps the dense tensor of a pair of trees (`Lemmas/TreeMoves`, `TreeBend`), hence each column of the mapping (`TreeMapping`); tree blocks, slices and the permutation of multiplicities (`TreePermute*`); together with C71 |
| C73 | `Model/FactorizedMapping.lean`: `FactorizedTreeMapping` (identity and sparse mappings, `from_instructions`, `transform_splitting_trees`, `transform_fusion_trees`, `transform_tensor`), `permute_combined_idx`, `permute_legs` for permutations that do not mix | the instructions contain no bends (`PermuteNoBend`); invariant of the two mappings (`FactMap`), values of each step (`FactMap2`-`FactMap5`), the product of the two mappings is a mapping of tree pairs, so the dense part of C72 applies (`FactMap6`); multiplicities of permuted factors by the fusion ring laws |
| C75 | `Model/Planar.lean`: the arguments and all branches of `planar_permute_legs` as lists of calls of `permute_legs`; the engine of C71 executes them | the legs on the circle are at most two intervals (`cut_cases`); every branch is one call described by four cut points, on which the engine never compares levels (`PlanarEngine.evaluate_planar`, `PlanarPermute.call_ok`), or two calls (winding) |
| C74 | `Model/Planar.lean`: `parse_leg_bipartition` and the checks of `planar_contraction`, as functions on lists of indices | sets of legs on a circle are one or two intervals; jumps of a sorted list (`Lemmas/Planar`) |
| C77 | `Model/Planar.lean`: the checks; `Model/PlanarTrace.lean`: the bends in the fusion tree backend | loops over the halves against the specification (`halfTraced_spec`, `checkPair_spec`); pairs over the left side are nested, hence there is one place to cut the circle (`good_cut`), rotation of the indices (`rotated_trace`) |
| C76 | `Model/PlanarContract.lean`: `planar_contraction` with its helper on tensors given by the names of their legs; `compose` and `partial_compose` record the pairs of names | helper: shapes of the contracted arc (`helper_dom`, `helper_cod`); four leaves (`leaf_dom`, `leaf_cod`); false of the code for arcs across both sides and for one case with all legs contracted |
| C79 | `Model/PlanarDiagram.lean`: contraction trees, `_do_traces`, `_do_contractions`, `_extract_result`, `verify_diagram` on placeholders (labels only; no dimensions, costs and charge legs) | invariant of `_do_contractions`: names of intermediate results stay distinct, pairs done and pairs left are the pairs of the definition, no leg is lost (`doContractions_spec`); then a counting argument with the check of the number of legs |
| C78 | `Model/PlanarDiagram.lean`: `from_contraction_order` | invariant of the loop (`OInv`): parts are disjoint, linked, and contain both tensors of every pair |
| C80 | `Model/PlanarDiagram.lean`: `add_tensor`, `remove_tensor` on definitions | lists of connected pairs and open legs before and after (`addTensor_eq`, `takeOpen_spec`), counting |
| C81 | `direct_sum` of `Model/Spaces.lean` | entries of the spaces, stable sort, merging of runs (`Lemmas/DirectSum.lean`) |
| C82 | `Model/AbelianGrid.lean`: `tensor_from_grid`, `from_grid`, numpy broadcasting of the slice assignment | loop invariant over the dense entries (`gridLoop_spec`), disjoint slices (`before_unique`), C81 and C35 for the positions; negation: legs of a row are not compared |
| C41 (histories) | `Spec/AbelianHistory.lean`: an inductive predicate with one rule per modelled operation of the abelian backend | induction over the history, with the per-operation theorems of C33–C37, C45–C49, C54–C57, C59, C82 |
| C83 | `Model/AbelianTruncate.lean`: `truncate_singular_values`, `svd_apply_mask`, `truncated_svd` | C48, C47, C37 and C18; a sum over the small leg is one over the kept indices (`mask_sum`), Frobenius norm of a product with isometries (`frob`); negation: `err` is the square of the documented error |
| C84 | `Model/Charged.lean`: constructor, `to_dense_block`, `_get_item`, `from_dense_block`, and the branches for charged tensors of `scalar_multiply`, `linear_combination`, `norm`, `almost_equal`, `inner` | sums over public indices are sums over basis vectors (`sum_public`), contraction of all legs but the charge legs from C56 (`tdot_charge_both`, `tdot_charge_right`), the charge rule for the early return of `inner`; three negations with witnesses |
| C85 | `Model/TreeOuter.lean`: `insert_at`, `FusionTree::outer`, `tree_block_iter`, `FusionTreeBackend::outer` | insert_at by induction over the F moves (invariant: the partially moved trees represent the same tensor), outer of trees by extending and inserting, outer of tensors by the layout of tree blocks (C63, C72), completeness of the fusion tensors; negation for `N > 1` in general at the level of trees and for the group A4 at the level of tensors |
| C86 | `Model/FusionSymbol.lean` (`FusionSymbol` arrays), `Model/SU33.lean` (`SU3_3AnyonCategory`), spec with multiplicities `Spec/CategoryN.lean` | the definitions are polymorphic in the number type; the equations are evaluated by the kernel in the exact ring ℤ[√3, i, 1/6] for all labels and transported to ℂ along the evaluation homomorphism |
| C87 | `Model/ProductSymN.lean` (`Symmetry` over a list of factors with multiplicities: `fusion_outcomes`, `_n_symbol`, `_f_symbol`/`_r_symbol` by `FusionSymbol::kron`, `qdim`, generic `_b_symbol`, `_c_symbol`, `topological_twist`, `frobenius_schur`), spec `Spec/CategoryN.lean` | kron is shown to be the product of categories (`Lemmas/CatNProd.lean`), the laws of a product of two categories follow from those of the factors by sums over pairs of labels, then induction over the list of factors; instance: any power of SU(3)_3 |
| C88 | `Model/Pinv.lean` (`pinv_py`, `cutoff_inverse`) on top of `Model/AbelianTruncate.lean`, spec `Spec/MoorePenrose.lean` (the four equations, which have at most one solution) | the factors of `truncated_svd` are isometries (C83), the four equations follow by matrix algebra; with the stated condition only zeros are discarded (C18 priority of constraints) |
| C89 | `Model/FTScale.lean` (`FusionTreeBackend::scale_axis`) on `Model/TensorProduct.lean` blocks, spec `Spec/FTDiagonal.lean` (value of the diagonal tensor, rows of a tree) | the forest blocks tile the coupled block, a row is tree number times multiplicities; loop invariant over forests; dense statement through the layout of C63. Factors that are pipes: the loop that computes the flat leg number is wrong (proved) |
| C90 | `Model/FTScale.lean` (`_mask_contract`), spec `Spec/FTMask.lean` (kept indices, consistent masks), `Spec/FTDiagonal.lean` (rows of a tree) | entries of the reshaped forest block; the forests before and after have the same trees; loop invariant over forests with disjoint target slices; coupled sectors of the small side are among those of the large side (new block numbers). Codomain: only with one tree per forest, otherwise the code is wrong (proved on a D4 example) |
| C91 | `Model/FTDiag.lean` (diagonal tensors of the fusion tree backend), spec `Spec/FTDiag.lean` (values, dense positions, sorted leg, projections) | invariants of the loops over two sorted lists; slices of an unsorted leg tile the dense vector; from_block = averages; transpose by the inverse of the sorting permutation |
| C92 | `Model/FTMaskOps.lean` (masks of the fusion tree backend; `basis_perm` not modelled), spec `Spec/FTMaskOps.lean` (consistent data that keep given indices) | the n-th kept block belongs to the n-th sorted sector of the small leg (two strictly sorted lists with the same members are equal); binary search in the second column; logical operations only for legs with sorted sectors, otherwise the code is wrong (witnesses) |
| C93 | `Model/FTTruncate.lean` (flat list of the singular values, selection of C18, slices, new leg by `from_sector_decomposition`; `basis_perm` raises) | the flat list is indexed by pairs of sector and multiplicity index; the blocks cut out of the mask are those of a boolean diagonal tensor (C92), sorting and merging of strictly sorted sectors is the identity; error of the truncated decomposition: isometries keep the Frobenius norm (C62); `truncated_svd`: on a side with one leg the row of a block is the multiplicity index, so the contractions with the mask (C90, C91) select columns of U, values of S and rows of Vh |
| C49 | combine_legs, split_legs | refinement, bijection of multi-indices |
| C38, C39 | `sparse.cpp` linear operators, gram_schmidt | Mathlib inner product spaces |
| C50–C53 | `krylov_based.cpp`: GMRES, Lanczos (ground state, evolution), Arnoldi (eigenpairs, evolution) | loop invariants, Krylov spaces, compression, exponential series |

## What is not modelled

* `factors/sun.cpp`, F symbols of SU(2) and SU(2)_k (numerical
  tables and files; their consistency is a statement about data, not about code).
* of `fusion_tree_backend.cpp`: `partial_compose`, `partial_trace`, `from_grid`, `from_tree_pairs`, `get_element` (modelled:
  data, algebra and comparison C58, C61, decompositions and truncation C62, C93, dense conversion C63, `permute_legs` C71–C73,
  `outer` C85, `scale_axis` C89, masks and diagonal tensors C90–C92, slices C30, tree surgery and braids C01–C06, sparse
  mappings C24); `from_grid`, `svd`, `truncate_singular_values` of `no_symmetry.cpp`; `torch.cpp`, `array_api.cpp`.
* anyonic sites and couplings, `testing/*`, of hdf5 input/output: `__reduce__`,
  globals, dtypes, huge integers (modelled: the rest, C69); printing.
* pybind glue and argument conversion, except where a property needs it (C16).

No property of the list is "not expressible"; properties that are false of the code are kept with
status `partial`, with the negation (a witness) and the exact condition under which they hold proved.

## Defects that are theorems

* C92 `FusionTreeBackend::mask_unary_operand` and `mask_binary_operand` on a dual large leg: the number of the sector in the leg is stored as number in the domain, whose sectors are sorted differently. `~mask` and `mask & mask` then have blocks of the wrong length or of the wrong sector (`C92_unary_dual_wrong`, `C92_unary_dual_sector_wrong`, `C92_binary_dual_wrong`). `mask_from_block` and `diagonal_to_mask` do it right.
* C90 `FusionTreeBackend::_mask_contract` for a leg in the codomain: the forest block is reshaped to the multiplicities and one further axis at the end, but the trees vary slower than the multiplicities. With several fusion trees (three or more legs and a non-abelian symmetry) the entries of different trees are mixed (`C90_codomain_wrong`: kept rows 0, 1, 2, 3 instead of 0, 2, 4, 6).
* C89 `FusionTreeBackend::scale_axis` with leg pipes: the loop that turns the number of the leg into a flat leg number has the variable it increases as its bound. It raises `IndexError` when the pipes before the leg have many legs (`C89_pipes_raise`) or scales another leg (`C89_pipes_wrong_leg`).
`outer` with the fusion tree backend is wrong for symmetries with fusion multiplicities larger than one: the trees of the codomain and of the domain are combined for all pairs of multiplicity labels of the new vertex, not only for equal ones (C85_multiplicity, C85_outer_wrong). `FusionTree.insert_at(n, t2)` with an empty `t2` at the last leg of three or more gives a tree with one inner sector too many (C85_insert_empty).
`1j * v` of a charged tensor with a real invariant part and a state drops the imaginary part (C84_scalar_multiply_false); `almost_equal` of two charged tensors multiplies the invariant parts with the states of the other tensor (C84_almost_equal_false); `inner(A, B)` of a symmetric and a charged tensor conjugates the state of `B` (C84_inner_dagger_false); `linear_combination` divides by the state of the first tensor (C84_linear_combination).
`truncated_svd` (and `truncate_singular_values`): `err` is the square of the documented relative 2-norm error (C83_documented_error_false).
- `tensor_from_grid` does not compare the first codomain legs within a row (nor the last domain legs within a column); a block of size one is silently broadcast: `C82_row_legs_unchecked`.
- `C77_placeholder_defect`: `planar_partial_trace` of a placeholder accepts a leg that occurs in two pairs.
- `C76_wrap_defect`, `C76_both_sides_defect`: `planar_contraction` contracts the wrong pairs of legs if the contracted legs of the tensor that keeps its other legs contain the first and the last leg and cross both sides of the tensor (or the codomain or the domain is empty).
- `C76_full_defect`, `C76_full_error_defect`: `planar_contraction` of all legs of two tensors, the first with all legs in the domain and the second with all legs in the codomain: with two legs the wrong pairs are contracted, with three legs it raises (the helper takes `contr2` without reversing it).
- `C75_empty_defect`: `planar_permute_legs(T, [], [])` passes the checks and then accesses an element of an empty vector.
- `C74_rejected_defect`: `planar_contraction` rejects a planar contraction of all legs of the first tensor if the legs do not start with leg 0 (it is accepted with the tensors exchanged).
* HDF5: `{'': {...}}` is loaded as its inner dictionary; an `Hdf5Ignored` item makes a list unloadable; a masked
  array without masked elements, all equal to the fill value, is loaded fully masked; the test is inverted (C69).
* a site accepts the empty string as the name of an operator; joined names silently drop it (C68).
* `Coupling.permute` does not compare the length of the permutation with the number of sites (C66).
* `hopping` and `pairing` take the operator of the second site from the first site: they raise or return a
  different, charge violating operator for inequivalent sites (C65).
* `IsingAnyonCategory::_c_symbol` returns 1 for three pairs of sectors (C09).
* nested combined labels do not split back; labels ending in `**` are not restored (C13, C14).
* the configuration accepts NaN; `set_options` is not atomic; temporary options leak if entering
  raises (C16).
* `chi_max = 0` is ignored; `truncated_svd` normalises to the wrong norm (C18, C19).
* `TensorProduct::right_multiply` inserts before the last factor (C40).
* the F-style guard of `make_stride` is too weak (C44); `make_stride([])`/`make_grid([])` raise, so
  inner products and dense conversions fail for tensors without legs (C34, C35).
* `from_dense_block` silently truncates oversized arrays (C35).
* `diagonal_elementwise_binary` with `partial_zero_is_zero` drops blocks (C36).
* the documented projection property for non-orthonormal vectors, the documented span of
  gram_schmidt (C38, C39).
* a `ProjectedLinearOperator` passed with `E_shift` is modified in place (C51).
* GMRES is wrong for complex non-Hermitian operators and fails on early breakdown (C50).
* `Arnoldi.run` returns spurious zeros for `num_ev > N`, and raises on the second call (C53).

## Testing the theorems

Each batch edits one definition of the model the way a realistic bug would (wrong boundary, swapped
argument, missed case, dropped update) in a scratch copy, rebuilds, and records which theorems fail
(`seeded/LOG.jsonl`). A surviving edit that falsifies an English claim leads to a stronger theorem.
