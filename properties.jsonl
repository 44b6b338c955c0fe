{"id": "C01", "title": "link and unlink are inverse and touch nothing else", "statement": "After Tensor.link(a,i,b,j) on two free slots, a[i] is (b,j), b[j] is (a,i) and every other slot of every tensor is what it was; Tensor.unlink(a,i,b,j) then restores the previous network exactly. Tensor.unlink on two slots that are not linked to each other raises and changes nothing.", "quantifier": "every network, every pair of slots", "why_tests_cant": "any number of tensors and any prior linking history; a frame condition over all other slots cannot be sampled", "anchors": ["minitn/tensor.py:Tensor.link", "minitn/tensor.py:Tensor.unlink"]}
{"id": "C02", "title": "every link stays mutual", "statement": "Starting from unlinked tensors, any sequence of link (onto free slots), unlink, split, unite, split_unite and unite_split calls that return normally leaves a network in which a[i] == (b,j) implies b[j] == (a,i). Linking onto an occupied slot is the one way to break this.", "quantifier": "every finite history of API calls", "why_tests_cant": "quantifies over histories", "anchors": ["minitn/tensor.py:Tensor.link", "minitn/tensor.py:Tensor.unlink", "minitn/tensor.py:Tensor.split", "minitn/tensor.py:Tensor.unite", "minitn/tensor.py:Tensor.split_unite", "minitn/tensor.py:Tensor.unite_split"]}
{"id": "C03", "title": "check_completness accepts exactly the complete tensors", "statement": "t.check_completness() returns normally if and only if the linked axes of t are exactly 0..order-1 and every one of them is mutual; with strict=True also iff the dimensions on both ends agree (a Leaf without an array agrees with everything). Otherwise it raises.", "quantifier": "every network, every tensor, both modes", "why_tests_cant": "iff over all networks; tests only see a handful of accepted and rejected graphs", "anchors": ["minitn/tensor.py:Tensor.check_completness", "minitn/tensor.py:Tensor.check_linkage"]}
{"id": "C04", "title": "visitor visits every tensor of a tree exactly once", "statement": "On a tree-shaped network t.visitor(axis=None) yields every tensor of the network exactly once, parents before children; with leaf=False it yields exactly the non-Leaf tensors, in the same order; leaves() yields exactly the Leaf tensors.", "quantifier": "every tree-shaped network, every starting tensor", "why_tests_cant": "arbitrary depth and branching", "anchors": ["minitn/tensor.py:Tensor.visitor", "minitn/tensor.py:Tensor.children", "minitn/tensor.py:Tensor.leaves"]}
{"id": "C05", "title": "the visited set does not depend on where the walk starts", "statement": "visitor(axis=None) started at any two tensors of one tree-shaped network yields the same tensors up to order.", "quantifier": "every tree-shaped network, every pair of tensors in it", "why_tests_cant": "arbitrary trees and arbitrary re-rooting", "anchors": ["minitn/tensor.py:Tensor.visitor"]}
{"id": "C06", "title": "linkage walks enumerate every edge", "statement": "linkage_visitor yields every edge of the tree exactly once, from the near end to the far end; decorated_linkage_visitor yields every edge exactly once downwards and once upwards, and the sequence is a closed walk from the starting tensor back to itself in which consecutive links share a tensor.", "quantifier": "every tree-shaped network", "why_tests_cant": "arbitrary trees", "anchors": ["minitn/tensor.py:Tensor.linkage_visitor", "minitn/tensor.py:Tensor.decorated_linkage_visitor"]}
{"id": "C07", "title": "Tensor.generate builds the described tree", "statement": "For a dict describing a finite tree in which every name occurs once, Tensor.generate(graph, root) terminates and returns a network in which every name is one tensor (a Leaf iff it is not a key), the children of a tensor are the listed names in the listed order on consecutive axes, non-root tensors hang by axis 0, and every tensor passes check_completness.", "quantifier": "every finite tree description", "why_tests_cant": "arbitrary trees", "anchors": ["minitn/tensor.py:Tensor.generate"]}
{"id": "C08", "title": "vectorize and tensorize are inverse", "statement": "tensorize(vectorize()) leaves every array of the network unchanged, and for a vector of the right length vectorize after tensorize(vec) returns vec; the same holds for aux arrays with a recorded shape_dict.", "quantifier": "every tree-shaped network with arrays, every vector of the right length", "why_tests_cant": "arbitrary shapes and trees", "anchors": ["minitn/tensor.py:Tensor.vectorize", "minitn/tensor.py:Tensor.tensorize"]}
{"id": "C09", "title": "unite undoes split", "statement": "If the singular value decomposition is exact (no truncation), root.split(axes) followed by root.unite(bond) gives back a tensor with the original entries and the original neighbours, up to the order of the axes (the split-off axes come first or last as the chosen indices say); for split at one axis i with the child kept in place it is exactly the original order.", "quantifier": "every root tensor, every set of axes", "why_tests_cant": "arbitrary order, shapes and axes", "anchors": ["minitn/tensor.py:Tensor.split", "minitn/tensor.py:Tensor.unite"]}
{"id": "C10", "title": "split_unite moves the root along one link and changes no link", "statement": "t.split_unite(i) on a root t of a tree-shaped network with complete links leaves every link of every tensor of the network as it was, makes the neighbour at i the only root and gives t the normalization axis i.", "quantifier": "every tree-shaped network, every axis leading to a non-Leaf tensor", "why_tests_cant": "arbitrary networks; the rewiring depends on axis numbers of three tensors", "anchors": ["minitn/tensor.py:Tensor.split_unite"]}
{"id": "C11", "title": "unite_split changes no link and never trips its own assertion", "statement": "t.unite_split(i) on a root t of a tree-shaped network with complete links leaves every link of every tensor as it was (so its internal assertion cannot fail), makes the neighbour at i the only root and gives t the normalization axis i.", "quantifier": "every tree-shaped network, every axis leading to a non-Leaf tensor", "why_tests_cant": "arbitrary networks", "anchors": ["minitn/tensor.py:Tensor.unite_split"]}
{"id": "C12", "title": "moving the root does not change the represented state", "statement": "If no singular value is truncated, split_unite and unite_split (without operator) leave the state represented by the network unchanged: the sum over all bond indices of the product of all tensor entries is the same for every assignment of leaf indices. So does any sequence of such moves.", "quantifier": "every tree-shaped network, every path of moves, every leaf index assignment", "why_tests_cant": "arbitrary networks, shapes and paths", "anchors": ["minitn/tensor.py:Tensor.split_unite", "minitn/tensor.py:Tensor.unite_split", "minitn/tensor.py:Tensor.split", "minitn/tensor.py:Tensor.unite"]}
{"id": "C13", "title": "the canonical form survives root moves", "statement": "If every non-root tensor is orthonormal with respect to its axis towards the root, it is still so after split_unite or unite_split, now with respect to the new root.", "quantifier": "every tree-shaped network in canonical form, every move", "why_tests_cant": "arbitrary networks; induction over moves", "anchors": ["minitn/tensor.py:Tensor.split_unite", "minitn/tensor.py:Tensor.unite_split", "minitn/tensor.py:Tensor.split"]}
{"id": "C14", "title": "inner products computed by tree recursion equal the full contraction", "statement": "root.global_inner_product() equals the sum over all leaf indices of state(array) times state(aux), and root.matrix_element() the same with the leaf operators in between; the result does not depend on the tree's shape or on cached values.", "quantifier": "every tree-shaped network, all arrays, all leaf operators", "why_tests_cant": "exponentially large sum over arbitrary trees", "anchors": ["minitn/tensor.py:Tensor.partial_env", "minitn/tensor.py:Tensor.global_inner_product", "minitn/tensor.py:Tensor.matrix_element"]}
{"id": "C15", "title": "the normalization shortcut is sound", "statement": "On a network whose tensors marked normalized really are orthonormal with respect to their axis, partial_env returns None (meaning identity) only where the full contraction is the identity matrix, and otherwise returns the full contraction; values it caches are the values it would recompute.", "quantifier": "every tree-shaped canonical network, every axis, every history of calls", "why_tests_cant": "arbitrary trees; cache history", "anchors": ["minitn/tensor.py:Tensor.partial_env"]}
{"id": "C16", "title": "expection of a sum of products equals the dense expectation value", "statement": "MultiLayer.matrix_element and expection return the sum over terms of <aux|h_1 x h_2 x ...|state> computed from the dense operator dense_hamiltonian().", "quantifier": "every tree-shaped network, every list of terms", "why_tests_cant": "arbitrary trees and operator lists", "anchors": ["minitn/algorithms/ml.py:MultiLayer.expection", "minitn/algorithms/ml.py:MultiLayer.matrix_element", "minitn/algorithms/ml.py:MultiLayer.dense_hamiltonian", "minitn/algorithms/ml.py:MultiLayer.term_visitor"]}
{"id": "C17", "title": "contraction returns the represented state", "statement": "root.contraction() terminates and returns the dense array whose entry at a multi-index of leaf indices is the state's amplitude, with one axis per leaf in the order of leaves().", "quantifier": "every tree-shaped network", "why_tests_cant": "arbitrary trees and shapes", "anchors": ["minitn/tensor.py:Tensor.contraction", "minitn/tensor.py:Tensor.unite"]}
{"id": "C18", "title": "normalize makes a tensor orthonormal", "statement": "normalize(forced=True) turns a root array with nonzero norm into a unit-norm array proportional to it, and a non-root array with linearly independent slices along its axis into one whose slices are orthonormal and whose first k slices span what the original first k spanned; without forced it does nothing to a tensor not marked normalized.", "quantifier": "every array of every shape, every axis", "why_tests_cant": "arbitrary arrays", "anchors": ["minitn/tensor.py:Tensor.normalize"]}
{"id": "C19", "title": "projector is an orthogonal projector", "statement": "For a tensor orthonormal with respect to its axis projector() is Hermitian and idempotent and fixes every slice of the tensor, and projector(comp=True) is the complementary projector; a tensor without axis raises.", "quantifier": "every orthonormal tensor of every shape", "why_tests_cant": "arbitrary shapes", "anchors": ["minitn/tensor.py:Tensor.projector"]}
{"id": "C20", "title": "partial_product and partial_trace compute the documented contractions", "statement": "partial_product(a,i,b,j) has shape a.shape with axis i replaced by the remaining axes of b, and its entries are the sums over the contracted index; the unused reshaping implementation gives the same array. partial_trace(a,i,b,j) is the matrix of sums over all other indices. b=None is the identity.", "quantifier": "all arrays, all axes, all orders", "why_tests_cant": "arbitrary shapes and axis positions", "anchors": ["minitn/tensor.py:Tensor.partial_product", "minitn/tensor.py:Tensor._partial_product", "minitn/tensor.py:Tensor.partial_trace"]}
{"id": "C21", "title": "compressed_svd keeps what it promises", "statement": "compressed_svd(a, rank, err) returns factors of compatible shapes whose product is a when nothing is discarded; with err given the discarded singular values sum to at most err; with rank given at most rank singular values are kept; and a nonpositive rank raises.", "quantifier": "every matrix, every rank, every err", "why_tests_cant": "arbitrary spectra", "anchors": ["minitn/lib/numerical.py:compressed_svd"]}
{"id": "C22", "title": "triangular enumerates all basis states once, by level", "statement": "triangular(n_list) yields every natural number below the product of n_list exactly once, starting with 0, in order of nondecreasing total quantum number.", "quantifier": "every list of dimensions", "why_tests_cant": "arbitrary length and sizes", "anchors": ["minitn/lib/numerical.py:triangular", "minitn/algorithms/ml.py:MultiLayer.triangular", "minitn/heom/propagate.py:MultiLayer.triangular"]}
{"id": "C23", "title": "autocomplete produces an orthonormal network in the ground configuration", "statement": "When no bond is larger than the product of the dimensions below it, autocomplete gives every tensor without array an array of the requested shape whose slices towards the root are distinct orthonormal unit vectors, so that the represented state is the product state with every leaf index 0.", "quantifier": "every tree, all bond dimensions with n_parent <= prod(n_children)", "why_tests_cant": "arbitrary trees and dimensions", "anchors": ["minitn/models/network.py:autocomplete", "minitn/algorithms/ml.py:MultiLayer.autocomplete"]}
{"id": "C24", "title": "huffman_tree keeps every source exactly once", "statement": "huffman_tree(sources, obj_new, importances, n_branch) with n_branch >= 2 and fresh names terminates and returns a tree whose leaves are exactly the sources, each once, with at most n_branch children per node.", "quantifier": "every nonempty list of sources, all importances, every n_branch >= 2", "why_tests_cant": "arbitrary sizes; termination", "anchors": ["minitn/lib/tools.py:huffman_tree"]}
{"id": "C25", "title": "iter_visitor yields each reachable vertex exactly once", "statement": "iter_visitor(start, r, method) yields, for DFS and BFS and for any iteration order of the neighbour sets, exactly the vertices reachable from start through r, each once, start first.", "quantifier": "every finite graph, every set iteration order, both methods", "why_tests_cant": "arbitrary graphs and nondeterministic set order", "anchors": ["minitn/lib/tools.py:iter_visitor"]}
{"id": "C26", "title": "one-site projector-splitting sweep is complete and balanced", "statement": "split_step never propagates a tensor that is not the root, propagates every non-Leaf tensor exactly once forward in time and every link between non-Leaf tensors exactly once backward, and ends with the root where it started; forward and backward=True sweeps are mirror images.", "quantifier": "every tree-shaped network, both directions", "why_tests_cant": "arbitrary trees; the schedule is the induction", "anchors": ["minitn/algorithms/ml.py:MultiLayer.split_step", "minitn/heom/propagate.py:MultiLayer.split_step", "minitn/heom/propagate2.py:ProjectorSplitting.one_site_step"]}
{"id": "C27", "title": "two-site projector-splitting sweep is complete and balanced", "statement": "unite_step propagates every link between non-Leaf tensors exactly once forward (as a two-site tensor) and every non-Leaf tensor one time less than it has such links backward, always at the current root, its final counter assertion holds and the root ends where it started; the same holds for backward=True.", "quantifier": "every tree-shaped network, both directions", "why_tests_cant": "arbitrary trees", "anchors": ["minitn/algorithms/ml.py:MultiLayer.unite_step", "minitn/heom/propagate.py:MultiLayer.unite_step", "minitn/heom/propagate2.py:ProjectorSplitting.two_site_step"]}
{"id": "C28", "title": "cached mean fields are never stale", "statement": "During a projector-splitting sweep every mean field taken from the cache equals the mean field recomputed from the current arrays.", "quantifier": "every tree-shaped network, every sequence of moves and propagations, every Hamiltonian term", "why_tests_cant": "interleaving of moves, array changes and cache fills", "anchors": ["minitn/algorithms/ml.py:MultiLayer.move", "minitn/algorithms/ml.py:MultiLayer.remove_env", "minitn/algorithms/ml.py:MultiLayer._single_eom", "minitn/algorithms/ml.py:MultiLayer.term_visitor", "minitn/algorithms/ml.py:MultiLayer._form_env"]}
{"id": "C29", "title": "visiting the terms leaves no operator behind", "statement": "While term n is being visited, every leaf named in the term carries its operator and every other leaf carries none; after the visit all leaves carry none and the arrays of the other tensors are unchanged.", "quantifier": "every network, every list of terms", "why_tests_cant": "arbitrary term lists and networks", "anchors": ["minitn/algorithms/ml.py:MultiLayer.term_visitor"]}
{"id": "C30", "title": "the ODE step limit is enforced", "statement": "A propagation makes at most max_ode_steps (rounded up to a multiple of cmf_steps) solver steps; when the limit is hit propagation stops and the propagator ends.", "quantifier": "every solver behaviour, every setting of cmf_steps and max_ode_steps", "why_tests_cant": "solver is arbitrary", "anchors": ["minitn/algorithms/ml.py:MultiLayer._solve_ode", "minitn/algorithms/ml.py:MultiLayer._split_prop", "minitn/algorithms/ml.py:MultiLayer.log_inner_product", "minitn/algorithms/ml.py:MultiLayer.propagator"]}
{"id": "C31", "title": "the propagator yields the documented time grid", "statement": "propagator(steps, ode_inter, start) yields exactly steps pairs (start + n*ode_inter, root), n = 0.., taking one step between consecutive yields, and ends early only if a step signals RuntimeWarning.", "quantifier": "every step count, interval, start and step behaviour", "why_tests_cant": "arbitrary step behaviour and counts", "anchors": ["minitn/algorithms/ml.py:MultiLayer.propagator", "minitn/bases/girds.py:Propagator"]}
{"id": "C32", "title": "equations of motion keep the gauge", "statement": "For a non-root tensor orthonormal towards its axis, the derivative computed by the equations of motion is orthogonal to every slice of the tensor, for every term and every mean field.", "quantifier": "every orthonormal tensor, every set of mean fields", "why_tests_cant": "arbitrary shapes and environments", "anchors": ["minitn/algorithms/ml.py:MultiLayer._single_eom", "minitn/algorithms/ml.py:MultiLayer.eom"]}
{"id": "C33", "title": "DMRG matrix elements equal the explicit sum over configurations", "statement": "mat_element(mps1, mpo, mps2) equals the sum over all physical configurations of the product of matrices, whichever end the contraction starts from.", "quantifier": "every chain length and all tensors", "why_tests_cant": "exponential sum, arbitrary length", "anchors": ["minitn/algorithms/dmrg.py:mat_element", "minitn/algorithms/dmrg.py:contract_from_left", "minitn/algorithms/dmrg.py:contract_from_right"]}
{"id": "C34", "title": "heisenberg builds the documented Hamiltonian", "statement": "The operator represented by heisenberg(N, J, Jz, h) is the sum of J/2 (S+S- + S-S+) + Jz SzSz over neighbours minus h times the sum of Sz.", "quantifier": "every N >= 2 and all couplings", "why_tests_cant": "arbitrary length", "anchors": ["minitn/algorithms/dmrg.py:heisenberg"]}
{"id": "C35", "title": "DMRG environments are always those of the current state", "statement": "In every sweep of dmrg1, whatever the eigensolver returns, the left and right environments used at site i are the contractions of the current matrices left and right of i, and the environment stacks never run empty.", "quantifier": "every chain length >= 2, every number of sweeps, every eigensolver and SVD answer", "why_tests_cant": "interleaving of sweeps; arbitrary answers", "anchors": ["minitn/algorithms/dmrg.py:dmrg1"]}
{"id": "C36", "title": "two-site DMRG environments are always those of the current state", "statement": "In every sweep of dmrg2, whatever the eigensolver returns, the environments used at sites i, i+1 are the contractions of the current matrices outside the pair, and every neighbouring pair is optimized in every sweep.", "quantifier": "every chain length, every number of sweeps, every eigensolver and SVD answer", "why_tests_cant": "interleaving of sweeps; arbitrary answers", "anchors": ["minitn/algorithms/dmrg.py:dmrg2"]}
{"id": "C37", "title": "coarse graining and fine graining are inverse", "statement": "fine_grain_mps(coarse_grain_mps(A,B)) without truncation gives matrices with the same product, and coarse_grain_mpo gives the operator product on the pair of sites.", "quantifier": "all shapes", "why_tests_cant": "arbitrary shapes", "anchors": ["minitn/algorithms/dmrg.py:coarse_grain_mps", "minitn/algorithms/dmrg.py:fine_grain_mps", "minitn/algorithms/dmrg.py:coarse_grain_mpo"]}
{"id": "C38", "title": "multi-dimensional DVR: index decoding and Hamiltonian action", "statement": "PO_DVR subindex inverts row-major index packing for all sizes, and the multi-dimensional Hamiltonian acts as the sum of the one-dimensional Hamiltonians on their axes.", "quantifier": "every number of dimensions and all sizes", "why_tests_cant": "arbitrary rank and sizes", "anchors": ["minitn/bases/dvr.py:PO_DVR.subindex", "minitn/bases/dvr.py:PO_DVR.h_mat", "minitn/algorithms/mctdh.py:MCTDH._partial_transform"]}
{"id": "C39", "title": "the sine DVR transformation is orthogonal", "statement": "The sine-DVR basis matrix is symmetric and orthogonal, so transforming a state to the spectral basis and back is the identity and preserves the norm.", "quantifier": "every number of grid points", "why_tests_cant": "arbitrary size; exact trigonometric sums", "anchors": ["minitn/bases/dvr.py:SineDVR", "minitn/bases/dvr.py:DVR.dvr2fbr_vec", "minitn/bases/dvr.py:DVR.fbr2dvr_vec"]}
{"id": "C40", "title": "fast and dense sine-DVR Hamiltonians agree", "statement": "FastSineDVR's Hamiltonian, applied through discrete sine transforms, gives on every vector the same result as SineDVR's dense matrix.", "quantifier": "every number of grid points, every potential, every vector", "why_tests_cant": "arbitrary size", "anchors": ["minitn/bases/dvr.py:FastSineDVR.h_mat", "minitn/bases/dvr.py:SineDVR.t_mat"]}
{"id": "C41", "title": "position and momentum grids: the Fourier round trip is the identity", "statement": "Transforming a wave function on a Coordinate grid to its conjugate Momentum grid and back returns the original values, for even and odd numbers of points.", "quantifier": "every number of points, every grid width, every vector", "why_tests_cant": "arbitrary size, both parities", "anchors": ["minitn/bases/girds.py:Coordinate.ft", "minitn/bases/girds.py:Momentum.ft", "minitn/bases/girds.py:Coordinate.conj"]}
{"id": "C42", "title": "HEOM derivative conserves the trace of the reduced density matrix", "statement": "For Hermitian system Hamiltonian and coupling operator the hierarchy's derivative of the physical density matrix has trace zero, for every extended density.", "quantifier": "every hierarchy size, every extended density, all Hermitian operators", "why_tests_cant": "linear-algebra identity over all sizes", "anchors": ["minitn/heom/hierachy.py:Hierachy._diff", "minitn/heom/eom.py:Hierachy", "minitn/heom/eom2.py"]}
{"id": "C43", "title": "HEOM derivative keeps Hermiticity", "statement": "If every member of the hierarchy is Hermitian and the correlation function has real exponents with conjugate coefficient pairs, so is every member of the derivative.", "quantifier": "every hierarchy size, every Hermitian extended density", "why_tests_cant": "all sizes", "anchors": ["minitn/heom/hierachy.py:Hierachy._diff"]}
{"id": "C44", "title": "hierarchy ladder operators couple neighbouring tiers", "statement": "The raising, lowering and number operators of the hierarchy act on every tier n as documented (coupling n to n-1, n+1 and n with weights sqrt(n), sqrt(n+1), n) and truncate at the last tier.", "quantifier": "every tier count and every tier", "why_tests_cant": "all sizes", "anchors": ["minitn/heom/hierachy.py:Hierachy._raiser", "minitn/heom/hierachy.py:Hierachy._lower", "minitn/heom/eom.py", "minitn/heom/eom2.py"]}
{"id": "C45", "title": "extended density starts with the system density", "statement": "gen_extended_rho(rho) puts rho at the zeroth tier and zeros elsewhere, for every number and size of bath modes; the simple_heom network built from it is complete and represents it.", "quantifier": "all bath sizes, all rho", "why_tests_cant": "arbitrary rank and sizes", "anchors": ["minitn/heom/hierachy.py:Hierachy.gen_extended_rho", "minitn/heom/network.py:simple_heom"]}
{"id": "C46", "title": "correlation functions carry as many coefficients as they announce", "statement": "For every correlation object coeff, conj_coeff and derivative have length k_max, so a hierarchy can be built from it.", "quantifier": "every k_max, with and without temperature", "why_tests_cant": "all k_max", "anchors": ["minitn/heom/corr.py:Drude", "minitn/heom/corr.py:Brownian", "minitn/heom/hierachy.py:Hierachy.__init__"]}
{"id": "C47", "title": "generated bath correlation functions are conjugation consistent", "statement": "generate_BCF returns coefficient lists of equal length such that the sum of conj_coeff_k exp(derivative_k t) is the complex conjugate of the sum of coeff_k exp(derivative_k t) for every real t.", "quantifier": "every list of modes, every time, with and without temperature", "why_tests_cant": "all mode lists and all times", "anchors": ["minitn/models/bath.py:generate_BCF"]}
{"id": "C48", "title": "unit conversion is consistent", "statement": "Converting a quantity to another unit and back gives the same quantity, conversion preserves its value in atomic units, and sums, differences and comparisons do not depend on the units of the operands.", "quantifier": "all values and all known units", "why_tests_cant": "all values and unit pairs", "anchors": ["minitn/lib/units.py:Quantity"]}
{"id": "C49", "title": "phonon operators satisfy their algebra in dense and operator form", "statement": "On a truncated phonon space the dense creation and annihilation matrices are adjoint, their product is the number operator, their commutator is the identity except on the highest level, and the matrix-free operators act as the dense ones.", "quantifier": "every truncation dimension, every vector", "why_tests_cant": "all dimensions", "anchors": ["minitn/models/particles.py:Phonon"]}
{"id": "C50", "title": "Davidson search space stays in bounds and orthonormal", "statement": "In every run of the Davidson iteration the search space never exceeds the allocated projected matrix, that matrix always holds the matrix elements of the operator in the search basis, and iteration stops when the Ritz values have converged.", "quantifier": "every operator, every start, every eigensolver answer", "why_tests_cant": "arbitrary runs", "anchors": ["minitn/lib/numerical.py:DavidsonAlgorithm"]}
{"id": "C51", "title": "MCTDH state vector packing is lossless", "statement": "Splitting the state vector into coefficient and single-particle blocks and concatenating them again is the identity, blocks do not overlap and negative block indices count from the end.", "quantifier": "all numbers and sizes of blocks", "why_tests_cant": "arbitrary sizes", "anchors": ["minitn/algorithms/mctdh.py:MCTDH.get_sub_vec"]}
{"id": "C52", "title": "recursive projector-splitting is complete and balanced", "statement": "r_split_step propagates, in the first-order mode, every non-Leaf tensor exactly once forward and every link exactly once backward, always at the current root, and returns the root to its start; in the second-order mode the total propagated time of every tensor and link is the same up to sign.", "quantifier": "every tree-shaped network, both modes", "why_tests_cant": "arbitrary trees; recursion", "anchors": ["minitn/algorithms/ml.py:MultiLayer.r_split_step"]}
{"id": "C53", "title": "model Hamiltonian assembly keeps the Hamiltonian", "statement": "Collecting the one-site electronic terms of the spin-boson Hamiltonian into one term leaves the represented operator unchanged.", "quantifier": "every list of terms", "why_tests_cant": "arbitrary term lists", "anchors": ["minitn/models/spinboson.py:SpinBosonModel.collect_electric_terms"]}
{"id": "C54", "title": "automatic network graphs keep every degree of freedom", "statement": "The graph built by the model's autograph contains every leaf of the model exactly once.", "quantifier": "every number of modes and branches", "why_tests_cant": "arbitrary sizes", "anchors": ["minitn/models/spinboson.py:SpinBosonModel.autograph", "minitn/models/spinboson.py:SpinBosonModel._update"]}
{"id": "C55", "title": "prefixed units convert by their metric factors", "statement": "Converting a quantity to a unit with a metric prefix multiplies the value by the factor of that prefix: a quantity of one unit is 1e3 of the milli-unit, 1e6 of the micro-unit, 1e-3 of the kilo-unit and so on.", "quantifier": "every prefixed unit the module announces and every value", "why_tests_cant": "every unit and every value", "anchors": ["minitn/lib/units.py:atomic_unit_in", "minitn/lib/units.py:Quantity.convert_to"]}
{"id": "C56", "title": "The hierarchy derivative is that of the hierarchical equations of motion", "statement": "For every number of bath modes, truncation, system dimension, system Hamiltonian h, coupling operator q and correlation function with exponents g_k and coefficients c_k, c'_k, applying the term list returned by the diff method of the hierarchy classes to an extended density with partial_product and adding the results gives, at every tier n and every pair of system states, -i[h, rho_n] + sum_k g_k n_k rho_n - i sum_k up(n_k) [q, rho_(n+e_k)] - i sum_k down(n_k) (c_k q rho_(n-e_k) - c'_k rho_(n-e_k) q), where members outside the truncation count as zero.", "quantifier": "All numbers of modes, tier dimensions, system dimensions, operators, correlation functions and extended densities.", "why_tests_cant": "The equations must hold for every operator, including complex Hermitian ones, every truncation and every density; a test with real symmetric operators does not see a transposed operator.", "anchors": ["minitn/heom/hierachy.py:Hierachy.h_list", "minitn/heom/eom.py:Hierachy.diff", "minitn/heom/eom2.py:Hierachy.diff", "minitn/tensor.py:Tensor.partial_product"]}
{"id": "C57", "title": "the sine-DVR Hamiltonian is that of the potential last set", "statement": "After every sequence of set_v_func and solve calls on a new SineDVR, h_mat returns the kinetic energy matrix plus the diagonal matrix of the potential last set on the grid points; a Hamiltonian kept by solve is never returned for another potential.", "quantifier": "every grid, every sequence of calls, every potential, including potentials that raise", "why_tests_cant": "arbitrary call histories", "anchors": ["minitn/bases/dvr.py:DVR.h_mat", "minitn/bases/dvr.py:DVR.set_v_func", "minitn/bases/dvr.py:DVR.solve"]}
{"id": "C58", "title": "the sine-DVR kinetic energy has the particle-in-a-box spectrum", "statement": "Transformed to the spectral basis with dvr2fbr_mat, the matrix returned by t_mat is diagonal with entries (hbar j pi / L)^2 / (2 m) for j = 1..n, and t_mat is -hbar^2/2m times dq2_mat.", "quantifier": "every number of points, interval, mass and hbar", "why_tests_cant": "arbitrary sizes; exact trigonometric sums", "anchors": ["minitn/bases/dvr.py:SineDVR.t_mat", "minitn/bases/dvr.py:SineDVR.dq2_mat", "minitn/bases/dvr.py:DVR.dvr2fbr_mat"]}
{"id": "C59", "title": "the momentum grid is that of the discrete Fourier transform", "statement": "The conjugate grid of a Coordinate grid of n points is the one to which the discrete Fourier transform belongs: the product of the spacings of the two grids is 2 pi hbar / n.", "quantifier": "every interval, every number of points, every hbar", "why_tests_cant": "the relation must hold for all grids; for large n the deviation is below test tolerances", "anchors": ["minitn/bases/girds.py:Coordinate.conj", "minitn/bases/girds.py:Coordinate.ft"]}
{"id": "C60", "title": "direct_step follows the time-dependent variational principle", "statement": "For a tree tensor network whose tensors have orthonormal slices towards the root, the derivatives that direct_step computes for the arrays (mean fields, inverse densities, equations of motion) make the state move by the projection of the Schroedinger equation on the tangent space: for every change φ of the state by a change of one array, coefficient * <φ|dψ/dt> = <φ|H|ψ>, provided the densities are invertible and inverted exactly. One 'Newton' step of size dt changes every array by dt times its derivative, and the state by dt dψ/dt to first order.", "quantifier": "every tree, bond dimension, array contents, list of terms, coefficient, step size and every variation", "why_tests_cant": "The identity has to hold for every direction in the tangent space and every network; a test fixes one network and one direction.", "anchors": ["minitn/algorithms/ml.py:MultiLayer.direct_step", "minitn/algorithms/ml.py:MultiLayer.eom", "minitn/algorithms/ml.py:MultiLayer._form_env", "minitn/algorithms/ml.py:MultiLayer._form_inv_density"]}
{"id": "C61", "title": "direct_step conserves the norm", "statement": "If the Hamiltonian is Hermitian and the equation is i hbar dψ/dt = Hψ, the derivatives that direct_step computes leave <ψ|ψ> constant, whatever the inverse densities are. This must also hold when init_energy is set to shift the energy.", "quantifier": "every tree, bond dimension, array contents, Hermitian list of terms, regularization and init_energy", "why_tests_cant": "Conservation has to hold for all states and Hamiltonians; tests see rounding and discretization errors that hide a systematic drift.", "anchors": ["minitn/algorithms/ml.py:MultiLayer.eom", "minitn/algorithms/ml.py:MultiLayer.direct_step"]}
{"id": "C62", "title": "direct_step conserves the energy", "statement": "If the Hamiltonian is Hermitian and does not depend on time, the derivatives that direct_step computes leave <ψ|H|ψ> constant, provided the densities are invertible and inverted exactly.", "quantifier": "every tree, bond dimension, array contents and Hermitian list of terms", "why_tests_cant": "Follows from the variational principle for all states; tests see rounding and discretization errors that hide a systematic drift.", "anchors": ["minitn/algorithms/ml.py:MultiLayer.eom", "minitn/algorithms/ml.py:MultiLayer.direct_step"]}
{"id": "C63", "title": "Propagation obeys the Schroedinger equation", "statement": "In real time (imaginary=False) the derivative that the integrators are given is that of i hbar dψ/dt = (H - E0)ψ, in imaginary time (imaginary=True) that of -hbar dψ/dτ = (H - E0)ψ, where E0 is init_energy (0 if it is not set). This holds for the projector-splitting sweeps and for direct propagation.", "quantifier": "every tree, bond dimension, array contents, list of terms, hbar, init_energy, ODE solver and list of sweeps", "why_tests_cant": "The derivative is passed to the solver at trial points that no test sees, for every network and Hamiltonian; populations of a test model can look plausible with a wrong factor.", "anchors": ["minitn/algorithms/ml.py:MultiLayer.coefficient", "minitn/algorithms/ml.py:MultiLayer._split_prop", "minitn/algorithms/ml.py:MultiLayer.eom", "minitn/algorithms/ml.py:MultiLayer.propagator"]}
{"id": "C64", "title": "autocomplete starts from the lowest configurations", "statement": "The basis vectors that autocomplete gives a tensor are the configurations of its children's indices with the lowest total index, in the order of that total: no configuration with a lower total than a chosen one is left out.", "quantifier": "every tree, all bond dimensions with n_parent <= prod(n_children), every tensor without array", "why_tests_cant": "arbitrary trees and dimensions; tests use equal dimensions, for which the digit order makes no difference", "anchors": ["minitn/models/network.py:autocomplete", "minitn/lib/numerical.py:triangular", "minitn/algorithms/ml.py:MultiLayer.autocomplete"]}
{"id": "C65", "title": "The energy reported by MCTDH is that of the represented state", "statement": "energy_expection(vec) returns the expectation value of the Hamiltonian (the sum of products set by gen_h_terms) in the state that vec represents, i.e. the sum over configurations of the coefficient times the product of single-particle functions.", "quantifier": "all numbers of coordinates, grid points and single-particle functions, all sums of products, all orthonormal (real or complex) single-particle functions and all coefficients", "why_tests_cant": "a test compares the energy for one state; real initial states and equal numbers of single-particle functions hide the errors", "anchors": ["minitn/algorithms/mctdh.py:MCTDH.energy_expection", "minitn/algorithms/mctdh.py:MCTDH.update_mod_terms", "minitn/algorithms/mctdh.py:MCTDH._coeff_op"]}
{"id": "C66", "title": "The MCTDH Hamiltonian gives the equations of motion of MCTDH", "statement": "For every state with orthonormal single-particle functions and every Hamiltonian that is a sum of products of one-dimensional operators, the vector that the Hamiltonian of the MCTDH object returns for its current state (after the projected operators are updated) satisfies the equations of motion: the derivative of each coefficient is the overlap of H Psi with its configuration; the derivatives of the single-particle functions are orthogonal to the single-particle functions of the same coordinate; and multiplied by the (regularized) density matrix they are the part of the mean field of H Psi that lies outside the single-particle functions.", "quantifier": "all numbers of coordinates, grid points and single-particle functions, all states, all sums of products", "why_tests_cant": "A run on a model system cannot tell a wrong projection or a wrong axis from the error of the ansatz; the defects appear only for complex functions, for unequal numbers, or for three and more coordinates.", "anchors": ["minitn/algorithms/mctdh.py: MCTDH.h_mat, term_hamiltonian, _sp_op, _coeff_op, _partial_product, _partial_transform, update_mod_terms"]}
{"id": "C67", "title": "The HEOM projector-splitting integrator integrates the Hamiltonian it was given", "statement": "For every tree tensor network, every list of Hamiltonian terms, every ODE solver and every sequence of one-site and two-site steps: each time the solver evaluates the right-hand side for the current root tensor, it gets the derivative of the energy expectation of the full sum of terms with respect to the conjugate of that tensor, taken at the present arrays. The steps return normally, leave the root and the links as they were, and a one-site step propagates every tensor exactly once forwards and every link exactly once backwards.", "quantifier": "all trees, arrays, term lists, deterministic solvers and histories of steps", "why_tests_cant": "A stale mean field needs a second term and a second tensor, changes no shapes and raises nothing; only the derivative at every solver call, in every history of moves, tells whether a cached value is the right one.", "anchors": ["minitn/heom/propagate2.py: ProjectorSplitting.term_visitor, _form_env, _single_diff, _single_prop, remove_env, move, one_site_step, two_site_step"]}
{"id": "C68", "title": "autocorr yields the overlaps with the initial state and does not disturb the propagation", "statement": "For every tree tensor network and every propagation whose steps keep the tree: autocorr() yields, for as many requests as the consumer makes, the pairs (time, sum over all leaf indices of the propagated state times the conjugate of the initial state), at the times of propagator(); with fast=True the pairs (2*time, sum of the squares of the propagated state), which is the value at twice the number of steps if every step applies a symmetric matrix to a real initial state. Between the yields the network is exactly the one propagator() alone would have: the states, the number of yields and the way the iteration ends (exhausted, stopped by RuntimeWarning, exception) are the same.", "quantifier": "all trees, arrays, bond dimensions (also changing ones), steps that keep the links, numbers of requests, step sizes", "why_tests_cant": "exponentially large sums over arbitrary trees; every history of steps and requests", "anchors": ["minitn/algorithms/ml.py: MultiLayer.autocorr, propagator", "minitn/tensor.py: Tensor.global_inner_product"]}
{"id": "C69", "title": "A Runge-Kutta direct step is the fourth-order Runge-Kutta step of the equations of motion", "statement": "direct_step(ode_inter=dt) with ode_method='RK4' is the classical fourth-order Runge-Kutta step of the equations of motion: every stage uses the derivatives at the arrays of that stage. In particular, for a network with one tensor the new state is (1 + dt L + (dt L)^2/2 + (dt L)^3/6 + (dt L)^4/24) applied to the old one, with L = H/coefficient - init_energy; tree, Hamiltonian and time are kept and nothing is left in aux.", "quantifier": "all networks, all arrays, all sum-of-products Hamiltonians, all step sizes, all coefficients, with and without init_energy", "why_tests_cant": "arbitrary numbers of leaves and terms; an error in the order of the method shows up only in the limit of small steps", "anchors": ["minitn/algorithms/ml.py: MultiLayer.direct_step, eom, _form_env, _form_inv_density"]}
{"id": "C70", "title": "A direct step with a scipy solver integrates the equations of motion with constant mean fields", "statement": "direct_step(ode_inter) with any solver of scipy.integrate, whatever derivatives it asks for, in whatever order and however many: an evaluation never changes the network; the derivative returned for (t, y) is the right-hand side of the equations of motion at the arrays in y with the mean fields and inverse densities of the network at the last refresh (the beginning of the step, and then every cmf_steps solver steps); after each solver step the network holds the arrays of the solver's vector, normalized at the tensors marked as normalized; no exception is raised except the solver's own and the one for too many steps. For a network with one tensor, the derivative is the exact right-hand side H(t) psi / coefficient - init_energy psi.", "quantifier": "all deterministic solvers (any pattern of evaluations, any number of steps, any exception), all trees, arrays, Hamiltonians, cmf_steps >= 1, with and without init_energy, real and imaginary time", "why_tests_cant": "every history of evaluations, steps and refreshes, for arbitrary networks", "anchors": ["minitn/algorithms/ml.py: MultiLayer.direct_step, _solve_ode, eom, _form_env, _form_inv_density, vectorize, tensorize"]}
{"id": "C71", "title": "The poles and residues of the Padé decomposition give the Padé approximant of the Bose function", "statement": "Drude.pade(n) never fails; it returns n positive, increasing poles p and n positive residues r such that 1/x + 1/2 + sum r (1/(x - i p) + 1/(x + i p)) approximates 1/(1 - exp(-x)) for all real x with error at most |x|/4 (x^2/4)^(2n) / ((4n+1)!! (4n+3)!!). So the approximation converges for every x as n grows.", "quantifier": "all n, all real x, any solver that returns the eigenvalues of a symmetric tridiagonal matrix in descending order", "why_tests_cant": "for every order and every argument; tests compare a few orders numerically", "anchors": ["minitn/heom/corr.py: Drude.pade"]}
{"id": "C72", "title": "Each term of the Drude bath is the contribution of a pole", "statement": "Drude(gamma, lambda_, k_max, beta, decompmethod): the first term is the contribution -2 pi i Res exp(-i a t) of the pole -i gamma of the spectral density times the Bose function; each other term is the contribution of a pole of the spectral density times the decomposition of the Bose function. With matsubara all terms are contributions to the exact correlation function, and the bath exists exactly if gamma is not a Matsubara frequency; with pade the decomposition is the approximant of C71.", "quantifier": "all positive gamma and beta, all lambda, all k_max >= 1, all decompositions with distinct positive poles", "why_tests_cant": "an identity of complex analysis for all parameters", "anchors": ["minitn/heom/corr.py: Drude.__init__, matsubara, pade, SpectralDensityFactory.drude_lorentz"]}
{"id": "C73", "title": "Each term of the Brownian bath is the contribution of a pole", "statement": "Brownian(lambda_, omega, gamma, k_max, beta) in the underdamped case: never fails; the first two terms are the contributions of the two poles of the spectral density (divided by pi) times the Bose function in the lower half plane; the other terms are the contributions of the Matsubara frequencies. At zero temperature (beta=None) the two terms are the limits of those at low temperature.", "quantifier": "all 0 < gamma < omega, beta > 0, lambda, k_max", "why_tests_cant": "an identity of complex analysis for all parameters", "anchors": ["minitn/heom/corr.py: Brownian.__init__, spectral_density, SpectralDensityFactory.brownian"]}
{"id": "C74", "title": "The imaginary part of a bath correlation function does not depend on the temperature", "statement": "The imaginary part of sum coeff exp(derivative t) is -lambda gamma exp(-gamma t) for Drude, -lambda omega^2/w1 exp(-gamma t) sin(w1 t) with w1 = sqrt(omega^2 - gamma^2) for Brownian, and the sum of -g^2 sin(omega t) over the modes plus the imaginary part of the given bath for generate_BCF: whatever the temperature (or None), the decomposition and the number of terms.", "quantifier": "all times, parameters, temperatures, real decompositions, numbers of terms, lists of modes", "why_tests_cant": "for all times and parameters", "anchors": ["minitn/heom/corr.py: Drude.__init__, Brownian.__init__", "minitn/models/bath.py: generate_BCF"]}
{"id": "C75", "title": "The Padé decompositions of the Bose and the Fermi function", "statement": "PSD(N, BoseFermi, pade) with pade 1, 2 or 3 never fails for valid arguments and fails with an AssertionError for others; it returns N positive, increasing poles, N positive residues, and the coefficients rn, tn of a linear and a cubic term such that [1/x for bosons] + 1/2 + sum r (1/(x - i p) + 1/(x + i p)) + rn x + tn x^3 approximates 1/(1 - exp(-x)) (BoseFermi=1) or 1/(1 + exp(-x)) (BoseFermi=2) for all real x, with error at most |x|/4 (x^2/4)^M over a product of double factorials, M = 2N + pade//2 for pade 1 and 2; with pade 3 the error is at most |x| (x^2/4)^(2N+2) (N+2)(2N+c+2)/(4(N+1)(2N+c) (4N+c+2)!! (4N+c+4)!!), c = 3 for bosons and 1 for fermions.", "quantifier": "all N, both statistics, pade 1, 2 and 3, all real x, any solver that returns the eigenvalues of a symmetric tridiagonal matrix in descending order", "why_tests_cant": "for every order and every argument; tests compare a few orders numerically", "anchors": ["minitn/heom/bosefermi.py: PSD, tseig"]}
{"id": "C76", "title": "The Matsubara decomposition of the Bose and the Fermi function", "statement": "MSD(N, BoseFermi) and PSD(N, BoseFermi, 0): the returned poles p are exactly the N first points on the positive imaginary axis where 1/(1 - exp(-x)) or 1/(1 + exp(-x)) has a pole, the returned residues are the residues there and at the conjugate points, and the decomposition converges to the function for N to infinity at every complex point that is not a pole. Invalid arguments give an AssertionError.", "quantifier": "all N, both statistics, all complex x that are not poles", "why_tests_cant": "a limit, and all arguments", "anchors": ["minitn/heom/bosefermi.py: MSD, PSD"]}
{"id": "C77", "title": "heom_h_list gives the hierarchical equations of motion of the spin-boson model", "statement": "SpinBoson(h, op, ph_parameters, ph_dims, bath_corr, bath_dims).heom_h_list(sys_i, sys_j, bath_indices, beta, scale=s), with one distinct label per tier, returns a sum of products whose action on an array with these labels is the right-hand side of the hierarchical equations of motion: two terms g^2/2 (coth(beta omega/2) +- 1) exp(-+ i omega t) for every oscillator, each with the dimension of the oscillator as the number of tiers, followed by the terms of the bath. It conserves the trace of the physical density matrix. heom_h_list2 is the same with scale 1. A number of bath_dims that does not fit the bath gives an AssertionError, a scale 0 a ZeroDivisionError, a wrong number of labels an error.", "quantifier": "all system operators, all numbers of oscillators and bath terms, all dimensions, labels, temperatures, scales and extended densities", "why_tests_cant": "an identity of operators for all parameters and arrays", "anchors": ["minitn/models/sbm.py: SpinBoson.heom_h_list, heom_h_list2", "minitn/heom/hierachy.py: Hierachy.h_list, scale", "minitn/models/bath.py: generate_BCF"]}
{"id": "C78", "title": "The scale of the hierarchy does not change the physical density matrix", "statement": "For every nonzero scale s the derivative given by heom_h_list of an extended density whose members of depth n are divided by s^n is the derivative with scale 1, its members divided the same way. So, starting from an extended system density, all time derivatives of the physical density matrix are the same for all scales.", "quantifier": "all models, scales, extended densities, and all orders of the derivative", "why_tests_cant": "all scales and all orders", "anchors": ["minitn/models/sbm.py: SpinBoson.heom_h_list", "minitn/heom/hierachy.py: Hierachy._diff, gen_extended_rho"]}
{"id": "C79", "title": "heom_h_list keeps the physical density matrix Hermitian", "statement": "For Hermitian operators, a real scale and a bath of real decay rates with conjugate coefficients, starting from an extended Hermitian density, all time derivatives of the physical density matrix given by heom_h_list are Hermitian (although the members of the hierarchy of an oscillator are not: each is the adjoint of the member with emission and absorption exchanged).", "quantifier": "all models with any number of oscillators, temperatures, Hermitian densities and all orders of the derivative", "why_tests_cant": "an invariant over all orders for all parameters", "anchors": ["minitn/models/sbm.py: SpinBoson.heom_h_list", "minitn/heom/hierachy.py: Hierachy._diff"]}
{"id": "C80", "title": "wfn_h_list gives the Schrödinger equation of the spin-boson model", "statement": "SpinBoson(h, op, ph_parameters, ph_dims).wfn_h_list(sys_index, ph_indices), with one distinct label per oscillator, returns a sum of products whose action on an array with these labels is -i H psi with H = h + sum_k omega_k (n_k + 1/2) + sum_k g_k op (a_k + a_k^dagger), the oscillators truncated at their dimensions. For Hermitian operators it conserves the norm.", "quantifier": "all system operators, all numbers, frequencies, couplings and dimensions of oscillators, all labels and all states", "why_tests_cant": "an identity of operators for all parameters and arrays", "anchors": ["minitn/models/sbm.py: SpinBoson.wfn_h_list", "minitn/models/particles.py: Phonon"]}
{"id": "C81", "title": "do_l_list gives the von Neumann equation of the spin-boson model", "statement": "SpinBoson(h, op, ph_parameters, ph_dims).do_l_list(sys_i, sys_j, ph_is, ph_js), with one distinct label per oscillator and side, returns a sum of products whose action on a density matrix with these labels is -i (H rho - rho H) with the Hamiltonian of wfn_h_list. It conserves the trace.", "quantifier": "all system operators, all numbers, frequencies, couplings and dimensions of oscillators, all labels and all density matrices", "why_tests_cant": "an identity of operators for all parameters and arrays", "anchors": ["minitn/models/sbm.py: SpinBoson.do_l_list"]}
{"id": "C82", "title": "The coefficients of noise.Drude are those of the bath correlation function", "statement": "Drude(lambda_, omega_0, k_max, beta) gives k_max exponential terms (symm_coeff + i asymm_coeff) exp(-exp_coeff t). Each one is the contribution of one pole of J(w)/(1 - exp(-beta w)) in the lower half plane: the first that of the pole of the spectral density, term k that of the k-th Matsubara frequency.", "quantifier": "all couplings, cut-off frequencies, numbers of terms and inverse temperatures", "why_tests_cant": "an identity of residues for all real parameters", "anchors": ["minitn/heom/noise.py: SpectrumFactory.drude", "minitn/heom/noise.py: Drude"]}
{"id": "C83", "title": "The coefficients of noise.Drude are those of its parameters, whenever they are read", "statement": "exp_coeff, symm_coeff and asymm_coeff of a Drude object have the values that follow from its parameters, in whatever order and however often they are read, and also after a parameter has been changed.", "quantifier": "all parameters and all histories of reads of the properties and changes of the parameters", "why_tests_cant": "all histories", "anchors": ["minitn/lib/tools.py: lazyproperty", "minitn/heom/noise.py: Drude"]}
{"id": "C84", "title": "BoseEinstein.function is the Bose function", "statement": "BoseEinstein(beta).function(w) is 1/(1 - exp(-beta w)) for every nonzero frequency. It is in detailed balance: f(w) = -exp(beta w) f(-w) and f(w) + f(-w) = 1. The value for beta=None is the limit of low temperatures.", "quantifier": "all positive inverse temperatures and all nonzero frequencies", "why_tests_cant": "identities and a limit for all real numbers", "anchors": ["minitn/heom/spd.py: BoseEinstein"]}
{"id": "C85", "title": "BoseEinstein.residues gives the poles and residues of the Bose function", "statement": "BoseEinstein(beta).residues(n, method) returns 2n pairs of a residue and a pole of the Bose function (Matsubara) or of its Padé approximant. It returns nothing for n = 0 and for zero temperature, and refuses negative n and unknown methods.", "quantifier": "all temperatures, all numbers of terms and all names of methods", "why_tests_cant": "holds for all parameters; residues are limits", "anchors": ["minitn/heom/spd.py: BoseEinstein.residues", "minitn/heom/spd.py: BoseEinstein.matsubara", "minitn/heom/spd.py: BoseEinstein.pade1"]}
{"id": "C86", "title": "residues of the spectral densities are their poles and residues", "statement": "Drude(lambda_, gamma).residues() and Brownian(lambda_, gamma, omega_0).residues() of spd.py return the residues and poles of spectral_density, and spectral_density is the sum of residue/(w - pole).", "quantifier": "all parameters and all frequencies", "why_tests_cant": "residues are limits; the identity ranges over all real numbers", "anchors": ["minitn/heom/spd.py: Drude", "minitn/heom/spd.py: Brownian"]}
{"id": "C87", "title": "seom.Hierachy gives the hierarchy of wave functions", "statement": "Hierachy(n_dims, h, op, corr).diff() of seom.py returns a sum of products that acts on every extended wave function as h on the system, with i/2 gamma_k n_k for the occupation numbers, and with op on sqrt(n_k+1) times the member above and c_k sqrt(n_k) times the member below. Under the Schrödinger equation members decay with these exponents.", "quantifier": "all numbers and sizes of the modes, all system operators, all coefficients and all extended wave functions", "why_tests_cant": "an identity of operators for all parameters and arrays", "anchors": ["minitn/heom/seom.py: Hierachy"]}
{"id": "C88", "title": "MultiLayer(root, h_list, f_list, use_str_name) checks its arguments and resolves names", "statement": "The constructor of MultiLayer raises TypeError exactly for pairs of the wrong type. With use_str_name=True it replaces every name by the leaf of that name and keeps operators and their order. A constructor that fails leaves the lists of the caller unchanged, and the same lists can be used again.", "quantifier": "all networks, all lists of terms, all names", "why_tests_cant": "holds for all lists of terms and for the state of the caller's lists after every failure", "anchors": ["minitn/algorithms/ml.py: MultiLayer.__init__", "minitn/heom/propagate.py: MultiLayer.__init__"]}
{"id": "C89", "title": "PO_DVR.set_v_func determines the Hamiltonian", "statement": "After any history of calls (set_v_func, init_state, solve, with or without exceptions) PO_DVR.set_v_func(v_list, v_rst) makes h_mat() the operator sum_i (T_i + v_i) + v_rst on the product grid, and without v_rst the operator sum_i (T_i + v_i).", "quantifier": "all grids, all potentials, all histories of calls, all vectors", "why_tests_cant": "ranges over all histories of calls on one object and all vectors", "anchors": ["minitn/bases/dvr.py: PO_DVR.set_v_func", "minitn/bases/dvr.py: PO_DVR.h_mat", "minitn/bases/dvr.py: PO_DVR._calc_diag", "minitn/bases/dvr.py: PO_DVR.init_state"]}
{"id": "C90", "title": "PO_DVR.propagation solves the Schroedinger equation and yields every accepted step", "statement": "PO_DVR.propagation yields the initial state and every state that the solver reaches after the updater and the normalizer have been applied, with the time, the real and the imaginary part, and then ends; it never yields a state whose energy differs from that of the start by more than const_energy; the function it integrates satisfies i hbar dy/dt = H y with the H of set_v_func.", "quantifier": "all solvers, updaters, normalizers, numbers of steps, tolerances, vectors, potentials and histories of set_v_func", "why_tests_cant": "ranges over all solvers, all numbers of next() calls and all histories", "anchors": ["minitn/bases/dvr.py: PO_DVR.propagation"]}
{"id": "C91", "title": "PO_DVR.autocorrelation yields <psi(0)|psi(2 tau)> for all times before the end", "statement": "PO_DVR.autocorrelation yields for every time tau < stop/2 of the propagation the pair of 2 tau and the autocorrelation function at 2 tau (for a real initial state, a symmetric Hamiltonian and an exact propagation), and then ends.", "quantifier": "all runs of the solver, all stops, all numbers of next() calls; all symmetric Hamiltonians, real initial vectors and times", "why_tests_cant": "ranges over all Hamiltonians, vectors and numbers of steps", "anchors": ["minitn/bases/dvr.py: PO_DVR.autocorrelation"]}
{"id": "C92", "title": "PO_DVR.spectrum decomposes the autocorrelation function into frequencies", "statement": "PO_DVR.spectrum returns frequencies omega_k = 2 pi k/(n tau) and amplitudes sigma_k with C(j tau) = sum_k sigma_k exp(-i omega_k j tau) for every (windowed) value of the autocorrelation function, and refuses times that are not equidistant.", "quantifier": "all numbers of values, all values, window functions and time steps", "why_tests_cant": "ranges over all lengths and all values", "anchors": ["minitn/bases/dvr.py: PO_DVR.spectrum"]}
{"id": "C93", "title": "MCTDH.autocorrelation yields the autocorrelation function of the state", "statement": "MCTDH.autocorrelation yields for every time tau < stop/2 of the propagation 2 tau and the sum over all grid points of psi(x)^2, where psi is the state represented by the vector at time tau; by C91 this is <psi(0)|psi(2 tau)>.", "quantifier": "all runs of the solver, all numbers of coordinates, grid points and single-particle functions, all vectors", "why_tests_cant": "ranges over all shapes, vectors and numbers of steps", "anchors": ["minitn/algorithms/mctdh.py: MCTDH.autocorrelation"]}
{"id": "C94", "title": "MCTDH.gen_h_terms describes the Hamiltonian that was asked for", "statement": "The terms of gen_h_terms add up to the kinetic energy of every coordinate (and with kinetic_only=False its one-dimensional potential) plus every product of functions of extra, for every state of the grid; coordinates that do not exist raise IndexError.", "quantifier": "all numbers of coordinates, boxes, numbers of grid points, potentials, extra terms and histories of set_v_func", "why_tests_cant": "ranges over all potentials, products and histories", "anchors": ["minitn/algorithms/mctdh.py: MCTDH.gen_h_terms", "minitn/bases/dvr.py: SineDVR.t_mat, SineDVR.h_mat"]}
{"id": "C95", "title": "MCTDH.init_state is the product of the lowest one-dimensional eigenstates", "statement": "DVR.solve returns orthonormal eigenvectors of the one-dimensional Hamiltonian whose first component is not negative, such that no vector orthogonal to them has a lower energy; init_state returns a vector with orthonormal real single-particle functions, all of them these eigenvectors, that represents the product of the first ones.", "quantifier": "all numbers of coordinates, one-dimensional Hamiltonians and numbers of single-particle functions", "why_tests_cant": "ranges over all Hamiltonians and shapes", "anchors": ["minitn/algorithms/mctdh.py: MCTDH.init_state", "minitn/bases/dvr.py: DVR.solve"]}
{"id": "C96", "title": "renormalize=True keeps the direction of the state and normalizes it", "statement": "With renormalize=True every vector is replaced by one that represents a positive multiple of the same state, with coefficients of norm 1 and single-particle functions of mean norm 1, and the represented state has norm 1; vectors that are normalized already are not changed.", "quantifier": "all numbers of coordinates, shapes and vectors without vanishing blocks", "why_tests_cant": "ranges over all shapes and vectors", "anchors": ["minitn/algorithms/mctdh.py: MCTDH.propagation (_normalizer)"]}
{"id": "C97", "title": "MCTDH.propagation integrates the MCTDH equations of motion", "statement": "At the vector from which a step starts, be it the initial vector or the one after a step, the function that MCTDH.propagation integrates equals -i/hbar times the derivatives demanded by the MCTDH equations of motion.", "quantifier": "all numbers of coordinates, shapes, vectors, Hamiltonians that are sums of products, values of hbar and previous states of the object", "why_tests_cant": "ranges over all vectors, Hamiltonians and histories of the object", "anchors": ["minitn/algorithms/mctdh.py: MCTDH.propagation, MCTDH.init_state", "minitn/bases/dvr.py: PO_DVR.propagation"]}
{"id": "C98", "title": "A vector of a SineDVR is a spatial function", "statement": "dvr2cont turns a vector with n entries into a function that vanishes outside the box, whose value at grid point i is entry i divided by the square root of the weight L/(n+1), and inner products of functions (integrals over the line) equal inner products of vectors; dvr_func(i) is the function of the i-th unit vector; other lengths and indices raise an exception.", "quantifier": "all boxes with a < b, numbers of grid points and vectors", "why_tests_cant": "the integrals range over all real numbers and the claim over all vectors and sizes", "anchors": ["minitn/bases/dvr.py: DVR.dvr2cont, DVR.fbr2cont, DVR.dvr_func, SineDVR.fbr_func", "minitn/lib/numerical.py: BasisFunction.particle_in_box"]}
{"id": "C99", "title": "t_mat, dq2_mat and dq_mat of a SineDVR are the matrices of the derivatives", "statement": "For the functions f and g of two vectors, the inner product of the first vector with t_mat (dq2_mat, dq_mat) times the second equals the integral of conj(f) times the kinetic energy (second derivative, first derivative) of g; dq_mat is antisymmetric.", "quantifier": "all boxes with a < b, numbers of grid points, masses, values of hbar and vectors", "why_tests_cant": "ranges over all vectors, sizes and boxes; the integrals are over real numbers", "anchors": ["minitn/bases/dvr.py: SineDVR.t_mat, SineDVR.dq2_mat, SineDVR.dq_mat"]}
{"id": "C100", "title": "harmonic_oscillator(n) are the orthonormal eigenfunctions of the harmonic oscillator", "statement": "The functions harmonic_oscillator(n, k, m, hbar) are orthonormal on the line, and function n is an eigenfunction of -hbar^2/(2m) d^2/dx^2 + m k^2 x^2/2 with energy hbar k (n + 1/2).", "quantifier": "all n and all positive k, m, hbar", "why_tests_cant": "infinitely many functions; integrals over the line", "anchors": ["minitn/lib/symbolic.py: BasisFunction.harmonic_oscillator, hermite"]}
{"id": "C101", "title": "g0' and g1' are window functions", "statement": "The window functions of length T are 1 at time 0, 0 at the times T and -T, even, decrease with the distance from time 0 and hence lie in [0, 1] between -T and T.", "quantifier": "all T > 0 and all times between -T and T", "why_tests_cant": "ranges over all real times", "anchors": ["minitn/lib/numerical.py: WindowFunction.g0prime, WindowFunction.g1prime"]}
{"id": "C102", "title": "The potentials have the shapes they are named after", "statement": "w_well is a double well: its minima 0 are at -a and a only, the barrier at 0 has the height d0, and outside the wells it increases; square_well is v0 inside and v0 + depth at the walls and outside; linear_corr(c) couples the first two coordinates only, and two oscillators sho(k) coupled by it have a potential bounded below exactly if |c| <= k**2; harmonic_oscillator(n, k, m) is an eigenfunction in the potential sho(k).", "quantifier": "all parameters and positions", "why_tests_cant": "ranges over all real positions and parameters", "anchors": ["minitn/lib/numerical.py: PotentialFunction.w_well, square_well, linear_corr, sho"]}
{"id": "C103", "title": "A CasDVR represents functions, position and kinetic energy", "statement": "For an orthonormal basis the functions of two vectors have the same inner product as the vectors; the function f that the DVR is built from acts between them by its values at the grid points; t_mat is the matrix of the kinetic energy.", "quantifier": "all orthonormal bases of any size, domains, functions f with inverse inv, masses and values of hbar, all vectors", "why_tests_cant": "ranges over all bases and vectors", "anchors": ["minitn/bases/dvr.py: CasDVR, DVR.dvr2cont, DVR.fbr2dvr_mat", "minitn/lib/symbolic.py: matrix_repr, matrix_element"]}
{"id": "C104", "title": "matrix_repr gives the matrix of an operator", "statement": "Entry (i, j) of matrix_repr(op, basis) is the integral of basis[i] times op(basis[j]).", "quantifier": "all bases, operators and domains", "why_tests_cant": "ranges over all bases and operators", "anchors": ["minitn/lib/symbolic.py: matrix_repr, matrix_element, diff, prod_op"]}
{"id": "C105", "title": "DVR.propagator returns the evolution operators of the split Hamiltonian", "statement": "propagator(tau) returns exp(-i V tau/2/hbar), exp(-i V tau/hbar) and exp(-i T tau/hbar) as matrices; for real potentials they are unitary, and two half steps of the potential make a step; without a potential it raises TypeError.", "quantifier": "all boxes, numbers of grid points, masses, values of hbar, potentials and times", "why_tests_cant": "ranges over all matrices; exponentials of matrices are limits", "anchors": ["minitn/bases/dvr.py: DVR.propagator"]}
{"id": "C106", "title": "With a DVR as basis of a mode the hierarchy uses the ladder operators of that coordinate", "statement": "For a mode with a SineDVR as basis the terms of Hierachy contain the matrices of (q - d/dq)/sqrt(2), (q + d/dq)/sqrt(2) and (q^2 - d^2/dq^2 - 1)/2, where q acts by its values at the grid points and the derivatives are those of the spatial functions; the mode is scaled with the root of the mean of its coefficients; modes without a basis are treated as before.", "quantifier": "all boxes, numbers of grid points, vectors, coefficients and system operators", "why_tests_cant": "ranges over all vectors, sizes and coefficients", "anchors": ["minitn/heom/hierachy.py: Hierachy._raiser, _lower, _numberer, _diff"]}
{"id": "C107", "title": "relative_partition_function is the squared norm gained in imaginary time", "statement": "After propagation in imaginary time with renormalisation at every step, the state times the accumulated norm is the state that the steps without renormalisation give, and relative_partition_function is its squared norm. For a system in a maximally entangled state with its copy this is the ratio of the partition functions Z(beta)/Z(0) of the Hamiltonian, up to the error of the integrator.", "quantifier": "all networks, steps that are homogeneous in the state, numbers of steps, Hamiltonians", "why_tests_cant": "ranges over all states, Hamiltonians and numbers of steps; the renormalisation must commute with every step", "anchors": ["minitn/algorithms/ml.py: MultiLayer.propagator, relative_partition_function, coefficient"]}
{"id": "C110", "title": "The MultiLayer of the HEOM package integrates dA/dt = L A", "statement": "With the generator L in h_list the split and the direct propagation of minitn.heom.propagate obey hbar dA/dt = L A (minus the energy shift) for the coefficient tensor that is evolved, resp. for all variations of the state, and the same with -hbar in imaginary time.", "quantifier": "all networks, generators, sweeps and regular states", "why_tests_cant": "ranges over all networks, arrays and sequences of sweeps", "anchors": ["minitn/heom/propagate.py: MultiLayer.coefficient, eom, _split_prop, propagator"]}
{"id": "C108", "title": "autocomplete(max_entangled=True) prepares the maximally entangled state", "statement": "For a network in which every physical leaf hangs together with its copy below a tensor of its own, autocomplete(n_bond_dict, max_entangled=True) returns normally whenever the requested dimensions fit, changes nothing but arrays of tensors, leaves a complete network of the requested shape in canonical form, and the state it represents is the maximally entangled one: the product over the pairs of 1/sqrt(n) if both leaves have the same index and 0 otherwise.", "quantifier": "all networks with pairs of leaves, bond dimensions, local Hamiltonians and settings of the Davidson solver", "why_tests_cant": "ranges over all trees, dimensions and Hamiltonians; the state is exponentially large", "anchors": ["minitn/algorithms/ml.py: MultiLayer.autocomplete, _local_matvec", "minitn/heom/propagate.py: MultiLayer.autocomplete, _local_matvec", "minitn/lib/numerical.py: DavidsonAlgorithm"]}
{"id": "C109", "title": "MultiLayer.settings sets the named options and nothing else", "statement": "solver.settings(**options) gives every option named the value given, as seen by all solvers of that class that do not have an attribute of their own of that name, and leaves all others as they are. A name the class does not have raises AttributeError. Solvers of unrelated classes are not affected.", "quantifier": "all classes, objects, options and values", "why_tests_cant": "ranges over all sets of options and all objects that share the class", "anchors": ["minitn/algorithms/ml.py: MultiLayer.settings", "minitn/heom/propagate.py: MultiLayer.settings"]}
{"id": "C111", "title": "Network finds the root and keeps one array per tensor", "statement": "Network(template) finds the root of the network from whatever tensor of it is given. net[t] returns what was assigned to net[t], assignment to one tensor does not change others, an array is never overwritten (RuntimeError), and objects outside the network are refused (KeyError). as_template() gives a network without arrays, copy() one with the same arrays.", "quantifier": "all tree networks, tensors and arrays", "why_tests_cant": "ranges over all networks and all starting tensors", "anchors": ["minitn/structures/states.py: Network.__init__, __getitem__, __setitem__, as_template, copy"]}
{"id": "C112", "title": "Network.vectorize and Network.tensorize are inverse", "statement": "vectorize() lists the entries of the arrays of the network, and tensorize(vec) makes a network with the arrays that vec lists: each undoes the other.", "quantifier": "all tree networks, shapes and vectors", "why_tests_cant": "ranges over all networks, shapes and vectors", "anchors": ["minitn/structures/states.py: Network.vectorize, Network.tensorize"]}
{"id": "C113", "title": "Network.deepcopy and Tree.partial_env return", "statement": "deepcopy() returns an independent copy of the network, and partial_env() the mean fields of the state.", "quantifier": "all tree networks, states and operators", "why_tests_cant": "ranges over all networks and states", "anchors": ["minitn/structures/states.py: Network.deepcopy, Tree.partial_env"]}
{"id": "C114", "title": "linear_discretization represents the spectral density", "statement": "linear_discretization(J, stop, num, start) returns num modes (omega, g), one per cell of the interval, with omega in that cell; the sums of g^2 and of g^2 omega are the integrals of J and of omega J. For more and more modes the sum of g^2 f(omega) tends to the integral of J f for every continuous f. A cell without weight raises ZeroDivisionError.", "quantifier": "all spectral densities that are continuous on the interval, intervals and numbers of modes", "why_tests_cant": "ranges over all densities, functions and numbers of modes; the last part is a limit", "anchors": ["minitn/models/bath.py: linear_discretization"]}
{"id": "C115", "title": "SpinBosonModel builds the documented Hamiltonian", "statement": "SpinBosonModel(e1, e2, v, omega_list, lambda_list, dim_list, relaxation_list).h_list is a sum of products for H_e + 1/2 sum_j (p_j^2 + omega_j^2 (q_j - 2 c_j/omega_j^2 |2><2|)^2) with c_j = omega_j sqrt(lambda_j/2), and the relaxation terms; leaves and dimensions are those of the degrees of freedom, all leaves are distinct; f_list is the pulse at every time. Missing parameters raise AttributeError. With including_bath=True the discretised outer bath is added in the same way.", "quantifier": "all parameters and numbers of vibrations, all wave functions", "why_tests_cant": "ranges over all numbers of vibrations, parameters and wave functions", "anchors": ["minitn/models/spinboson.py: SpinBosonModel.__init__, electron_hamiltonian, vibration_hamiltonian, inner_hamiltonian, outer_hamiltonian, relaxation_hamiltonian, td_electron_hamiltionian, inner_leaves"]}
{"id": "C116", "title": "The propagation on a grid conserves the norm and can be reversed", "statement": "Propagator(wfn, basis, func, conj_func)(t0, dt, max_iter) yields max_iter + 1 wave functions for the times t0 + j dt. For real functions the sum of |psi|^2 over the grid is the same in all of them. For functions that do not depend on time, propagating the last one with -dt yields the same wave functions in the opposite order. With renormalize=True each wave function after the first has norm 1, and times renormalization_coeff it is the one of the run without renormalization. For max_iter = N and dt = T/N with N growing the wave functions tend to the solution of the Schroedinger equation on the grid, also for functions that depend on time.", "quantifier": "all grids, wave functions, potentials, steps and numbers of iterations", "why_tests_cant": "ranges over all grids, potentials, wave functions and numbers of iterations", "anchors": ["minitn/bases/girds.py: Propagator.__init__, Propagator.__call__, Propagator.normalize, GridBasis.exp, GridBasis.inner_product, GridBasis.norm"]}
{"id": "C117", "title": "gaussian_wfn is a normalised packet of least uncertainty", "statement": "gaussian_wfn(x0, p0, alpha, hbar) is normalised, has mean position x0 and variance 1/(2 alpha), mean momentum p0 and variance hbar^2 alpha/2, so that the product of the uncertainties is hbar/2.", "quantifier": "all x0, p0, alpha > 0 and hbar != 0", "why_tests_cant": "ranges over all real parameters and states integrals over the real line", "anchors": ["minitn/bases/girds.py: gaussian_wfn"]}
{"id": "C118", "title": "init_state and solve of a product DVR give the ground state of a separable potential", "statement": "PO_DVR.init_state() returns the product of the normalised ground states of the coordinates, a vector of norm 1. For a separable real potential it is the ground state of h_mat(): an eigenvector whose energy is the sum of the lowest energies of the coordinates, and no vector has a lower energy. solve(1, davidson=True) returns it, up to its sign, with this energy. solve(m) returns the m lowest energies, the lowest being this one, and rows that are orthonormal eigenvectors of h_mat() with these energies. mu_mat(dim) returns the dipole operator of direction dim, up to a constant factor.", "quantifier": "all boxes, numbers of grid points, real potentials, histories of calls and settings of the Davidson method", "why_tests_cant": "ranges over all grids and potentials; the statement about all vectors is an inequality on a space of exponential dimension", "anchors": ["minitn/bases/dvr.py: PO_DVR.init_state, PO_DVR.solve, PO_DVR.mu_mat, PO_DVR.h_mat"]}
{"id": "C119", "title": "Network lists its objects and links correctly", "statement": "For a network that is a tree: vertices lists every object once, starting with the root; leaves and nonleaves part them; edges lists every link once, in one direction; directed_edges lists every link in both directions; subleaves lists the tensors the leaves are linked to, in the order of the leaves (KeyError for a leaf not linked by axis 0).", "quantifier": "all tree networks", "why_tests_cant": "ranges over all networks", "anchors": ["minitn/structures/states.py: Network.vertices, edges, directed_edges, Tree.leaves, nonleaves, subleaves", "minitn/tensor.py: Tensor.linkage_visitor"]}
{"id": "C120", "title": "Expectation values are real and obey the variational principle", "statement": "expection(normalized, op) returns a real number for every state and every Hermitian sum of products of operators, including operators that depend on time: its check of the imaginary part never fails. With normalized=True the value lies between every lower and every upper bound of the operator, and if it equals a lower bound then the state is an eigenvector. For other operators it raises AssertionError exactly if the imaginary part is not negligible, and for the state zero if normalized=True.", "quantifier": "all tree networks, states, lists of terms, times and bounds", "why_tests_cant": "ranges over all states and operators; the variational principle is an inequality on a space of exponential dimension", "anchors": ["minitn/algorithms/ml.py: MultiLayer.expection, term_visitor"]}
{"id": "C121", "title": "Norm of a network and angle between two networks", "statement": "global_norm() is the norm of the dense state vector and 0 only for the zero vector. hilbert_angle(r1, r2), for two nonzero networks of the same form (possibly with different bond dimensions), is the angle between the two state vectors in degrees: in [0, 180], with the normalised inner product as cosine; 0 exactly if the states differ by a positive factor, 180 exactly if by a negative one, 90 exactly if they are orthogonal; it does not depend on the order of r1 and r2 and changes no array or link. If a state is zero it is nan.", "quantifier": "all pairs of tree networks of the same form, all arrays and bond dimensions", "why_tests_cant": "ranges over all trees and arrays; the range of arccos rests on the Cauchy-Schwarz inequality", "anchors": ["minitn/tensor.py: Tensor.global_norm, Tensor.hilbert_angle, global_inner_product, global_square"]}
{"id": "C122", "title": "autograph_with_aux pairs every degree of freedom with a mirror", "statement": "The graph returned by SpinBosonModel.autograph_with_aux gives every degree of freedom x a node with the two children x and its mirror x', and records for the mirror the dimension of x. The network with the returned root contains every degree of freedom and every mirror, and no node has two parents.", "quantifier": "all lists of vibrations with distinct names, with and without bath", "why_tests_cant": "ranges over all numbers of vibrations", "anchors": ["minitn/models/spinboson.py: SpinBosonModel.autograph_with_aux, _update"]}
{"id": "C123", "title": "The effective operator of DMRG is the whole operator seen from a site or a pair", "statement": "EnvTensor(L, W, R) with the environments of site i: the product with a vector of the size of the site never fails, and u.(H v) is the matrix element of the whole matrix product operator between the chain with v as matrix of site i and the chain with u there. The same holds for a pair of sites with the coarse-grained matrices and operator. So the Rayleigh quotient minimized at a site is the energy of the whole state. A vector of another size is refused.", "quantifier": "all chains, all bond dimensions and physical dimensions, all sites, all matrix product operators, all pairs of vectors", "why_tests_cant": "ranges over chains of every length and all entries; a wrong index in an einsum can hide for symmetric operators", "anchors": ["minitn/algorithms/dmrg.py: EnvTensor, opt_one_site, contract_left, contract_right, coarse_grain_mpo, coarse_grain_mps, mat_element"]}
{"id": "C124", "title": "Without truncation the energy of DMRG never rises and stays above the ground state energy", "statement": "dmrg1 and dmrg2 with a symmetric operator and a right-canonical (normalized) start, where the eigensolver and the singular value decompositions are exact and nothing is truncated (dmrg1: trunc is at least the bond dimensions of the start; dmrg2: no trunc): no call fails; every intermediate state and the result are normalized; the energy <mps|mpo|mps> of every state is at most that of every earlier state and of the start; it is at least any lower bound of the operator on the whole space; the result is right-canonical except for its first site (dmrg1) or first two (dmrg2); as the number of sweeps grows the energies converge.", "quantifier": "for all chains, local dimensions, bond dimensions, symmetric operators and numbers of sweeps", "why_tests_cant": "The variational property must hold at every one of unboundedly many local optimizations, for every operator and every start; a test sees a few energies of one model and cannot tell a converging sequence from one that rises by a rounding-sized mistake in the gauge.", "anchors": ["minitn/algorithms/dmrg.py: dmrg1, dmrg2, opt_one_site, move_right, move_left, fine_grain_mps, coarse_grain_mps, mat_element"]}
{"id": "C125", "title": "fm_state is the documented product state, and DMRG of the Heisenberg model may start from it", "statement": "fm_state(N, anti) (N even if anti) has N matrices of shape (2,1,1), its amplitude is 1 for the documented configuration ++...+ or +-+-...+- and 0 for all others, and every matrix is left- and right-canonical. Its energy in heisenberg(N, J, Jz, h) is (N-1)Jz/8 - Nh/2 for the ferromagnet and -(N-1)Jz/8 for the antiferromagnet (Jz/2 per bond: see C34). dmrg1 (trunc >= 1) and dmrg2 (no trunc) of heisenberg(N, ...) from it never fail and return a normalized state with an energy between the ground state energy and that of the start. For odd N, anti=True gives N-1 matrices, and dmrg1 with the operator of N sites raises IndexError.", "quantifier": "for all N >= 2, all couplings and fields, all numbers of sweeps", "why_tests_cant": "The chain length and the couplings are unbounded; the shortened chain for odd N is an edge case no test covers.", "anchors": ["minitn/algorithms/dmrg.py: fm_state, heisenberg, dmrg1, dmrg2, mat_element"]}
{"id": "C126", "title": "The truncation error of unite_split is the weight of the discarded singular values", "statement": "unite_split(i, rank, err) at the root of a canonical tensor tree, towards a neighbour that is not a leaf, with an exact singular value decomposition: it returns normally; the result is a tree again, rooted at and canonical around the neighbour; at least one singular value of the matrix of the two multiplied tensors is kept. With err absent, min(rank, all) are kept; with err = e >= 0, the discarded ones sum to at most e. The squared norm of the state before is the sum of the squares of all singular values; the squared norm after, and the overlap of the states before and after, are the sum of the squares of the kept ones; the squared distance of the two states is the sum of the squares of the discarded ones. So with err = e the state moves by at most e in norm. If the singular values fall, the result is the best possible: no other pair of arrays for the two tensors, with at most that bond dimension between them, gives a state nearer to the state before.", "quantifier": "for all canonical trees, all bonds at the root, all positive ranks or none, all err or none", "why_tests_cant": "The truncation is local but the claim is about the whole state: it depends on the canonical form of every other tensor, for every tree and every bond. A test compares two dense states of one small tree.", "anchors": ["minitn/tensor.py: Tensor.unite_split, Tensor.unite, Tensor.split", "minitn/lib/numerical.py: compressed_svd", "minitn/algorithms/ml.py: MultiLayer.move (svd_rank, svd_err)"]}
{"id": "C127", "title": "Projector-splitting sweeps conserve norm and energy", "statement": "Take a MultiLayer object whose network is a canonical tensor tree with norm 1, with time-independent terms such that the operator divided by coefficient() is anti-Hermitian (and init_energy likewise), exact decompositions, and an ODE solver that conserves <y|y> and <y|W|y> for linear equations y' = W y with anti-Hermitian W (the exact solution does). After any number of split_step, snd_order_step, r_split_step and (with an untruncated decomposition) unite_step sweeps, in any order, with any step sizes, forwards or backwards, the call returned normally, the tree, its root and its canonical form are as before, the norm of the state is 1 and the expectation value of the operator is the one of the start.", "quantifier": "for all tensor trees, all lists of terms, all conservative solvers, all sequences of sweeps over single tensors, links and pairs with all step sizes", "why_tests_cant": "The claim is about the interplay of the projection on single tensors, the splitting of tensors, the backward propagation of the links, the stored mean fields and the changing root, over an arbitrary number of sweeps and for every tree; a test sees one tree, and only up to the error of its solver.", "anchors": ["minitn/algorithms/ml.py: MultiLayer._split_prop, MultiLayer._single_split_unite, MultiLayer.split_step, MultiLayer.snd_order_step, MultiLayer.r_split_step, MultiLayer.coefficient, MultiLayer.remove_env", "minitn/tensor.py: Tensor.split, Tensor.unite, Tensor.normalize"]}
{"id": "C128", "title": "Truncation in two-site DMRG", "statement": "Splitting a pair of matrices with fine_grain_mps(..., trunc) in a chain that is canonical around the pair keeps the first trunc singular values: the squared norm of the new state is the sum of their squares, its squared distance from the state before is the sum of the other squares, and no larger than the square of the compress error of compress_svd; no other pair of matrices with a bond dimension of at most trunc gives a state nearer to the state before. dmrg2(mpo, initial_mps, trunc, sweeps) with a symmetric operator and a right-canonical start never fails for any trunc; all bond dimensions of the result are at most trunc (three or more sites, two or more sweeps); the result is normalized, and comes by one truncation from a normalized state with the least energy among all that differ from it in two neighbouring matrices.", "quantifier": "for all chains, operators, truncations and numbers of sweeps, all exact singular value decompositions and eigensolvers", "why_tests_cant": "A test sees a few chains and mostly a trunc that removes nothing; the claim is about every truncation at every pair in every sweep.", "anchors": ["minitn/algorithms/dmrg.py: compress_svd, fine_grain_mps, dmrg2"]}
{"id": "C129", "title": "Truncation in one-site DMRG", "statement": "dmrg1(mpo, initial_mps, trunc, sweeps) with any positive trunc, a symmetric operator, a right-canonical start of at least two matrices and at least two sweeps does not fail; all bond dimensions of the result are at most trunc even if those of the start are not; the result is normalized and right-canonical but for its first matrix. Only the first sweep to the right truncates: from the first optimization of the last matrix on all states are normalized and their energies never rise, so with more and more sweeps they converge. Each step of a sweep to the right keeps the first trunc singular values: the squared norm of the state becomes the sum of their squares, its squared distance from the state before is the sum of the others. No other pair of matrices with a bond dimension of at most trunc gives a state nearer to the state before.", "quantifier": "for all chains, operators, positive truncations and numbers of sweeps, all exact singular value decompositions and eigensolvers", "why_tests_cant": "A test runs a few chains, mostly with a trunc that removes nothing; the claim is about every truncation in every sweep.", "anchors": ["minitn/algorithms/dmrg.py: compress_svd, dmrg1"]}
{"id": "C130", "title": "The dense matrix of the spin-boson hierarchy", "statement": "dense_h of a spin-boson model returns the matrix of the generator that its sum of products describes: the matrix times the flattened extended density is the flattened derivative.", "quantifier": "for all models, labels, temperatures and term lists", "why_tests_cant": "A test compares one matrix of one model; the claim is about every model, every term list and every density.", "anchors": ["minitn/models/sbm.py: SpinBoson.dense_h"]}
{"id": "C131", "title": "Propagation on pairs of real numbers", "statement": "The setting ode_in_real=True changes only the representation in which the ODE solver works: a propagation by projector splitting gives what the same method gives on complex numbers.", "quantifier": "for all networks, sums of products, solvers, settings and sequences of sweeps", "why_tests_cant": "The setting takes effect in every propagation of every tensor of a sweep, and its failure is silent: no exception reaches the caller. A test of one network does not tell that no network and no solver is ever propagated.", "anchors": ["minitn/algorithms/ml.py: MultiLayer._solve_ode, MultiLayer._split_prop", "minitn/heom/propagate.py: MultiLayer._solve_ode"]}
{"id": "C132", "title": "Regularized inverse densities", "statement": "With pinv=False and a positive regular_err, the equations of motion of the direct method have a value for every network, also when densities are singular as in a product state. The matrix used for a tensor is the inverse of its density matrix plus regular_err times the identity; the density is Hermitian and positive semidefinite; the matrix has a norm of at most 1/(lam + regular_err) and its product with the density differs from the identity by at most regular_err/(lam + regular_err), lam being the lowest eigenvalue of the density. The norm of the state does not change along the equations of motion if the Hamiltonian is Hermitian.", "quantifier": "for all trees, shapes, arrays, Hamiltonians and values of regular_err", "why_tests_cant": "That every density of every network is positive semidefinite, hence that the sum is invertible whatever the ranks are, is a statement about all trees and all arrays; the bounds hold for all vectors.", "anchors": ["minitn/algorithms/ml.py: MultiLayer._form_inv_density, MultiLayer.regular_err, MultiLayer.pinv, MultiLayer.eom", "minitn/tensor.py: Tensor.partial_env"]}
{"id": "C133", "title": "With complete bases the propagation is exact", "statement": "If the array of the root has as many entries as there are configurations of the leaves, then the network can represent every state and no method makes a projection error. The derivative of the direct method is that of coef dψ/dt = (H - coef init_energy) ψ at every configuration, whatever the inverses of the densities and however they are regularized. The propagation of the root in the projector-splitting methods with an exact integrator is the multiplication of the state by exp(tau (H - init_energy) / coef). A network of a single tensor is always of this kind, and there any sequence of steps of split_step and r_split_step is the exact propagation over the sum of the times.", "quantifier": "for all trees, shapes, arrays in canonical form, Hamiltonians of product terms, inverses, times, and sequences of steps", "why_tests_cant": "The claim is an equality of all amplitudes for every tree, state and Hamiltonian, and with an exact integrator, which no run has.", "anchors": ["minitn/algorithms/ml.py: MultiLayer.eom, MultiLayer.direct_step, MultiLayer._single_eom, MultiLayer._form_inv_density, MultiLayer._split_prop, MultiLayer.split_step, MultiLayer.r_split_step"]}
{"id": "C134", "title": "With complete bases the sweeps are exact", "statement": "Let every tensor of the network span the whole space of its branch (the link to its parent has as many indices as its other links together, and not more than the other links of the parent), let the root have as many entries as there are configurations of the leaves, and let the decompositions drop no singular value. Then the projector-splitting error is zero: any sequence of steps of split_step, forward or backward, of snd_order_step with split_step, of r_split_step, of first or second order, and, in a network of at least two tensors, of unite_step, with an exact integrator for the local equations, multiplies the state by exp(t (H - init_energy) / coef), where t is the sum of the times. The propagation of a tensor and the back-propagation of the link above it cancel. A network of one tensor is left unchanged by unite_step.", "quantifier": "for all trees, complete shapes, arrays in canonical form, Hamiltonians of product terms, times, and sequences of steps", "why_tests_cant": "The claim is an equality of all amplitudes for every tree, state and Hamiltonian, and with an exact integrator, which no run has.", "anchors": ["minitn/algorithms/ml.py: MultiLayer.split_step, MultiLayer.snd_order_step, MultiLayer.r_split_step, MultiLayer.unite_step, MultiLayer._split_prop, MultiLayer.move_to, MultiLayer._form_env", "minitn/tensor.py: Tensor.split, Tensor.unite_split"]}
{"id": "C135", "title": "heom_h_list with DVRs for the tiers", "statement": "heom_h_list of a spin-boson model accepts a DVR for every tier. It then returns the terms of the hierarchical equations of motion in which the number, raising and lowering operators of the tier are (x^2 - d^2/dx^2 - 1)/2, (x - d/dx)/sqrt(2) and (x + d/dx)/sqrt(2) of the DVR, in units of the square root of the mean of the two bath coefficients (for an oscillator g^2 coth(beta omega/2)/2), under the label of the tier; without DVRs the terms are those of C77.", "quantifier": "for all models, temperatures, labels, and lists of DVRs", "why_tests_cant": "The claim is about all functions that a DVR represents, all coefficients and any number of tiers.", "anchors": ["minitn/models/sbm.py: SpinBoson.heom_h_list", "minitn/heom/hierachy.py: Hierachy.h_list, Hierachy._diff, Hierachy._raiser, Hierachy._lower, Hierachy._numberer"]}
{"id": "C136", "title": "unzip gives the columns in whatever order they are read", "statement": "unzip(rows) returns one iterator for each entry of the first row. Whatever the order in which next is called on these iterators, the k-th call on the i-th one gives rows[k][i], IndexError if row k is too short, and StopIteration after the last row. The rows are read one by one and only when needed: as many as the iterator that has advanced farthest has asked for, and at least one. Without a row unzip raises StopIteration.", "quantifier": "for all sequences of rows of any lengths and all interleavings of the calls", "why_tests_cant": "The iterators share buffers, and the claim is about every interleaving of calls on them.", "anchors": ["minitn/lib/tools.py: unzip", "minitn/lib/numerical.py: DavidsonAlgorithm"]}
{"id": "C137", "title": "PO_DVR with fast=True has the same Hamiltonian as with fast=False", "statement": "Two PO_DVR objects that differ only in the argument fast, after the same calls of set_v_func and init_state, also calls that raise: h_mat() applied to a vector gives the same result, or raises the same exception, for both; and the next set_v_func ends in the same way for both. So with fast=True, too, set_v_func(v_list, v_rst) makes h_mat() the sum of the one-dimensional Hamiltonians and the residual potential.", "quantifier": "for all grids, all histories of calls with potentials that give one value for each point or raise, and all vectors", "why_tests_cant": "The claim compares two implementations on every vector after every history of calls, with cached operators and exceptions.", "anchors": ["minitn/bases/dvr.py: PO_DVR.__init__", "minitn/bases/dvr.py: PO_DVR.set_v_func", "minitn/bases/dvr.py: PO_DVR.h_mat", "minitn/bases/dvr.py: FastSineDVR.h_mat"]}
{"id": "C138", "title": "The exponential of a potential for several states is the matrix exponential at every point", "statement": "For several states and a Hermitian potential v, GridBasis.exp(c, v)(f) is, at every point x of the grid, the exponential of the matrix c * v(x) applied to the vector f(x) of the states, whatever eigenvectors linalg.eigh chooses. So exp(-1j*dt/hbar, v) conserves the norm at every point, exp(-c, v) undoes exp(c, v), two steps are one step with the sum of the factors, and exp(c, v) commutes with mop(v), the multiplication with v. States that are not coupled get what the code for one state gives.", "quantifier": "for all numbers of states and points, all Hermitian potentials, wave functions and factors", "why_tests_cant": "The eigenvectors of a matrix with degenerate eigenvalues are not unique, and the claim is about all matrices and all sizes.", "anchors": ["minitn/bases/girds.py: GridBasis.exp", "minitn/bases/girds.py: GridBasis.mop"]}
{"id": "C139", "title": "The propagation of coupled states on a grid conserves the norm and can be reversed", "statement": "Propagator(wfn, basis, func, conj_func)(t0, dt, max_iter) for a wave function of several states and potentials that are Hermitian matrices at every point yields max_iter + 1 wave functions for the times t0 + j dt, and all have the same total probability (the sum of |psi_i(x)|^2 over the states and the points of the grid), also if the potentials depend on time. A step with dt followed by one with -dt in the same potentials gives back the wave function. For potentials that do not depend on time, propagating from the last wave function with -dt yields the same wave functions in the opposite order. With renormalize=True every wave function after the first has the norm 1; times renormalization_coeff it is the wave function of the propagation without renormalization, and renormalization_coeff is the norm of that one.", "quantifier": "for all grids with at least two points, numbers of states, Hermitian potentials, wave functions, time steps and numbers of iterations", "why_tests_cant": "ranges over all potentials, wave functions and numbers of steps", "anchors": ["minitn/bases/girds.py: Propagator.__call__", "minitn/bases/girds.py: GridBasis.exp", "minitn/bases/girds.py: GridBasis.keep_ft_type", "minitn/bases/girds.py: Propagator.normalize"]}
