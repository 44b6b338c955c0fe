# Design

Formal model, in Lean 4 with Mathlib, of `vINyLogY/minimisTN` (Python, `/repo`, read as text), and proofs of the properties
in `properties.jsonl` about it. `MANIFEST.json` lists the theorems of each property.

## Layout

| directory | content |
|---|---|
| `lean/Verif/Py` | Python values the code relies on: exceptions, insertion-ordered `dict`s |
| `lean/Verif/Nd` | numpy: row-major arrays, `reshape`, `transpose`, `moveaxis`, `swapaxes`, `tensordot`, `dot`, `einsum` |
| `lean/Verif/Model` | the code of `/repo`, function by function, every definition citing file and lines |
| `lean/Verif/Spec` | small independent specifications (textbook definitions, no model helpers) |
| `lean/Verif/Lemmas` | helper lemmas |
| `lean/Verif/Props` | the property theorems `Cxx_...`, with an instance beside each showing that its hypotheses are met |
| `seeded/LOG.jsonl` | wrong programs tried against the theorems |

Names: a theorem `Cxx_..._violated` proves that the code does *not* have the property, by a concrete witness; a theorem
`Cxx_..._partial` proves a part of a property. The part that is missing is said in the note in `MANIFEST.json` and below.

## Modelling conventions

* Python exceptions are values (`Except PyErr`), branch by branch; a theorem about "raises" is a theorem about the `error`
  result. Methods that mutate objects are functions from the old heap to the new heap.
* `Tensor` objects are numbers into a heap (`Heap`); equality is identity, as in Python (`Tensor` defines no `__eq__`).
  `_access`, `_partial_env`, `env_` ... are insertion-ordered dictionaries with unique keys.
* An `ndarray` is a shape and a flat row-major list of entries. `reshape` keeps the list; `transpose`/`moveaxis` rebuild it
  through multi-indices; `tensordot`/`dot`/`einsum` are finite sums.
* Entries are elements of a commutative (star) ring or field, or of `ℝ`/`ℂ` where the code needs special functions. Theorems
  over a ring hold for every ring, so also for complex numbers.
* External solvers (SVD, eigensolvers, ODE solvers, matrix rank) enter as parameters constrained by their mathematical
  contract, so the theorems hold for every answer they may give. Where possible a contract is discharged by a proved
  instance, so that it is known to be satisfiable.
* Generators are modelled by the list of values they yield; recursion over object graphs is modelled with fuel, and the
  theorems show that the fuel suffices. The main theorems have the hypothesis "fuel > depth of the tree".
* A *network* is described to the specification by its tree: `IsTree h r none F` says that the objects linked to `r` form the
  finite rooted tree `F`; `IsTTN h r F` adds that every tensor has an array whose shape fits its links. `treeAmp h r F x` is the
  state it represents: the full sum over all bond indices of the product of the entries, at leaf indices `x`.

## Trusted base

* Lean's kernel, version 4.33.0, and the compiled Mathlib that comes with it.
* The axioms `propext`, `Classical.choice`, `Quot.sound`, and no others: see the table at the end, which is the output of
  `#print axioms`. No `sorry`, `native_decide`, `bv_decide`, `implemented_by` or axiom of our own.
* That the hand-written model says what the Python text says. Every definition cites the lines it models and names its
  simplifications. `seeded/LOG.jsonl` records the attempts to change the model as a bug would change the program.
* That the specifications (`lean/Verif/Spec` and the theorem statements) say what the English properties say.

### General simplifications

* Exact arithmetic: rounding, overflow, `nan`, infinities and data types are not modelled. Where numpy gives `inf`/`nan` with a
  warning for a division by zero, the model has a `ZeroDivisionError` (`Corr`, `Davidson`, `Grids`), or gives 0 with theorems that
  exclude the case (`Normalize`, `SineDvr`).
* Arrays are values: aliasing of numpy arrays (views, in-place changes of an array that another object also holds) is not modelled.
* Operations on arrays of different shapes raise `ValueError`: broadcasting is not modelled except where the code relies on it.
* `logging`, printing, plotting, file output and the optional numerical self-checks (`check=True`) are not modelled.

### Which code is modelled

| file | modelled | not modelled |
|---|---|---|
| `tensor.py` | everything but the parts on the right | `__repr__`, `__getitem__`/`__setitem__`/`__delitem__` (modelled as dictionary operations where used), `Leaf.generate_leaves` |
| `algorithms/ml.py` | `triangular`, `__init__`, `autocomplete`, `_local_matvec`, `term_visitor`, `matrix_element`, `expection`, `dense_hamiltonian`, `_single_eom`, `_form_inv_density`, `_form_env`, `eom`, `coefficient`, `direct_step`, `log_inner_product`, `_solve_ode`, `_split_prop`, `remove_env`, `move`, `snd_order_step`, `split_step`, `unite_step`, `r_split_step`, `propagator`, `autocorr`, `relative_partition_function`, `settings` | `ode_in_real` in `direct_step`, `print_hamiltonian` |
| `algorithms/dmrg.py` | everything | plotting and printing |
| `algorithms/mctdh.py` | state vector packing, `update_mod_terms`, `h_mat`, `term_hamiltonian`, `_sp_op`, `_coeff_op`, `_partial_product`, `_partial_transform`, `get_sub_vec`, `energy_expection`, `gen_h_terms`, `init_state`, `propagation`, `autocorrelation` | `fast=True` (`np.dot` of a `LinearOperator` and an array makes an array of scaled operators; what follows depends on the versions of numpy and scipy) |
| `heom/propagate.py` | `MultiLayer.coefficient`; the rest is `ml.py` up to formatting, except that `expection` does not take the real part (`ML.expection`) | |
| `heom/propagate2.py` | `ProjectorSplitting` | the `ode_method`s that start with `R` (they raise `ValueError`) |
| `bases/dvr.py` | `DVR`, `SineDVR`, `FastSineDVR`, `CasDVR`, `dvr2cont`, `propagator`, `PO_DVR` index and Hamiltonian parts, `init_state`, `solve`, `mu_mat`, `propagation`, `autocorrelation`, `spectrum` | plotting |
| `bases/girds.py` | everything on the values at the grid points | interpolation between the points |
| `heom/hierachy.py`, `eom.py`, `eom2.py`, `corr.py`, `network.py`, `bosefermi.py`, `noise.py`, `spd.py`, `seom.py` | everything | `propagate.py` beyond what it shares with `ml.py` |
| `lib/numerical.py` | `DavidsonAlgorithm`, `compressed_svd`, `triangular`, the window functions, `particle_in_box`, the potentials `linear_corr`, `square_well`, `w_well`, `sho` | `quadrature` (a parameter) |
| `lib/tools.py`, `lib/units.py` | `huffman_tree`, `iter_visitor`, `lazyproperty`, `unzip`; unit conversion | `time_this`, `figure` |
| `models/` | `particles.py`, `bath.py`, `network.py`, `sbm.py`, `spinboson.py` | `vibronic.py` (unfinished: its two properties return `None`) |
| `lib/symbolic.py` | everything; expressions are functions, derivatives and integrals are those of Mathlib | `lambdify` |
| `structures/operators.py` | nothing | the whole file: a stub whose `__call__` is unfinished |
| `structures/states.py` | everything | the empty methods `split`, `unite`, `split_unite`, `unite_split` |
| `lib/backend.py`, `lib/logging.py` | | not modelled |

## Per property

Status and theorem names are in `MANIFEST.json`.

| id | property | model | proof | hypotheses and violations |
|---|---|---|---|---|
| C01 | link and unlink are inverse and touch nothing else | `Heap.link`, `unlink` | dictionary algebra |  |
| C02 | every link stays mutual | every operation that changes links: object creation, `link`, `unlink`, `split`, `unite`, `split_unite`, `unite_split`, `contraction` | induction over histories (`Reachable`) with the invariant `LinkInv` | each call meets the precondition of the operation (for instance `link` on free axes); `C02_overwrite_breaks` shows that linking an axis that is in use breaks the property |
| C03 | check_completness accepts exactly the complete tensors | `check_linkage`, `check_completness` | case analysis; iff with `Complete` |  |
| C04 | visitor visits every tensor of a tree exactly once | `children`, `visitor` | induction on the tree | start at a tensor; `C04_from_leaf`: a walk from a `Leaf` without axis visits the leaf only |
| C05 | the visited set does not depend on where the walk starts | `visitor` | re-rooting a tree along a path |  |
| C06 | linkage walks enumerate every edge | `linkage_visitor`, `decorated_linkage_visitor` | induction on the tree | `C06_directed`: `directed` is not passed on to the recursive calls, so only the links of the first tensor come in both directions |
| C07 | Tensor.generate builds the described tree | `Tensor.generate` with its explicit stack | invariant on the stack | the graph describes a tree, names are distinct |
| C08 | vectorize and tensorize are inverse | `vectorize`, `tensorize` | list induction over the visit order |  |
| C09 | unite undoes split | `split`, `unite` | half-edge relabelling; re-association of sums | SVD oracle: exact shapes and product |
| C10 | split_unite moves the root along one link and changes no link | `split_unite` | composition of the specifications of `split` and `unite` | names without "+"; SVD contract, discharged by `C21_as_oracle` |
| C11 | unite_split changes no link and never trips its own assertion | `unite_split` | as C10 |  |
| C12 | moving the root does not change the represented state | `split_unite`, `unite_split` | half-edge relabelling, any list of moves | the SVD returns an exact product |
| C13 | the canonical form survives root moves | as C12 | isometry of the SVD factors | the SVD factors are isometries |
| C14 | inner products computed by tree recursion equal the full contraction | `partial_env`, `global_inner_product`, `matrix_element`, `global_square`, `global_expection` | induction on the tree against the amplitude specification | operators act with axis 0 of their matrix, which is what `partial_product` does |
| C15 | the normalization shortcut is sound | `partial_env` with `proper`, `normalized` and caches | induction on the tree | marks are sound: a tensor marked `normalized` is |
| C16 | expection of a sum of products equals the dense expectation value | `term_visitor`, `matrix_element`, `expection`, `dense_hamiltonian` | sum over terms of C14 | **Violated** for matrices that are not symmetric: the code computes with the transposed matrices (`C16_violated`) |
| C17 | contraction returns the represented state | `contraction` | induction over the links |  |
| C18 | normalize makes a tensor orthonormal | `normalize` | Gram-Schmidt invariant | `sqrt` is a square root of the squared norms; the slices are linearly independent (`GoodRun`) |
| C19 | projector is an orthogonal projector | `projector` | sums |  |
| C20 | partial_product and partial_trace compute the documented contractions | `partial_product` (both the `tensordot` and the reshaping version), `partial_trace` | sums; mixed-radix arithmetic |  |
| C21 | compressed_svd keeps what it promises | `compressed_svd` | case analysis on the accumulated error | **Violated** in part: `err` overrides `rank` (`C21_rank_cap_violated`) |
| C22 | triangular enumerates all basis states once, by level | `triangular` | levels of mixed-radix digit lists |  |
| C23 | autocomplete produces an orthonormal network in the ground configuration | `autocomplete` | the initial array row by row; invariant over the loop; induction on the tree for the state | `sqrt 1 = 1`, `sqrt 0 = 0`; the identity matrix of size n has rank n; arrays that are already there have the requested shapes |
| C24 | huffman_tree keeps every source exactly once | `huffman_tree` | loop invariant, termination measure | `C24_default_names_fail`: the default naming function gives every new node the same name; `C24_no_branching`: with `n_branch = 1` the loop does not end |
| C25 | iter_visitor yields each reachable vertex exactly once | `iter_visitor` | loop invariant |  |
| C26 | one-site projector-splitting sweep is complete and balanced | `split_step`, `snd_order_step`, `move` | induction on the tree; trace of propagations | what happens to the propagated array and the caches is arbitrary (`Hooks.Good`: it changes no link and no shape); names without "+" |
| C27 | two-site projector-splitting sweep is complete and balanced | `unite_step` | as C26 | **Violated** for `backward=True` (`C27_backward_violated`), and a single tensor is not propagated |
| C28 | cached mean fields are never stale | `_split_prop`, `_form_env`, `remove_env` and all sweeps | invariant: every cached mean field is that of the current network or will be deleted before it is read | terms in `h_list`; **violated** for `f_list` (`C28_f_list_violated`). The solver is an arbitrary program calling `diff`. The start conditions speak about the whole heap. An exception while the terms are visited ends the step (the code swallows it) |
| C29 | visiting the terms leaves no operator behind | `term_visitor` | trace of the operators on the leaves | the body of the loop keeps operators (`BodyOk`) |
| C30 | the ODE step limit is enforced | `_solve_ode`, `log_inner_product`, `propagator` | loop induction with an arbitrary solver | **Violated** in the projector-splitting methods: the warning is swallowed (`C30_split_violated`) |
| C31 | the propagator yields the documented time grid | `propagator` | loop induction |  |
| C32 | equations of motion keep the gauge | `_single_eom`, `eom` | algebra of the projector | `EomReady`: complete orthonormal network, invertible densities. `coefficient` and `init_energy` as the code has them |
| C33 | DMRG matrix elements equal the explicit sum over configurations | `dmrg.py`: matrix elements and overlaps | induction on the chain |  |
| C34 | heisenberg builds the documented Hamiltonian | `heisenberg` | induction on the chain | **Violated**: Jz enters with half its value (`C34_violated`) |
| C35 | DMRG environments are always those of the current state | one-site DMRG with its two stacks | stack invariant | SVD and `eigsh` are oracles; a log of the optimised sites is added |
| C36 | two-site DMRG environments are always those of the current state | two-site DMRG | stack invariant | **Violated** for two sites: nothing is optimised (`C36_two_sites_violated`) |
| C37 | coarse graining and fine graining are inverse | `coarse_grain*`, `fine_grain_MPS` | mixed-radix arithmetic; SVD contract | einsum without broadcasting |
| C38 | multi-dimensional DVR: index decoding and Hamiltonian action | `PO_DVR`, `MCTDH._partial_transform` | mixed-radix arithmetic | **Violated** for unequal grids after the first (`C38_hamiltonian_violated`) |
| C39 | the sine DVR transformation is orthogonal | `SineDVR` | trigonometric sums | positive length, nonzero mass |
| C40 | fast and dense sine-DVR Hamiltonians agree | `FastSineDVR` | as C39 |  |
| C41 | position and momentum grids: the Fourier round trip is the identity | `girds.py` | inversion of the discrete Fourier transform |  |
| C42 | HEOM derivative conserves the trace of the reduced density matrix | HEOM right-hand sides as sums of products | finite sums over tiers | **Violated** for `hierachy.py` and matrices that are not symmetric (`C42_hierachy_violated`) |
| C43 | HEOM derivative keeps Hermiticity | as C42 | finite sums over tiers | **Violated** by hierachy.py and eom.py for operators that are not symmetric (`C43_hierachy_violated`, `C43_eom_violated`) |
| C44 | hierarchy ladder operators couple neighbouring tiers | ladder operators | finite sums | **Violated** for `eom.py`: exchanged (`C44_eom_violated`) |
| C45 | extended density starts with the system density | extended densities, `simple_heom` | arrays |  |
| C46 | correlation functions carry as many coefficients as they announce | `corr.py`, `generate_BCF` | list lengths | **Violated** by the Brownian model (`C46_brownian_violated`) |
| C47 | generated bath correlation functions are conjugation consistent | as C46 | case analysis |  |
| C48 | unit conversion is consistent | `units.py` | field algebra | `C48_wave_number`: the synonym table |
| C49 | phonon operators satisfy their algebra in dense and operator form | `particles.py` | matrix algebra | **Violated**: matrix-free creation and annihilation are exchanged (`C49_violated`) |
| C50 | Davidson search space stays in bounds and orthonormal | `DavidsonAlgorithm` | loop invariant | `orth`/`eigh` contracts, discharged by `gramSchmidt_orthOk` and `spectral_ok`. **Violated**: the loop never stops early; a restart in the last cycle raises `TypeError`; a restart drops the preconditioner |
| C51 | MCTDH state vector packing is lossless | MCTDH packing | list induction |  |
| C52 | recursive projector-splitting is complete and balanced | `r_split_step` | as C26 |  |
| C53 | model Hamiltonian assembly keeps the Hamiltonian | `collect_electric_terms` | list induction | the handler for a missing field is never reached (`C53_no_field`) |
| C54 | automatic network graphs keep every degree of freedom | `autograph*` | list induction | **Violated** by `autograph` and `autograph_mctdh` |
| C55 | prefixed units convert by their metric factors | unit prefixes | field algebra | **Violated** by meV |
| C56 | The hierarchy derivative is that of the hierarchical equations of motion | HEOM right-hand sides | comparison with the textbook equations entry by entry | **Violated** by `eom.py` (tier 0 decoupled) and by `hierachy.py` for matrices that are not symmetric |
| C57 | the sine-DVR Hamiltonian is that of the potential last set | `SineDVR.set_v_func` and caches | case analysis |  |
| C58 | the sine-DVR kinetic energy has the particle-in-a-box spectrum | `SineDVR` kinetic energy | trigonometric sums |  |
| C59 | the momentum grid is that of the discrete Fourier transform | momentum grid | algebra | **Violated** (`C59_violated`) |
| C60 | direct_step follows the time-dependent variational principle | `eom`, `direct_step` (Newton) | tangent space of the network; variation of the action | inverses and square roots as a contract (`Linalg`), discharged by `exactLinalg_exact`. Finding: the step leaves stale `normalized` marks (`C60_newton_marks_violated`) |
| C61 | direct_step conserves the norm | as C60 | rate of the norm | **Violated** when `init_energy` is set (`C61_init_energy_violated`) |
| C62 | direct_step conserves the energy | as C60 | rate of the energy | Hermitian Hamiltonian; real time |
| C63 | Propagation obeys the Schroedinger equation | `coefficient`, `_split_prop`, `eom` | sum over the terms at the root equals the gradient of the energy | **Violated**: `coefficient()` has the two cases exchanged |
| C64 | autocomplete starts from the lowest configurations | `triangular` inside `autocomplete` | digit reversal | **Violated** for unequal dimensions (`C64_violated`) |
| C65 | The energy reported by MCTDH is that of the represented state | the Hamiltonian of `MCTDH`: `update_mod_terms`, `_coeff_op`, `energy_expection` | products of matrices, one for each coordinate; overlaps by summing one coordinate at a time | real single-particle functions, as many for each coordinate. **Violated** for complex functions (`C65_complex_violated`) and for unequal numbers (`C65_unequal_violated`) |
| C66 | The MCTDH Hamiltonian gives the equations of motion of MCTDH | `h_mat`, `term_hamiltonian`, `_sp_op` | overlaps with configurations; the part of a function outside an orthonormal set; sums of blocks | real functions; `inv` gives a left inverse of each density matrix; two coordinates, or axes that `_partial_transform` treats well. **Violated** for complex functions (`C66_complex_violated`) and three coordinates (`C66_three_violated`) |
| C67 | The HEOM projector-splitting integrator integrates the Hamiltonian it was given | `ProjectorSplitting`: `term_visitor`, `_form_env`, `_single_diff`, `_single_prop`, `remove_env`; the sweeps of `Model/Sweep`; `solve_ivp` is an arbitrary program | with one term the terms are visited as in ml.py; then the invariant of C28 | at most one term; SVD as in C26; the solver keeps the length of the vectors. **Violated** for two terms (`C67_two_terms_violated`) |
| C68 | autocorr yields the overlaps with the initial state and does not disturb the propagation | `autocorr` with the loop of `propagator` (C30) inlined; the step is an arbitrary call on (rest of the object, network) | the bra in `aux` is a network on the same links, then C14; nothing is cached with `use_aux`, so clearing `aux` restores the heap exactly; induction over the requests | the steps keep tree, links and leaf dimensions and leave `aux` empty; `move_energy=False` |
| C69 | A Runge-Kutta direct step is the fourth-order Runge-Kutta step of the equations of motion | the RK4 branch of `direct_step` | each `eom()` of a one-tensor network with right stored fields gives the generator applied to the present state (from C60 and products with unit arrays); linearity; `field_simp` | characteristic 0; coefficient not 0; **violated** for two tensors |
| C70 | A direct step with a scipy solver integrates the equations of motion with constant mean fields | `direct_step` with the solvers of scipy, an arbitrary deterministic program that may ask for derivatives, return or raise; `diff`, `reformer`, `updater` | the log of the calls satisfies `Follows`, by induction on the program of the solver and on the loop; `eom` with stored fields of another state (`eom_mode`); Gram-Schmidt (C18) | the inverse of a density has its shape; the vectors of the solver have the right length and can be normalized where there are marks; **violated** for time-dependent operators |
| C71 | The poles and residues of the Padé decomposition give the Padé approximant of the Bose function | `Drude.pade`; the eigenvalue solver is a parameter with the specification `PadeSpec.Solver` (all eigenvalues with multiplicity, in descending order) | the characteristic polynomials of the tridiagonal matrices are continuants of the continued fraction of coth; the determinant formula, interlacing by a Wronskian, partial fractions, and the remainder of the continued fraction by a series of positive terms | exact real arithmetic |
| C72 | Each term of the Drude bath is the contribution of a pole | `Drude.__init__`, `matsubara`, `pade` | residues as limits; the Bose function has residue 1/beta at a Matsubara frequency | the contour integral itself is not formalized: the specification is the residue at each pole |
| C73 | Each term of the Brownian bath is the contribution of a pole | `Brownian.__init__` | factorization of the denominator of the spectral density; coth and the Bose function; the two values of the density at the real and the imaginary frequency are compared | underdamped; the spectral density is divided by pi (the convention of `Drude`); **violated** for the Matsubara terms |
| C74 | The imaginary part of a bath correlation function does not depend on the temperature | `Drude.__init__`, `Brownian.__init__`, `generate_BCF` | the Bose function has real part 1/2 on the imaginary axis; coth2 is the conjugate of coth1 | real decompositions (proved for `matsubara` and `pade`) |
| C75 | The Padé decompositions of the Bose and the Fermi function | `PSD` with `pade` 1, 2 and 3, `tseig` as the solver of C71 | the convergents of the continued fractions of coth and tanh, as for C71; for `pade=3` another continued fraction of the same functions, whose behaviour at infinity gives `rn` and `tn`, and the loop for the residues computes its numerators by the recurrence of continuants | exact real arithmetic; **violated** for fermions with `pade=2` |
| C76 | The Matsubara decomposition of the Bose and the Fermi function | `MSD` | the partial fractions of the cotangent (Mathlib), and for fermions the shift by pi i | exact real arithmetic |
| C77 | heom_h_list gives the hierarchical equations of motion of the spin-boson model | `SpinBoson.heom_h_list`, `heom_h_list2`, `Hierachy.h_list`, the attribute `scale`; labels of any type; `basis=None` | composition of `generate_BCF` with the derivative of C56, for any scale; labels without repetition are inverted by their position | `Spec/Sbm.lean`; **violated** for operators that are not symmetric (C56) and for surplus labels |
| C78 | The scale of the hierarchy does not change the physical density matrix | as C77 | the members below and above pick up the inverse factors; induction over the order of the derivative | a nonzero scale |
| C79 | heom_h_list keeps the physical density matrix Hermitian | as C77 | a sum over the modes is reindexed by the exchange of emission and absorption; induction over the order of the derivative | real symmetric operators, real scale |
| C80 | wfn_h_list gives the Schrödinger equation of the spin-boson model | `SpinBoson.wfn_h_list`, `Phonon`; labels of any type | every oscillator is a diagonal and a ladder sum on its axis; the axes of the array are seen as `(a, n)`; the matrix of the Hamiltonian is Hermitian | `SbmSpec.hamiltonian`; **violated** for operators that are not symmetric (transposed) and for missing labels |
| C81 | do_l_list gives the von Neumann equation of the spin-boson model | `SpinBoson.do_l_list` | as C80 for both sides; the trace of a commutator | **violated** for Hermitian operators that are not symmetric |
| C82 | The coefficients of noise.Drude are those of the bath correlation function | `noise.Drude`, `SpectrumFactory.drude` | residues; the cotangent of a real argument | `BathSpec.Contribution`; **violated** for the Matsubara terms |
| C83 | The coefficients of noise.Drude are those of its parameters, whenever they are read | `lazyproperty` and the properties of `noise.Drude` as changes of the state of the object | induction over histories | **violated** when a parameter is changed |
| C84 | BoseEinstein.function is the Bose function | `spd.BoseEinstein.function` | algebra and limits of the exponential function | **violated** for zero temperature and negative frequencies |
| C85 | BoseEinstein.residues gives the poles and residues of the Bose function | `spd.BoseEinstein.residues`, `matsubara`, `pade1` | case analysis; residues as limits | **violated**: exceptions |
| C86 | residues of the spectral densities are their poles and residues | `spd.Drude`, `spd.Brownian` | residues as limits; partial fractions | **violated** by `Brownian` |
| C87 | seom.Hierachy gives the hierarchy of wave functions | `seom.Hierachy` | the terms act on the axes of the modes and of the system; sums over the ladder matrices | `SeomSpec.generator`; **violated** as to the decay |
| C88 | MultiLayer(root, h_list, f_list, use_str_name) checks its arguments and resolves names | `MultiLayer.__init__`; the lists of the caller are objects in a store | induction over the pairs of a term and over the terms | **violated** after failures and in a second call |
| C89 | PO_DVR.set_v_func determines the Hamiltonian | `PO_DVR.__init__`, `set_v_func`, `_calc_diag`, `h_mat`, the effect of `init_state` | invariants over histories of calls; C38 for the action | `fast=False`; **violated** by a call without `v_rst` after one with it |
| C90 | PO_DVR.propagation solves the Schroedinger equation and yields every accepted step | `PO_DVR.propagation`; the solver of scipy is a parameter | induction over the number of `next` calls; linearity of the Hamiltonian of C89 | `fast=False`; **violated** at the end since Python 3.7 |
| C91 | PO_DVR.autocorrelation yields <psi(0)|psi(2 tau)> for all times before the end | `PO_DVR.autocorrelation` | induction over the yielded values; exponential of a symmetric matrix | exact propagation for the meaning; **violated** at the end since Python 3.7 |
| C92 | PO_DVR.spectrum decomposes the autocorrelation function into frequencies | `PO_DVR.spectrum`, `ifft` by its definition | inversion of the discrete Fourier transform | **violated** since Python 3.7 |
| C93 | MCTDH.autocorrelation yields the autocorrelation function of the state | `MCTDH.autocorrelation` | C91 with the product of the coefficient tensors; the matrix element of C65 without conjugation | **violated** for complex single-particle functions |
| C94 | MCTDH.gen_h_terms describes the Hamiltonian that was asked for | `gen_h_terms` on any history of the one-dimensional objects | the Hamiltonians of C89, coordinate by coordinate | `fast=False` |
| C95 | MCTDH.init_state is the product of the lowest one-dimensional eigenstates | `DVR.solve` and `init_state`; `eigsh` is a parameter | signs by cases; packing of the blocks (C51) | `eigsh` returns the lowest orthonormal eigenvectors (such a function exists, `C95_exact`); `fast=False` |
| C96 | renormalize=True keeps the direction of the state and normalizes it | `_normalizer` in `MCTDH.propagation` | packing of the blocks (C51); the matrix element of C65 | no block vanishes; **violated** for the norm of the state unless the single-particle functions are orthogonal and of equal norm |
| C97 | MCTDH.propagation integrates the MCTDH equations of motion | the function that `PO_DVR.propagation` integrates for an `MCTDH` object, `_updater`, the start | C66 and linearity of the Hamiltonian with fixed mean fields | the conditions of C66; **violated** for the first evaluations with a given `init` |
| C98 | A vector of a SineDVR is a spatial function | `particle_in_box`, `fbr2cont`, `dvr2cont`, `dvr_func` | orthogonality of sines as integrals (`Lemmas/Box`), orthogonality of the transformation | a < b |
| C99 | t_mat, dq2_mat and dq_mat of a SineDVR are the matrices of the derivatives | `dq_mat`, `dq2_mat`, `t_mat` | integrals of products of sines and their derivatives | a < b |
| C100 | harmonic_oscillator(n) are the orthonormal eigenfunctions of the harmonic oscillator | `hermite`, `harmonic_oscillator` with derivatives and integrals of Mathlib | Hermite polynomials: recursion, differential equation, integration by parts | **violated** unless m k / hbar = 1 (or n = 0) |
| C101 | g0' and g1' are window functions | `g0prime`, `g1prime` | trigonometry | T > 0 |
| C102 | The potentials have the shapes they are named after | `linear_corr`, `square_well`, `w_well`, `sho` | algebra; the eigenvalue equation of C100 | **violated** for `sho` with m other than 1 |
| C103 | A CasDVR represents functions, position and kinetic energy | `CasDVR.__init__`, `t_mat`, `fbr2cont`, `dvr2cont`; `eigh` and the quadrature are parameters | bilinear expansion of the integrals, the contract of `eigh` | exact `eigh` and quadrature; for the kinetic energy the second derivative must be symmetric between the basis functions (no boundary terms) |
| C104 | matrix_repr gives the matrix of an operator | `matrix_element`, `matrix_repr`, `diff`, `prod_op` | case distinction on the triangle | **violated** for operators that are not symmetric |
| C105 | DVR.propagator returns the evolution operators of the split Hamiltonian | `DVR.propagator`; `eigh` is a parameter | the matrix exponential of Mathlib, `exp` of a conjugated diagonal matrix | exact `eigh`; **violated** unless hbar = 1 |
| C106 | With a DVR as basis of a mode the hierarchy uses the ladder operators of that coordinate | `Hierachy` with `basis` | C98 and C99 for the matrices | the object has a method `eig_mat`; **violated** for the DVR classes of the package |
| C107 | relative_partition_function is the squared norm gained in imaginary time | the loop of `propagator` in imaginary time, `relative_partition_function` | induction over the steps; linearity of the Runge-Kutta step for one tensor; the trace formula for a maximally entangled pair; the spectral theorem and `(1 + x/n + ...)^n -> exp x` for the limit of small steps | steps homogeneous in the state; **violated** for `ml.py` with the Hamiltonian in `h_list` |
| C110 | The MultiLayer of the HEOM package integrates dA/dt = L A | `coefficient` of `heom/propagate.py` with the model of `ml.py` for the rest | from C28 and C60 | regular density matrices for direct propagation |
| C108 | autocomplete(max_entangled=True) prepares the maximally entangled state | `_local_matvec`, `autocomplete(max_entangled=True)` with the models of C23 and C50 | in search mode the start vector is the first vector of the search space; induction over the tensors; the slice 0 of each pair is the maximally entangled vector, so the sum over the bonds is a product | real local Hamiltonians; axis 0 of a tensor with a pair points to the root (the code reshapes without `moveaxis`); **violated**: it may raise `AssertionError` when the search finds too few vectors |
| C109 | MultiLayer.settings sets the named options and nothing else | `settings`, with the lookup of attributes along the method resolution order | induction over the options | descriptors and metaclasses left out; **violated** as a setting of one object |
| C111 | Network finds the root and keeps one array per tensor | `Network.__init__`, `__getitem__`, `__setitem__`, `as_template`, `copy` | the walk from any tensor visits the same objects (C05); dictionary lemmas | only the root has no `axis`; **violated** for networks with leaves |
| C112 | Network.vectorize and Network.tensorize are inverse | `Network.vectorize`, `Network.tensorize` | induction over the tensors | every object has an array; **violated** for leaves |
| C113 | Network.deepcopy and Tree.partial_env return | `Network.deepcopy`, `Tree.partial_env` | **violated**: no entry of the cache has the axis `None`, hence the last lookup fails |  |
| C114 | linear_discretization represents the spectral density | `linear_discretization`; `quad` is a parameter with the contract that it integrates continuous functions | the mean frequency lies in its cell; sums of integrals over adjacent cells; uniform continuity for the limit | density continuous, not negative, positive inside |
| C115 | SpinBosonModel builds the documented Hamiltonian | the constructor of `SpinBosonModel` and the methods that build the Hamiltonian | induction over the vibrations; rows of the ladder matrices; C53 | positive frequencies, reorganisation energies not negative; **violated** for `including_bath=True` |
| C116 | The propagation on a grid conserves the norm and can be reversed | `Propagator`, `GridBasis.exp`, `inner_product`, `norm` on the values at the points of the grid; `simps` is a parameter | Parseval: the transformation is a multiple of a unitary map; induction over the iterations; convergence: error of one splitting step, stability, telescoping | at least two points, non-zero width, `hbar > 0`; one state |
| C117 | gaussian_wfn is a normalised packet of least uncertainty | `gaussian_wfn` | the density is that of a normal distribution; moments from Mathlib | `alpha > 0` |
| C118 | init_state and solve of a product DVR give the ground state of a separable potential | `init_state`, `solve` (both methods) and `mu_mat` of `PO_DVR`; `eigsh` is a parameter | induction over the coordinates; orthogonal decomposition with respect to the ground state, axis by axis; the Davidson iteration has a fixed point | grids of all coordinates but the first of equal size; exact eigensolvers |
| C119 | Network lists its objects and links correctly | `vertices`, `edges`, `directed_edges`, `leaves`, `nonleaves`, `subleaves` of `Network` and `Tree` | the walks of C04 and C06 | **violated** for `directed_edges` |
| C120 | Expectation values are real and obey the variational principle | `expection` of `ml.py` with its last two lines, over the complex numbers | sum over terms as in C16; a Hermitian form is real; a parabola that is nonnegative with value 0 at 0 has slope 0 there | the checks accept an imaginary part below 1.5e-7; `nan` fails |
| C121 | Norm of a network and angle between two networks | `global_norm` and `hilbert_angle` of `tensor.py`: the loop over the two walks, three contractions, `arccos` | the `aux` of the first network becomes a copy of the conjugate of the second (correspondence of objects, `Twin`), then C14; Cauchy-Schwarz inequality with its case of equality | exact real arithmetic: in floating point the cosine of two equal states may exceed 1, and `arccos` gives `nan` |
| C122 | autograph_with_aux pairs every degree of freedom with a mirror | `autograph_with_aux`, `_update` | dictionary algebra; the cases of `_update` of C54; reachability | the names of leaves, nodes and mirrors are distinct; **violated** unless both groups have two members |
| C123 | The effective operator of DMRG is the whole operator seen from a site or a pair | `EnvTensor._matvec` (already in `Model/Dmrg`), `mat_element` | the chain of products is split at the site (or pair); the left and right parts are the entries of the environments (C35) | exact arithmetic; the dimensions are positive |
| C124 | Without truncation the energy of DMRG never rises and stays above the ground state energy | `dmrg1`, `dmrg2` with `opt_one_site` and the moves (already in `Model/Dmrg`), over the reals | an invariant of the sweep (mixed-canonical form with its centre at the site or pair, norm 1, energies sorted) is kept by every step: by C123 the local problem is the energy of the whole chain, so a ground vector cannot be above the current state; an exact split keeps the state; existence of exact libraries from the spectral theorem and compactness of the sphere | exact eigensolver and singular value decompositions, no truncation, symmetric operator, right-canonical start |
| C125 | fm_state is the documented product state, and DMRG of the Heisenberg model may start from it | `fm_state` (`Model/FmState`), `heisenberg` | amplitudes by induction on the chain; the energy is the diagonal element of the documented operator (C34); C124 for the runs | as C124 for the runs |
| C126 | The truncation error of unite_split is the weight of the discarded singular values | `unite_split`, `unite`, `split` (`Model/Split`), `compressed_svd` (`Model/CompressedSvd`) | the union is followed by a factorisation of the merged matrix into orthonormal factors; the new array pair is the partial sum of the decomposition, and the canonical form of the other tensors turns the overlap of the whole states into that of the merged matrices; optimality is the theorem of Eckart and Young (`Lemmas/EckartYoungC`, proved here for real or complex matrices) for the merged matrix, after showing that the states of two networks that differ in the pair have the distance of the two merged matrices (`Lemmas/Truncate7`) | exact singular value decomposition (existence over the reals proved), canonical tree, neighbour with an array, positive rank |
| C127 | Projector-splitting sweeps conserve norm and energy | `_split_prop` with its solver as a program of evaluations and updates (`Model/SplitProp`), the sweeps (`Model/Sweep`) | invariant over the sweeps: canonical around the present root, leaves, norm and energy of the start. In coordinates of the root array the right-hand side is a matrix, anti-Hermitian because the whole operator is; norm and energy of the state are those of the coordinates because the tree is canonical. Splitting off the link and uniting it with the neighbour keep the state (C09, C11); so do uniting two neighbours in a new tensor and splitting it (`Merge.state`) | conservative solver (the exponential is shown to be one), exact decompositions, `sqrt 1 = 1`, anti-Hermitian generator, start of norm 1 in canonical form |
| C128 | Truncation in two-site DMRG | `fine_grain_mps`, `dmrg2` (`Model/Dmrg`), the compress error (`Model/DmrgError`) | the part of a singular value decomposition with the singular values of a set has the sum of their squares as its squared norm; in a chain that is canonical around the pair this is the squared norm of the state, and the difference of two states is again such a state. Optimality is the theorem of Eckart and Young, proved with an orthonormal basis of the column space and the Bessel inequality. Invariant over the sweeps: canonical outside the window, norm at most 1, the bonds already visited at most `trunc`. The violation: an operator whose optimal pair is entangled, against any product state by Cauchy-Schwarz | exact decompositions and eigensolver (shown to exist in C124) |
| C129 | Truncation in one-site DMRG | `_move_right`, `_move_left`, `dmrg1` (`Model/Dmrg`) | the matrix next to the optimized one is right-canonical, so the singular value decomposition of the optimized matrix times it is one of the pair. Invariant over the first sweep to the right: canonical outside the site, norm at most 1, the bonds already visited at most `trunc`. The first step back optimizes the last site, which makes the state normalized; from there on nothing is cut off and the invariant of C124 holds, with the history starting there | exact decompositions and eigensolver (shown to exist in C124) |
| C130 | The dense matrix of the spin-boson hierarchy | `dense_h` with the call of `heom_h_list` it makes (`Model/SbmDense`) | the loop is the derivative (C42) of the reshaped identity under the single factors; contraction with a delta | **Violated**: arguments are shifted by one position, so that it raises for every system coupled to anything (`C130_raises_violated`, `C130_bath_violated`); products are summed (`C130_product_violated`) |
| C131 | Propagation on pairs of real numbers | `ode_in_real` in `_solve_ode` (`Model/OdeReal`): the solver is an arbitrary program on real arrays, translated to one of `Model/SplitProp` | no vector given to `updater` has the size of the tensor, so that every update raises and the exception is swallowed; the invariant "the amplitudes are those of the start" through all sweeps (as C127); the derivative by C28 | **Violated**: nothing is ever propagated (`C131_sweeps_violated`); solvers keep the shape of `y0` or reject it |
| C132 | Regularized inverse densities | `_form_inv_density` with `pinv=False` (`Model/Eom`, as for C60), over the complex numbers | a density is a Gram matrix (a branch contracted with its conjugate), hence positive semidefinite; a positive semidefinite matrix plus `eps` has no kernel; the bounds from `‖(d + eps) u - c u‖² ≥ 0`; the norm by C61 | `scipy.linalg.inv` inverts every invertible matrix; C132_norm: the conditions of C60, no `init_energy` |
| C133 | With complete bases the propagation is exact | as C60 (`eom`) and C127 (the sweeps) | the variations of a full root are an orthonormal basis of all states, so that the equations of C60, which hold for the overlaps with all variations, hold at every configuration; the matrix of the local equations is the Hamiltonian in this basis, and so is its exponential | canonical form; C133_root, C133_single: exact solution of the local equations, anti-Hermitian generator, norm 1, operators that do not depend on the time |
| C134 | With complete bases the sweeps are exact | as C127 (the sweeps) | the states that arise from variations of one tensor form a space with an orthonormal frame (a matrix B with B^H B = 1), and a step propagates the coordinates with the generator in this frame; over a complete link the frame of the tensor and that of the bond span the same space, so that exp(tau B^H G B) and exp(-tau B^H G B) cancel; induction over the Euler walk of the tree, resp. over the recursion; for r_split_step of second order also: the space of a tensor depends only on the arrays beyond its link to the parent, so that it is the same before and after the recursive call; the root has a full frame and is propagated exactly (C133); for unite_step: the frame of the parent lies in that of the pair and has the same dimension, as the child is complete, so that the propagation of the pair and the back-propagation of the parent cancel; the last pair contains the root and is full; the split gives back the dimension of the link | complete bases; exact solution of the local equations, anti-Hermitian generator, norm 1, operators that do not depend on the time; a decomposition that keeps all singular values (FullSvd: one exists) |
| C135 | heom_h_list with DVRs for the tiers | `SpinBoson.heom_h_list` with `basis` (`Model/SbmBasis`) | C106 for every tier, with the labels of C77 | a matrix `eig_mat` has been added to the DVRs; **violated** for the DVR classes of the package |
| C136 | unzip gives the columns in whatever order they are read | `unzip` with the queues of `itertools.tee` (`Model/Unzip`) | invariant: every queue holds the rows between the position of its iterator and that of the farthest one |  |
| C137 | PO_DVR with fast=True has the same Hamiltonian as with fast=False | `FastSineDVR` and `PO_DVR` with `fast=True` (`Model/PoFast`) | simulation: a relation between the two objects (operators and matrices that agree on every vector, C40) kept by every call |  |
| C138 | The exponential of a potential for several states is the matrix exponential at every point | `GridBasis.exp` and `mop` for several states (`Model/GridStates`) | the exponential of a diagonalised matrix; C138_exponential gives the others | `eigh` is a parameter (`C138_eigh`: it exists) |
| C139 | The propagation of coupled states on a grid conserves the norm and can be reversed | `Propagator` for several states (`Model/GridStatesProp`) | C138 at every point, the scaling of the Fourier transform of every state (C116), induction over the steps | values at the grid points; `integrate.simps` is a sum with positive weights |

## Findings

What the proofs found in the code (theorem in brackets).

1. `expection`, `matrix_element` and the equations of motion use transposed operator matrices; wrong for matrices that are not
   symmetric such as sigma_y [`C16_violated`]. `heom/hierachy.py` has the same defect [`C42_hierachy_violated`, `C56_hierachy_violated`].
2. `coefficient()` exchanges real and imaginary time if `h_list` holds the Hamiltonian, as documented and as in `models/spinboson.py`
   [`C63_sweeps_violated`, `C63_direct_violated`]. It is right if `h_list` holds `-iH`, as in `models/sbm.py` [`C63_generator_partial`].
3. Mean fields of the time-dependent terms (`f_list`) are never deleted by `remove_env` [`C28_f_list_violated`].
4. `set_array` does not reset `normalized`, so after a direct step contractions skip tensors that are no longer orthonormal
   [`C60_newton_marks_violated`].
5. `init_energy` is subtracted without the factor of the other terms, so the norm is not conserved [`C61_init_energy_violated`].
6. `unite_step(backward=True)` raises `RuntimeError` on every network with a link between tensors [`C27_backward_violated`].
7. In projector splitting the `RuntimeWarning` of the step limit is swallowed by a bare `except` [`C30_split_violated`].
8. `compressed_svd`: `err` overrides `rank` [`C21_rank_cap_violated`].
9. `linkage_visitor(directed=True)` loses `directed` in the recursion [`C06_directed`].
10. `visitor` from a leaf without axis sees the leaf only [`C04_from_leaf`].
11. `huffman_tree`: default names collide [`C24_default_names_fail`]; one branch never ends [`C24_no_branching`].
12. `heisenberg`: Jz/2 [`C34_violated`]. Two-site DMRG of two sites optimises nothing [`C36_two_sites_violated`].
13. `PO_DVR.h_mat` swaps axes where it should move one [`C38_hamiltonian_violated`, `C38_transform_violated`].
14. `heom/eom.py`: ladder operators exchanged, tier 0 decoupled [`C44_eom_violated`, `C56_eom_decoupled`].
15. `Brownian` correlation functions announce more terms than they have [`C46_brownian_violated`].
16. Sparse creation and annihilation operators are exchanged [`C49_violated`].
17. Davidson: never stops early, `TypeError` after a late restart, preconditioner dropped [`C50_*`].
18. `autograph` drops or splits leaves [`C54_autograph_violated`, `C54_mctdh_violated`].
19. 1 eV is converted to 1/1000 meV [`C55_meV_violated`].
20. The momentum grid spacing is not that of the discrete Fourier transform [`C59_violated`].
21. `autocomplete` reads the indices of `triangular` in the other digit order, so its basis vectors are not ordered by level
    when the dimensions differ [`C64_violated`].
22. `MCTDH.update_mod_terms` adds the projections on the real and on the imaginary parts, so the cross terms are lost and the energy is
    wrong for complex single-particle functions [`C65_complex_violated`]. With unequal numbers of single-particle functions the energy
    is silently wrong, because of `_partial_transform` [`C65_unequal_violated`]. The equations of motion inherit both: wrong derivatives for complex functions
    [`C66_complex_violated`], `ValueError` for a coupling of the first two of three coordinates [`C66_three_violated`].
23. `ProjectorSplitting.term_visitor` (`heom/propagate2.py`) empties the caches of the tensors only before the first term, so all further
    terms use the mean fields of the first [`C67_two_terms_violated`].
24. `direct_step` with `ode_method='RK4'` forms mean fields and inverse densities once and calls `eom()` four times with changed arrays; with
   two or more tensors the stages 2 to 4 are not derivatives at their arrays (`C69_stale_fields_violated`). With one tensor it is right.
25. `hierachy.py`/`eom.py` (C43): the equations of motion of `eom.py` multiply with the coupling operator without transposing it on one
   side, so Hermiticity is lost for operators that are not symmetric (`C43_eom_violated`, `C43_hierachy_violated`).
26. `direct_step` with a solver of scipy: `diff(t, y)` sets `self.time = t`, but the operators come from the stored mean fields, which have been
   formed at the time of the last evaluation before `reformer()`; so time-dependent operators are always late
   (`C70_stale_time_violated`), and constant during a step with `cmf_steps=1`.
27. `Brownian` with `k_max > 1` and a temperature: the coefficients of the Matsubara terms are `-2 J(v_k)/beta` with the spectral density at the
   real number `v_k`; the contribution of the pole `-i v_k` has the denominator `(v_k^2 + omega^2)^2 - 4 gamma^2 v_k^2` instead of
   `(v_k^2 - omega^2)^2 + 4 gamma^2 v_k^2` (`C73_matsubara_violated`). `Drude.spectral_density` contains a factor 1/pi, `Brownian.spectral_density`
   does not, although their terms belong to the same convention.
28. `PSD(N, 2, 2)` returns the linear coefficient `rn = 0` for fermions; the approximant with these poles and residues needs
   `1/(4 (N+1) (2N+1))`, without it already the slope at 0 is wrong (`C75_fermi_violated`).
29. `heom_h_list` accepts more labels than tiers; the operators of the system then act on the surplus labels and those of the system are
   not touched (`C77_labels_violated`).
30. `wfn_h_list` and `do_l_list` stop at the shortest of the labels, the oscillators and the dimensions: missing labels drop oscillators
   without an error (`C80_labels_violated`). `do_l_list` acts on the left with the transposed system operators: for Hermitian operators
   that are not symmetric the trace of the density matrix is not conserved (`C81_violated`).
31. `noise.Drude.symm_coeff` takes the spectral density at the real frequency nu_k where that at -i nu_k belongs: the sign in
   nu_k^2 - omega_0^2 is lost, and no Matsubara term has the right coefficient (`C82_matsubara_violated`).
32. The coefficients of `noise.Drude` are stored when they are first read. After a change of `beta`, `lambda_` or `omega_0` they are those of
   the old parameters, or of a mixture of both (`C83_frozen`, `C83_mixed_violated`).
33. `spd.py`: `BoseEinstein(None).function` is 1 also for negative frequencies, where the limit is 0 (`C84_zero_temperature_violated`).
   `BoseEinstein.residues` divides a number by a list (`pade`) or unpacks n pairs into two names (`matsubara`), so it raises an exception
   for every n > 0 but n = 2, where the poles are wrong (`C85_residues_violated`, `C85_two_violated`). `Brownian` squares the function
   `math.gamma` (`C86_brownian_violated`).
34. `seom.py`: the exponents of the noise enter with the sign that makes the members of the hierarchy grow under `MultiLayer`
   (`C87_decay_violated`). The test of it imports a function `simple_hseom` that does not exist.
35. `MultiLayer.__init__` with `use_str_name` converts the lists of the caller in place. An unknown name raises KeyError after the pair was
   taken out of its list, so it is lost (`C88_unknown_violated`). The converted lists cannot be used for a second object, because `str` of
   a Leaf is not its name (`C88_again_violated`).
36. `PO_DVR.set_v_func(v_list)` without `v_rst` does not reset `_diag_v_rst`, so the residual potential of an earlier call stays in the
   Hamiltonian (`C89_stale_violated`, `C89_wrong_violated`).
37. `PO_DVR.propagation` and `autocorrelation` end with `raise StopIteration` inside a generator. Since Python 3.7 (PEP 479) this is a
   RuntimeError for the caller (`C90_end_violated`, `C91_end_violated`), so `spectrum`, which consumes the whole generator, never returns
   (`C92_spectrum_violated`).
38. `MCTDH.autocorrelation` sums the squares of the coefficients only. With complex single-particle functions this is not the overlap
   of the conjugate state with the state (`C93_violated`: the state (1, 1) has overlap 2, the yielded value is 0).
39. `_normalizer` in `MCTDH.propagation` divides all single-particle functions of a coordinate by one number. If they are not orthogonal
   the represented state is not normalized afterwards (`C96_violated`: its squared norm is 49/25).
40. `MCTDH.propagation(init=...)` does not assign the given vector to the object before the first step, so that the first step is computed
   with the mean fields, the density matrices and the projectors of the previous vector (`C97_given_violated`). If the object has no
   previous vector, `get_sub_vec` fails.
41. `harmonic_oscillator` of `lib/symbolic.py` evaluates the Hermite polynomial at `factor * x` instead of `sqrt(factor) * x`: for m k / hbar
   other than 1 the functions with n > 0 are neither normalized nor eigenfunctions (`C100_violated`, `C100_norm_of_one`).
42. `sho(k)` is k^2 x^2 / 2, the basis functions `harmonic_oscillator(k, m)` belong to m k^2 x^2 / 2: for m other than 1 they do not fit
   (`C102_sho_violated`).
43. `matrix_repr` copies the lower triangle to the upper one: the matrix of the first derivative is symmetric instead of antisymmetric
   (`C104_violated`).
44. `DVR.propagator` multiplies the exponents with `hbar` instead of dividing by it (`C105_violated`).
45. `Hierachy` with a DVR as basis calls `basis.eig_mat()` for a debug print; no class of the package has this method, so the terms cannot
   be made with the basis classes as they are (`C106_violated`). The scripts in `tests/dvr_heom` attach it to the object.
46. Because of finding 2 the relative partition function of `ml.py` for a Hamiltonian in `h_list` is that of a unitary evolution plus
   integration errors: for a spin with energies +1 and -1 it is below 1, whereas Z(beta)/Z(0) is above 1 (`C107_violated`). It also
   contains the squared norm of the initial state, so it is relative only to a normalised one.
47. `autocomplete(max_entangled=True)` fills up the rows of the array, if the Davidson search finds too few vectors, with unit vectors that
   may be linearly dependent on those found; then normalisation makes a zero row and the final assertion on the rank fails, although
   the requested dimensions fit; so for `sigma_z` and a bond of dimension 3 (`C108_violated`). It also relies on axis 0 being the axis towards the root, because it reshapes without `moveaxis`.
48. `solver.settings(...)` sets the options of the class, so it changes every other solver, too (`C109_violated`). If a name is misspelt,
   the options before it are already set.
49. `Network` (`minitn/structures/states.py`) looks for the root among all objects without `axis`, but leaves have no `axis`: for every
   network with leaves `NotImplementedError` is raised, and if a leaf is given, it is itself taken for the root (`C111_violated`).
50. `Network.copy` turns `None` into `np.array(None)`, which is not `None`: the copy of a template cannot be filled (`C111_copy_violated`).
51. `Network.deepcopy` reads the unbound local variable `attributes` (`C113_deepcopy_violated`), `Tree.partial_env` asks for
   `root[None]` at the end and recurses from the grandchild back to the child (`C113_partial_env_violated`).
52. `Network.vectorize` and `tensorize` go over the leaves as well, which have no arrays (`C112_violated`).
53. `SpinBosonModel(including_bath=True)`, the default of `RotSpinBosonModel`, always raises `AttributeError`: `outer_hamiltonian` calls
   `bath.bimodal_spectral_density`, which is a method of a class in `minitn/heom/corr.py` (`C115_bath_violated`).
54. Vibrations for which `dim_list` is too short are left out of the Hamiltonian without an error (`C115_lengths_violated`).
55. `PO_DVR.mu_mat(dim)` multiplies by `1 - x` instead of a multiple of `x` (C118). The identity drops out between orthogonal states, not in mean
values.
56. `Network.directed_edges` lacks the reverses of all links that are not links of the root, as `linkage_visitor` does not pass on `directed`
(`C119_directed_violated`, see C06).
57. `SpinBosonModel.autograph_with_aux` loses degrees of freedom and their mirrors unless both groups have two members, for the reason of C54:
every call of `obj_new` returns the same name (`C122_violated`).
58. `dmrg2` does not normalize the state after a truncation, so its result may have a norm below 1 (`C128_norm_violated`); `trunc=10` is
the default. (The result of `dmrg1` is normalized, C129.) Beside, both write into the list of matrices they are given (`mps = initial_mps`) and return the matrices only, while the docstrings
promise `E` and the matrices.
59. `dense_h` of `models/sbm.py` passes its arguments to `heom_h_list` shifted by one position. It raises for every model with an oscillator or a bath
(`C130_raises_violated`, `C130_bath_violated`); `tests/delta/test_boson_spectrum.py` and `test_bo_spectrum.py` call it. Its loop adds the
factors of a term instead of multiplying them (`C130_product_violated`).
60. `ode_in_real=True` replaces `y0` by an array of shape `(2, n)`, which SciPy rejects, and wraps `diff` but not `updater`, which could not reshape such an array either.
In the projector splitting the exception is swallowed by `log_inner_product`, so that the propagator yields its times while the state never changes (`C131_sweeps_violated`).

## Axioms

Output of `#print axioms` for the theorems of `MANIFEST.json`, grouped.

**none**: `Ode.C30_split_violated`, `Settings.C109_violated`, `Network.C113_deepcopy_violated`

**propext**: `CompressedSvd.C21_nonpositive_rank`, `Huffman.C24_no_sources`, `Huffman.C24_default_names_fail`, `IterVisitor.C25_unknown_method`, `Ode.C30_split_not_root`, `Ode.C31_method`, `Mctdh.C51_negative`, `Unzip.C136_empty`

**propext, Classical.choice, Quot.sound**: `Heap.C02_mutual`, `Heap.C03_check_completness`, `Heap.C03_raises_incomplete`, `Heap.C04_visitor`, `Heap.C04_leaves`, `Heap.C05_visitor_start`, `Heap.C05_tree_start`, `Heap.C06_linkage_visitor`, `Heap.C07_generate`, `Heap.C09_unite_split`, `Heap.C09_in_place`, `Heap.C10_split_unite`, `Heap.C11_unite_split`, `Heap.C12_split_unite`, `Heap.C12_unite_split`, `Heap.C12_moves`, `Heap.C12_root_independent`, `Heap.C13_canonical`, `Heap.C13_split_unite`, `Heap.C13_unite_split`, `Heap.C14_inner_product`, `Heap.C14_matrix_element`, `Heap.C14_global_square`, `Heap.C14_expection`, `Heap.C15_partial_env`, `Heap.C15_partial_env_root`, `Heap.C15_cache`, `ML.C16_matrix_element_partial`, `ML.C16_matrix_element_symmetric`, `ML.C16_expection_partial`, `ML.C16_expection_symmetric`, `ML.C16_violated`, `Heap.C17_contraction`, `Heap.C17_after`, `Heap.C17_dry_run`, `Heap.C18_axis`, `Heap.C18_root`, `Heap.C18_skip`, `Heap.C18_no_array`, `Heap.C19_projector`, `Heap.C19_comp`, `Heap.C19_no_axis`, `Tensor.C20_partial_product`, `Tensor.C20_partial_product_none`, `Tensor.C20_partial_product_error`, `Tensor.C20_reshape`, `Tensor.C20_partial_trace`, `Tensor.C20_partial_trace_full`, `Tensor.C20_partial_trace_mixed`, `CompressedSvd.C21_factors`, `CompressedSvd.C21_err`, `CompressedSvd.C21_rank_partial`, `CompressedSvd.C21_no_truncation`, `CompressedSvd.C21_as_oracle`, `CompressedSvd.C21_rank_cap_violated`, `Triangular.C22_permutation`, `Triangular.C22_sorted`, `Heap.C23_autocomplete`, `Heap.C23_product_state`, `Huffman.C24_huffman_tree`, `Huffman.C24_no_branching`, `IterVisitor.C25_iter_visitor`, `Sweep.C26_split_step`, `Sweep.C26_mirror`, `Sweep.C26_snd_order`, `Sweep.C27_forward_partial`, `Sweep.C27_backward_violated`, `SplitProp.C28_sweeps_partial`, `SplitProp.C28_f_list_violated`, `ML.C29_term_visitor`, `ML.C29_trace`, `ML.C29_not_leaf`, `Ode.C30_limit`, `Ode.C30_terminates`, `Ode.C30_count_faithful`, `Ode.C31_propagator`, `Ode.C31_propagator2`, `Ode.C31_exactly`, `Ode.C31_forever`, `ML.C32_eom_gauge`, `ML.C32_no_terms`, `Dmrg.C33_mat_element`, `Dmrg.C33_from_right`, `Dmrg.C33_overlap`, `Dmrg.C33_overlap_from_right`, `Dmrg.C33_overlap_lengths`, `Dmrg.C33_lengths`, `Dmrg.C34_heisenberg_partial`, `Dmrg.C34_doubled_partial`, `Dmrg.C34_violated`, `Dmrg.C35_environments`, `Dmrg.C35_every_site`, `Dmrg.C36_environments`, `Dmrg.C36_every_pair_partial`, `Dmrg.C36_two_sites_violated`, `Dmrg.C37_coarse_grain_mps`, `Dmrg.C37_coarse_grain_mpo`, `Dmrg.C37_fine_grain_mps`, `Dmrg.C37_round_trip`, `Dmrg.C37_canonical`, `Dvr.C38_subindex`, `Dvr.C38_subindex_pack`, `Dvr.C38_potential`, `Dvr.C38_transform_partial`, `Dvr.C38_transform_violated`, `Dvr.C38_hamiltonian_partial`, `Dvr.C38_hamiltonian_violated`, `SineDVR.C39_symmetric`, `SineDVR.C39_orthogonal`, `SineDVR.C39_round_trip`, `SineDVR.C39_norm`, `SineDVR.C39_matrix_round_trip`, `SineDVR.C40_fast_is_dense`, `Grids.C41_round_trip`, `Grids.C41_conj_conj`, `Grids.C41_no_width`, `Heom.C42_refused`, `Heom.C42_refused2`, `Heom.C42_hierachy_partial`, `Heom.C42_hierachy_violated`, `Heom.C42_eom2`, `Heom.C42_eom`, `Heom.C43_hierachy_partial`, `Heom.C43_eom2`, `Heom.C43_eom_partial`, `Heom.C43_eom_violated`, `Heom.C43_hierachy_violated`, `Heom.C43_drude_partial`, `Heom.C44_hierachy_partial`, `Heom.C44_eom2_partial`, `Heom.C44_eom_violated`, `Heom.C45_extended`, `Heom.C45_not_square`, `Heom.C45_empty`, `Heom.C45_simple_heom`, `Corr.C46_drude_partial`, `Corr.C46_decompositions_partial`, `Corr.C46_drude_zero`, `Corr.C46_brownian_violated`, `Corr.C46_brownian_underdamped`, `Corr.C46_generate_partial`, `Corr.C47_generate`, `Corr.C47_drude`, `Corr.C47_decompositions`, `Corr.C47_brownian`, `Units.C48_known`, `Units.C48_make`, `Units.C48_convert`, `Units.C48_arithmetic`, `Units.C48_comparison`, `Units.C48_units_do_not_matter`, `Units.C48_wave_number`, `Phonon.C49_adjoint`, `Phonon.C49_ladder`, `Phonon.C49_number`, `Phonon.C49_commutator`, `Phonon.C49_hamiltonian`, `Phonon.C49_hermitian`, `Phonon.C49_oscillator`, `Phonon.C49_matrix_free_partial`, `Phonon.C49_functions`, `Phonon.C49_exchanged`, `Phonon.C49_violated`, `Phonon.C49_wrong_length`, `Davidson.C50_bounds_partial`, `Davidson.C50_projected_partial`, `Davidson.C50_orthonormal_partial`, `Davidson.C50_eigenpairs_partial`, `Davidson.C50_search_mode`, `Davidson.C50_never_stops`, `Davidson.C50_restart_in_last_cycle`, `Davidson.C50_too_many_start_vectors`, `Davidson.C50_restart_drops_preconditioner`, `Davidson.C50_stops_violated`, `Davidson.C50_restart_violated`, `Davidson.C50_exact_start`, `Davidson.C50_convergence_test`, `Davidson.C50_restart_state`, `Mctdh.C51_unpack_pack`, `Mctdh.C51_from_end`, `Mctdh.C51_pack_unpack`, `Sweep.C52_first_order`, `Sweep.C52_second_order`, `SpinBoson.C53_collect`, `SpinBoson.C54_full_partial`, `SpinBoson.C54_autograph_partial`, `SpinBoson.C54_autograph_violated`, `SpinBoson.C54_mctdh_violated`, `Units.C55_prefixes_partial`, `Units.C55_meV_violated`, `Units.C55_energies`, `Heom.C56_hierachy_partial`, `Heom.C56_eom2`, `Heom.C56_eom_decoupled`, `Heom.C56_eom_violated`, `Heom.C56_hierachy_violated`, `SineDVR.C57_current`, `SineDVR.C58_spectrum`, `SineDVR.C58_second_derivative`, `Grids.C59_spacing_partial`, `Grids.C59_zero`, `Grids.C59_violated`, `ML.C60_variational`, `ML.C60_newton_step`, `ML.C60_newton_marks_violated`, `ML.C61_norm_rate`, `ML.C61_norm_partial`, `ML.C61_init_energy_violated`, `ML.C62_energy`, `SplitProp.C63_generator_partial`, `SplitProp.C63_generator_sweeps_partial`, `SplitProp.C63_sweeps_partial`, `SplitProp.C63_sweeps_violated`, `SplitProp.C63_direct_violated`, `Heap.C64_equal_partial`, `Heap.C64_violated`, `Mctdh.C65_projected_partial`, `Mctdh.C65_energy_partial`, `Mctdh.C65_complex_violated`, `Mctdh.C65_unequal_violated`, `Mctdh.C66_equations_partial`, `Mctdh.C66_two_coordinates_partial`, `Mctdh.C66_complex_violated`, `Mctdh.C66_three_violated`, `Splitting2.C67_one_term_partial`, `Splitting2.C67_one_site_order_partial`, `Splitting2.C67_two_terms_violated`, `Autocorr.C68_autocorr`, `Autocorr.C68_fast`, `Autocorr.C68_fast_agrees`, `ML.C69_rk4_partial`, `ML.C69_stale_fields_violated`, `DirectSolve.C70_scipy_step`, `DirectSolve.C70_one_tensor_partial`, `DirectSolve.C70_stale_fields_violated`, `DirectSolve.C70_stale_time_violated`, `Pade.C71_pade`, `Pade.C71_convergence`, `Corr.C72_drude`, `Corr.C72_pade`, `Corr.C72_matsubara`, `Corr.C73_cold`, `Corr.C73_brownian_partial`, `Corr.C73_matsubara_violated`, `Corr.C73_total`, `Corr.C74_drude`, `Corr.C74_decompositions`, `Corr.C74_brownian`, `Corr.C74_generate`, `Corr.C74_temperature`, `Pade.C75_psd_partial`, `Pade.C75_fermi_violated`, `Pade.C75_assertion`, `Pade.C75_third`, `BoseFermi.C76_msd`, `BoseFermi.C76_arguments`, `Sbm.C77_transposed`, `Sbm.C77_heom_partial`, `Sbm.C77_trace_partial`, `Sbm.C77_heom2`, `Sbm.C77_errors`, `Sbm.C77_labels_violated`, `Sbm.C78_scale`, `Sbm.C78_reduced`, `Sbm.C79_mirror_partial`, `Sbm.C79_hermitian_partial`, `Sbm.C79_violated`, `Sbm.C80_wfn_partial`, `Sbm.C80_norm`, `Sbm.C80_labels_violated`, `Sbm.C81_do_partial`, `Sbm.C81_trace_partial`, `Sbm.C81_violated`, `DrudeNoise.C82_drude_partial`, `DrudeNoise.C82_matsubara_violated`, `DrudeNoise.C83_reads_partial`, `DrudeNoise.C83_frozen`, `DrudeNoise.C83_mixed_violated`, `Spd.C84_function`, `Spd.C84_zero_temperature_partial`, `Spd.C84_zero_temperature_violated`, `Spd.C85_matsubara`, `Spd.C85_residues_partial`, `Spd.C85_residues_violated`, `Spd.C85_two_violated`, `Spd.C86_drude`, `Spd.C86_brownian_violated`, `Seom.C87_generator`, `Seom.C87_decay_violated`, `ML.C88_types`, `ML.C88_names`, `ML.C88_unknown_violated`, `ML.C88_again_violated`, `PoDvr.C89_history_partial`, `PoDvr.C89_stale_violated`, `PoDvr.C89_wrong_violated`, `PoDvr.C89_before`, `PoDvr.C89_too_many`, `PoProp.C90_values`, `PoProp.C90_end_partial`, `PoProp.C90_end_violated`, `PoProp.C90_energy`, `PoDvr.C90_equation_partial`, `PoProp.C91_values`, `PoProp.C91_doubled`, `PoProp.C91_end_partial`, `PoProp.C91_end_violated`, `PoProp.C92_spectrum_violated`, `PoProp.C92_spectrum_partial`, `PoProp.C92_decomposition`, `PoProp.C92_refuses`, `Mctdh.C93_value`, `Mctdh.C93_values`, `Mctdh.C93_state_partial`, `Mctdh.C93_violated`, `Mctdh.C94_terms`, `Mctdh.C94_none`, `Mctdh.C94_range`, `Mctdh.C95_solve`, `Mctdh.C95_init`, `Mctdh.C95_empty`, `Mctdh.C95_exact`, `Mctdh.C96_blocks`, `Mctdh.C96_fixed`, `Mctdh.C96_state_partial`, `Mctdh.C96_violated`, `Mctdh.C97_updated_partial`, `Mctdh.C97_default_partial`, `Mctdh.C97_given_violated`, `SineDVR.C98_exists`, `SineDVR.C98_length`, `SineDVR.C98_box`, `SineDVR.C98_grid`, `SineDVR.C98_inner`, `SineDVR.C98_dvr_func`, `SineDVR.C98_dvr_func_range`, `SineDVR.C99_kinetic`, `SineDVR.C99_second`, `SineDVR.C99_first`, `SineDVR.C99_antisymmetric`, `Symbolic.C100_orthonormal_partial`, `Symbolic.C100_eigenfunction_partial`, `Symbolic.C100_ground`, `Symbolic.C100_norm_of_one`, `Symbolic.C100_violated`, `Numerical.C101_g0prime`, `Numerical.C101_g1prime`, `Numerical.C102_w_well`, `Numerical.C102_linear_corr`, `Numerical.C102_coupled`, `Numerical.C102_square_well`, `Numerical.C102_sho_partial`, `Numerical.C102_sho_violated`, `CasDVR.C103_exists`, `CasDVR.C103_inner`, `CasDVR.C103_position`, `CasDVR.C103_t_mat`, `CasDVR.C103_kinetic`, `CasDVR.C104_partial`, `CasDVR.C104_violated`, `SineDVR.C105_eigh`, `SineDVR.C105_partial`, `SineDVR.C105_unitary`, `SineDVR.C105_other`, `SineDVR.C105_before`, `SineDVR.C105_violated`, `Heom.C106_raiser_partial`, `Heom.C106_lower_partial`, `Heom.C106_number_partial`, `Heom.C106_adjoint`, `Heom.C106_terms_partial`, `Heom.C106_none`, `Heom.C106_violated`, `ML.C107_run`, `ML.C107_rk4_partial`, `ML.C107_partition_partial`, `ML.C107_violated`, `ML.C107_limit_partial`, `SplitProp.C110_sweeps`, `SplitProp.C110_direct`, `ML.C108_state_partial`, `ML.C108_returns_partial`, `ML.C108_bond_one`, `ML.C108_given`, `ML.C108_violated`, `ML.C108_matvec`, `ML.C108_matvec_error`, `Network.C111_root_partial`, `Network.C111_ambiguous`, `Network.C111_violated`, `Network.C111_template`, `Network.C111_copy_partial`, `Network.C111_copy_violated`, `Network.C112_vectorize_partial`, `Network.C112_tensorize_partial`, `Network.C112_violated`, `Network.C113_partial_env_violated`, `Network.C113_partial_env_error`, `Bath.C114_modes`, `Bath.C114_convergence`, `Bath.C114_empty_cell`, `Bath.C114_number`, `SpinBoson.C115_hamiltonian_partial`, `SpinBoson.C115_documented_partial`, `SpinBoson.C115_inner_leaves`, `SpinBoson.C115_field`, `SpinBoson.C115_missing`, `SpinBoson.C115_bath_violated`, `SpinBoson.C115_lengths_violated`, `Grids.C116_norm`, `Grids.C116_reversible`, `Grids.C116_renormalize`, `Grids.C116_converges`, `Grids.C116_solution`, `Grids.C117_moments`, `Grids.C117_uncertainty`, `PoDvr.C118_init`, `PoDvr.C118_no_vector`, `PoDvr.C118_ground_partial`, `PoDvr.C118_ground_violated`, `PoDvr.C118_davidson_partial`, `PoDvr.C118_before`, `PoDvr.C118_mu`, `PoDvr.C118_mu_errors`, `PoDvr.C118_mu_violated`, `PoDvr.C118_mu_transition`, `PoDvr.C118_eigsh`, `PoDvr.C118_eigsh_ground_partial`, `PoDvr.C118_eigsh_before`, `Network.C119_vertices`, `Network.C119_edges`, `Network.C119_directed_partial`, `Network.C119_subleaves`, `Network.C119_subleaves_error`, `Network.C119_directed_violated`, `ML.C120_hermitian_terms`, `ML.C120_value`, `ML.C120_real`, `ML.C120_variational`, `ML.C120_ground`, `Heap.C121_overlap`, `Heap.C121_norm`, `Heap.C121_zero`, `Heap.C121_angle`, `Heap.C121_symmetric`, `SpinBoson.C122_pairs`, `SpinBoson.C122_tree_partial`, `SpinBoson.C122_violated`, `Dmrg.C123_one_site`, `Dmrg.C123_two_sites`, `Dmrg.C123_size`, `Dmrg.C124_one_site`, `Dmrg.C124_two_sites`, `Dmrg.C124_converges_one_site`, `Dmrg.C124_converges_two_sites`, `Dmrg.C124_energy`, `Dmrg.C124_exact_libraries`, `Dmrg.C125_fm_state`, `Dmrg.C125_ferromagnet`, `Dmrg.C125_antiferromagnet`, `Dmrg.C125_dmrg`, `Dmrg.C125_odd`, `Heap.C126_truncation`, `Heap.C126_error`, `Heap.C126_best`, `SplitProp.C127_one_site`, `SplitProp.C127_sweeps`, `SplitProp.C127_exact_value`, `SplitProp.C127_exact`, `Dmrg.C128_fine_grain`, `Dmrg.C128_best`, `Dmrg.C128_two_sites_partial`, `Dmrg.C128_norm_violated`, `Dmrg.C129_move_right`, `Dmrg.C129_best`, `Dmrg.C129_one_site`, `Dmrg.C129_converges`, `Sbm.C130_loop`, `Sbm.C130_missing`, `Sbm.C130_loop_partial`, `Sbm.C130_product_violated`, `Sbm.C130_raises_violated`, `Sbm.C130_bath_violated`, `Sbm.C130_system_partial`, `OdeReal.C131_sweeps_violated`, `OdeReal.C131_split_prop_violated`, `OdeReal.C131_diff_partial`, `OdeReal.C131_case_violated`, `ML.C132_density`, `ML.C132_inverse`, `ML.C132_norm`, `ML.C133_direct`, `ML.C133_regular`, `SplitProp.C133_root`, `SplitProp.C133_single`, `SplitProp.C134_sweeps`, `SplitProp.C134_second`, `SplitProp.C134_pairs`, `SplitProp.C134_single`, `Sbm.C135_none`, `Sbm.C135_terms_partial`, `Sbm.C135_oscillators`, `Sbm.C135_violated`, `Unzip.C136_schedule`, `Unzip.C136_column`, `Unzip.C136_lazy`, `PoFast.C137_history`, `PoFast.C137_exceptions`, `PoFast.C137_propagation`, `PoFast.C137_hamiltonian_partial`, `GridStates.C138_exponential`, `GridStates.C138_eigh`, `GridStates.C138_norm`, `GridStates.C138_group`, `GridStates.C138_reverse`, `GridStates.C138_commute`, `GridStates.C138_uncoupled`, `GridStates.C139_norm`, `GridStates.C139_reversible`, `GridStates.C139_trajectory`, `GridStates.C139_renormalize`

**propext, Quot.sound**: `Heap.C01_link_effect`, `Heap.C01_unlink_link`, `Heap.C01_unlink_refuses`, `Heap.C01_unlink_effect`, `Heap.C02_overwrite_breaks`, `Heap.C04_from_leaf`, `Heap.C06_decorated`, `Heap.C06_directed`, `Heap.C07_generate_no_root`, `Heap.C08_tensorize_vectorize`, `Heap.C08_tensorize_vectorize_aux`, `Heap.C08_vectorize_tensorize`, `Triangular.C22_first`, `Ode.C30_done`, `Ode.C30_hit`, `Ode.C30_propagator_ends_partial`, `Ode.C31_grid_propagator`, `Dmrg.C34_is_mpo`, `Dmrg.C34_short`, `Units.C48_division_by_zero`, `Mctdh.C51_too_short`, `SpinBoson.C53_no_field`, `Settings.C109_set`, `Settings.C109_unknown`, `Settings.C109_others`, `Network.C111_foreign`, `Network.C111_set`, `Network.C111_overwrite`
