# Formal model of phasor: design

Source: `/repo` (mccullerlp/phasor, python).  The code is read as text and is never run.
The model is in Lean 4 under `lean/Verif/`.

## Trusted base

* Lean's kernel, and the axioms `propext`, `Classical.choice`, `Quot.sound` (each theorem depends on at
  most these three; the exact set for each theorem is listed in the table "Axioms" at the end).
  No own axioms, no `sorry`, no `native_decide`, no `bv_decide`.
* The reading of the python sources: every model definition cites the file and lines it mirrors.
* Numbers: python/numpy floats are modelled by an exact field (a generic `Field`, `ℚ`, `ℝ` or `ℂ` as stated at each
  definition).  Rounding, overflow, NaN and numpy broadcasting are **not** modelled.  Dividing by zero is the error
  `ZeroDivisionError`, as for python numbers (numpy scalars warn and give `inf` or `nan`).
* Python dictionaries are modelled by association lists (`Verif/Py/Dict.lean`) that preserve insertion
  order; sets by duplicate free lists whose order stands for an arbitrary iteration order; `set.pop` by an arbitrary
  choice function or stream of choices; exceptions by the `Except`/`Option` result of the model function.
* Objects used as dictionary keys are modelled by an arbitrary type with decidable equality (hash
  collisions are resolved by `==` in python, so only equality is observable).
* Calls into libraries: `numpy`/`scipy` routines that are not modelled are parameters with a stated contract (`Sci.Exact` for `spsolve`:
  a run that returns has solved a regular system, and it returns on regular systems; really a singular matrix gives `nan` and a warning).
* Loops that may not end take fuel; theorems either prove that some fuel suffices or speak of runs that end.

## Layout of the Lean project

* `Verif/Py/*`      python containers and exceptions
* `Verif/<Area>/Model.lean`  definitions mirroring the code, with citations (also `Inject/Sparsity`, `Inject/Iterate`,
  `Circuit/Base`, `Circuit/Net`, `Circuit/Completion`, `Mech/ThermalModel`, `Signal/StateSpace`, `Signal/Filter`, `Keys/Order`)
* `Verif/<Area>/Spec.lean`   the independent specification (where a separate one is needed)
* `Verif/<Area>/*Props.lean`, `Props.lean`  the property theorems and their non-vacuity examples
* all other files: helper lemmas

`seeded/LOG.jsonl` records the mutation tests of the theorems: an edit to a model definition, the claim it breaks and
the theorems that fail.

## What is modelled

| area | code | Lean |
|------|------|------|
| keys | `base/dictionary_keys.py` (all of `DictKey`, `FrequencyKey` except repr and pickling); `system/system.py` l.227-286 (order limits, frequency sums) | `Keys` |
| queue | `utilities/priority_queue/heap_priority_queue.py`, `heapq` of the standard library | `Queue` |
| graph solver | `matrix/matrix_generic.py`, `matrix/graph_algorithm.py` (`loop_fast_unstable`) | `Graph` |
| default solver | `matrix/DAG_algorithm.py`, `matrix/DAG_algorithm_impl.py` (`loop_LUQ`: LU steps, pivots, Householder, dressing, purging) | `Dag` |
| scipy solver | `matrix/scisparse_algorithm.py` l.89-400 (scalar values; `spsolve`, `set.pop` and the sorts l.45-68 are parameters) | `Sci` |
| iteration over orders | `system/solver_algorithm.py` l.80-92, 318-323, 384-467, 524-559, 594-636 (one step, readouts and couplings are parameters, set to the functions of `Inject` for C107; scalar values; no warnings printed) | `Solve` |
| floating couplings | `system/matrix_algorithm.py` l.63-64, 193-207, 310-326, 426-473, `system/solver_algorithm.py` l.272-302, `optics/ODE_solver.py` l.124-147, 206-218 (block of a matrix instead of single edges; virtual nodes numbered in one list; no symbolic values) | `Floating` |
| squeezer | `optics/EZSqz.py` l.25-170, 245-323 (real parameters, python floats, an empty parameter tree) | `Optics/Squeezer*` |
| key requests of squeezers | `optics/EZSqz.py` l.199-243 | `Fill/Squeezer` |
| key requests of crystals | `optics/nonlinear_crystal.py` l.78-148 | `Fill/Crystal` |
| residuals of fits | `fitting/casadi/transfer_functions.py` l.48-114 | `Fit/Transfer` |
| jittered fits | `fitting/casadi/expressions.py` l.58-170, transforms of `fitting/casadi/symbolics.py` l.112-136, `fitting/casadi/base.py` l.12-24 (real symbols, scalar expressions, no remappers) | `Fit/Jitter` |
| symbols of fits | `fitting/casadi/symbolics.py` l.88-109, `fitting/casadi/fitter.py` l.244-301, `fitting/casadi/expressions.py` l.219-251 (scalar symbols, real bounds) | `Fit/Symbols` |
| beams in layouts | `alm/{system,bases,space,mounts}.py` (`matrix_target_to_z_single`), `alm/measurements.py` (name map, `beam_targets`, `overlap`, `overlap_seq`, `overlap_list`, `target_q`, `target_q_z`, `relative_gouy_phasor`), `alm/target.py` (raw and fitted beams); `relative_gouy_ellipticity`, the printed descriptions and the plots not | `Layout/ToZ*`, `Layout/Measure*` |
| waists and constraints of layouts | `alm/space.py` l.107-131, l.141-149, `alm/measurements.py` l.135-140, l.356-391, l.420-443 (the waist descriptions), `alm/system.py` l.414-437, `alm/mounts.py` l.45-51, l.173-175, `alm/bases.py` l.127-129 | `Layout/Waist` |
| projected targets | `alm/projected_target.py`, `as_target` of `alm/bases.py`, `_target_to_child` of `alm/system.py` and `alm/measurements.py` | `Layout/Projected` |
| optimum filter | `signals/filters/legendre_filters.py` l.30-161 (exact integers and fractions; `numpy.polynomial` by its definitions; root finders by the contract `Lgd.Factors`) | `Signal/Optimum*` |
| array utilities | `utilities/np.py` l.10-33, 41-98, 129-159, 236-280 (exact numbers; arrays as lists; `np.argsort` by the contract `Npu.Argsort`; `masked_argsort`, `common_type` and `search_local_sorted` not) | `Util` |
| phases in plots | `utilities/plots/loops_and_budgets.py` l.14-40 (`angle`; `np.unwrap` by its formula; real numbers; indices that are not negative; the plots not) | `Util/Angle` |
| units | `base/pint.py`, `base/simple_units.py`, `base/multi_unit_args.py` l.14-145, `fitting/casadi/fitter.py` l.73-84, bounds in `signals/ZPSOS.py` l.120-130 (units as factors with exponents; the tree of `declarative` as leaves at paths, whose `setdefault` keeps what is there; `unitless_refval_attribute` and `arbunit_refval_attribute` not) | `Units` |
| piezo and isolator | `transducers/PZT.py` l.16-120 (couplings; the default of `d_eff_m_V` and the requests of keys not), `optics/selective_mirrors.py` l.14-89, `PolarizingBeamsplitter` of `optics/polarization.py`, `optics/faraday_isolator.py` l.18-50 (networks as the equations of their elements) | `Mech`, `Optics` |
| matrix filters and modulators | `signals/mimo_filter.py` l.22-75, `signals/amplifiers.py` l.82-127, `system/system.py` l.288-297; `optics/AOMBasic.py` l.16-45 and l.146-197 | `Signal`, `Optics` |
| homodyne detectors | `optics/hidden_variable_homodyne.py` l.21-78, l.176-390, l.438-460, l.517-611 (couplings; the requests of keys not) | `Optics` |
| beam fits | `alm/beam_fit.py` (fits and targets; plots and reports not) | `Beam/Fit` |
| polarization in rings | `optics/tools/polizarization_circulation.py` | `Optics/Circulation` |
| control loops | `signals/power_loops.py` (of the controllers only `controller_20x1e9`; `cheby_plateau`s not; scipy's designs are parameters) | `Signal/PowerLoops` |
| transformers and vendor amplifiers | `electronics/passive.py` l.235-345, `electronics/models/vendor_opamps.py` (real frequencies) | `Circuit/Transformer`, `Circuit/Vendor` |
| transimpedance amplifier | `electronics/models/PDAmp.py` l.14-38 (its values are parameters), with the noises of `electronics/opamps.py` l.178-218 and `electronics/passive.py` l.23-31 | `Circuit/PhotoAmp` |
| driven ports | `mechanical/ports_driven.py` (couplings; the requests of keys not) | `Mech/Driven` |
| key requests of the modulators | `optics/AOMBasic.py` l.46-144, `optics/AOM.py` l.66-180 | `Fill/Aom`, `Fill/AomFull` |
| key requests of the homodyne detectors | `optics/hidden_variable_homodyne.py` l.80-173, l.419-436, l.463-514 (theorems for detectors whose oscillator is the light at their front) | `Fill/Homodyne` |
| sparse products | `matrix/SRE_matrix_algorithms.py` l.1-123 (`finfo.eps * 10` and the order of `list(set)` are parameters; the square root of the norm is the real one), adjoint | `Sre` |
| numerics | `math/numerics.py`, `matrix/linalg.py` (`yield_bits_on`, `stackrange`) | `Num` |
| complex numbers | `math/complex.py` | `Cplx` |
| dispatched functions | `math/dispatched.py` l.14-65, l.132-155, `math/dispatch_defaults.py` l.13-26, registrations of `math/{complex,dispatch_casadi,dispatch_sympy}.py` (what names the libraries have is a parameter; the calls of the functions found not; numpy with the names `np.float`, `np.int` and `np.complex`) | `Util/Dispatch` |
| keyed arrays | `math/key_matrix/keymatrix.py`, products of `keyed_linear_algebra.py` | `KeyMat` |
| topological sort | `math/key_matrix/keymatrix_reduce_tarjan.py` | `Tarjan` |
| beams | `alm/beam_param.py`, `alm/utils.py` | `Beam` |
| layouts | `alm/{system,bases,space,target,mounts,composites}.py` | `Layout` |
| port keys | `system/ports_algorithm.py` | `Ports` |
| requests for keys | `optics/nonlinear_utilities.py` l.11-145, the methods `system_setup_ports(_initial)` of the optics and signal elements, and the copies that those of the electrical and mechanical elements consist of | `Fill` |
| injections | `system/matrix_injections.py`, `system/matrix_algorithm.py`, `system/solver_algorithm.py` (source and edge generation, one iteration step, driven solution, couplings from drives to readouts) | `Inject` |
| electronics | `electronics/{passive,smatrix,elements,sources,opamps,noise,multimeter,ports}.py`, bond completion of `system/system.py` | `Circuit` |
| mechanics | `mechanical/{passive,smatrix,elements,sources,multimeter,noise,string,xyz}.py` except `DisplacementSourceBalanced`, `ForceFluctuation` and the noise of other elements; displacement takes the place of the voltage and force of the current | `Mech`, as elements of `Circuit` |
| signals | `signals/{state_space,ZPSOS,siso_filter,amplifiers,mixer,RMS,signal_generator}.py` | `Signal` |
| optics | `optics/{space,laser,mirror,photodiode,modulators,circulator,polarization,selectors}.py`, `optics/nonlinear_utilities.py` l.147-end | `Optics` |
| integration | `optics/ODE_solver.py` l.59-446, `system_setup_coupling` of `optics/nonlinear_crystal.py` l.150-252 and `optics/AOM.py` l.182-281 | `Ode` |
| noise | `system/matrix_algorithm.py` l.119-149, `readouts/noise.py`, `readouts/AC.py` l.141-151, pairs and spectra of `{signals,electronics,mechanical}/noise.py` and `optics/vacuum.py`, Johnson noise of the electronics, thermal noise of the mechanics | `Noise`, `Mech` |
| readouts | `readouts/AC.py`, `readouts/homodyne_AC.py` | `Readout` |
| shot noise | `optics/vacuum.py` l.54-58, with the elements of `Optics`, the noise of `Noise` and the solver of `Graph` | `Shot` |

## What is not modelled

* floating point rounding, numpy arrays of values (every model has one frequency point), dtype and shape handling;
* the framework `declarative` (attribute trees, `ctree`, memoised properties beyond what the layouts need), logging, plotting,
  printing, YAML;
* symbolic values (`SRABE_SYM`, `check_symbolic_type`), METIS orderings;
* `readouts/multi_AC.py`;
* `optics/ODE_solver.py` from l.450 on (old versions),
  `optics/selective_mirrors.py` from l.104 on, `optics/models`,
  `mechanical/models`,
  `fitting/*` (but for `parameter_add`, `symbol_map`, the residuals of `transfer_functions.py`, and the jitter and the values of the solution of `expressions.py`), the plots of `alm/beam_fit.py`, `alm/substrates.py`, `math/vdispatched.py`, the operators that `math/dispatch_casadi.py` patches, `math/uncert*`, `key_matrix/autobasis.py`.

## Property by property

| id | modelled | how proved |
|----|----------|-----------|
| C01 | `FrequencyKey` as a dictionary frequency → integer, `__add__ __sub__ __neg__ __eq__` | denotation into functions frequency → ℤ; zero-free dictionaries are determined by their denotation |
| C02 | same plus `frequency`, `__rmul__` | the frequency sum is a linear functional of the denotation |
| C03 | same | refuted: `0*k` (witness); partial for keys built by `+ - neg` and nonzero factors |
| C04 | `__hash__` as a function of the sorted item list | equal dictionaries are permutations, sorting is canonical |
| C05, C06 | `DictKey` operations with their error branches | extensionality of partial maps |
| C07 | `DictKey.__lt__` | refuted: the comparison is always False |
| C08, C09 | `heapq` sift-up/sift-down on lists, the queue class | refinement to multisets, heap invariant by induction on the history |
| C10 | thread safe `pushpop` | refuted: AttributeError on every input |
| C11–C14, C17 | `reduce` step and main loop of `graph_algorithm.py`, `inverse_solve_inplace` | solution set invariance for each step, induction over the elimination |
| C15, C16 | purge functions | reachability invariant, restriction of the solution |
| C18–C22 | `reduceLU`, pivots, Householder, `inverse_solve_inplace` of the DAG solver | each step is an equivalence of augmented systems `A x + α = 0, y = β x` |
| C23, C24 | SRE product and adjoint | dense form into sums |
| C25–C28 | `KVSpace`, `KeyVector`, `KeyMatrix` in a world of shared objects | invariant over histories of calls; counterexamples for `__add__`, `backmap_array`, memos |
| C29 | `topological_sort` stack machine | counterexamples on cycles; invariant proof for acyclic graphs |
| C30 | `yield_bits_on` | strong induction on the number |
| C31 | `stackrange` | induction on the tuple length |
| C32, C33 | `Complex` | ring homomorphism to ℂ; counterexamples for even/negative powers |
| C34–C37, C46–C48 | `ComplexBeamParam`, lenses and telescopes | field identities over ℝ, positivity of Im, the Gaussian overlap integral |
| C38, C39, C49, C50 | layout trees | the light path as a flat list of elements; induction over the tree with a memo invariant |
| C40 | port worklist with a stream of choices | invariant of the worklist, least closed assignment |
| C41, C51 | coupling classes, generated linear system | ring identities; sums over the dictionaries |
| C52 | sparsity analysis | counters equal the number of missing nodes; least fixed point |
| C53 | one step of the nonlinear iteration and the readout | C51 and C12 at the required nodes; off them every coupling vanishes |
| C54 | bond links through test points | chain invariant, termination of the allocation of post-bond keys |
| C42, C43 | scattering gains of the electrical elements | equivalence of wave relations and voltage/current laws; refutation for the 2x2 element |
| C55, C56 | circuits: elements, bonds, fluctuations, readouts, completion of multiple bonds | node equations ⇔ circuit laws; Kirchhoff sums on closed sets ⇔ existence of link currents |
| C44 | state space couplings | linear algebra; refutation for the D term |
| C45, C57, C58 | filter products, gain normalisation, integrator, resonance | induction over the root lists; identities over ℂ |
| C59 | all elements of the signal domain | each list of couplings commutes with the conjugate reflection of fields |
| C60 | order limits | acceptance as a statement on multiplicities; injection into a product of intervals |
| C61, C62 | mixers, modulators, mean squares | convolution of finitely supported functions, invariant of the visited keys |
| C63 | cutoffs | the sum over the keys of the input; witness for `classical_frequency_test_max` |
| C64 | all modelled optics elements | each list of couplings commutes with exchanging lowering and raising fields and conjugating |
| C65, C66 | photodiodes, modulators | sums over pairs of keys as products of functions of time; invariant of the visited signal keys |
| C67–C70 | mirrors: couplings of all port pairs, losses, position and force ports | totals at every output; identities in the amplitudes; witnesses over ℂ |
| C71, C72 | spaces, lasers | one edge per key; exponentials as homomorphisms |
| C73, C74 | rotators with all branches, wave plates between two rotators | every branch is the rotation by the angle; the solution of the inner network |
| C75, C76 | selectors, circulators | sums over the ports; induction over the keys for the error |
| C77, C78 | noise map, cross spectral densities, solver of `Graph` | invariants of the nested loops; the columns of the inverse; sums of squares |
| C79, C80 | circuits of `Circuit` with Johnson noise | the theorem of Tellegen over the bonds (a permutation of the ports); power balance of each element |
| C81 | readouts of the couplings of the graph solver | columns of the inverse; the closed system solved by one column plus the loop cut at a port |
| C82, C83, C84 | quadratures, rotation, ellipse, sensitivities | trigonometry; eigenvalues of a symmetric 2x2 matrix; Cauchy-Schwarz with its gap |
| C85 | edges which the photodiode inserts, evaluated at a solution | sums over pairs of keys; each pair of keys is inserted twice |
| C86 | any list of elements whose couplings keep the commutators | the closed network keeps them: `1 = A A^† + B B^†` for the response `(1-M)^{-1}`; the response of the photodiode applied to the fields of the vacuum |
| C87 | `coupling_solution_get` on the graph of the couplings and bonds | gains of the generated graph; the inverse of C13 |
| C88 | couplings as differentiable functions of the fields | derivative of the nonlinear equations, C87; for photodiodes C65 and C85 |
| C89, C90 | mechanical elements as elements of `Circuit` | the law of each admittance; sums over the entries of the injected matrices |
| C91 | string in a circuit, by C55 | the laws of its three elements and two bonds |
| C92 | circuits with thermal noise, by C55 and C79 | antisymmetric power balance of each element and the theorem of Tellegen |
| C93 | requests of all optics and signal elements, their couplings | what a loop is sure to ask for whenever one of its keys is new; case analysis of the couplings of each element |
| C94 | the same | invariant of the worklist: all sets of keys are their own conjugates; each loop commutes with conjugation |
| C95 | the same | each loop keeps to the allowed keys; a finite set of pairs of a port and a key decreases |
| C96 | the same | the inductively defined set of needed keys is closed, and nothing outside of it is asked for |
| C97 | `ExpMatCoupling` on any equations, values over a sweep | the loops compute the steps and their derivative, sorted and collected sums and skipped zeros included |
| C98 | the same | the steps taken one key at a time are a consistent one-step method; Gronwall on a neighbourhood of the solution |
| C99 | crystal and `ExpMatCoupling` | invariants of the loops over pairs of keys |
| C100 | the same | power is constant along the equations (each triple of keys cancels), so a solution exists up to the end; C98 |
| C101 | the same, modulator | edges of the fresh coupling and of an update with zero fields |
| C102 | the same | conjugation maps solutions to solutions, which are unique |
| C103, C104 | modulator and `ExpMatCoupling` | as C99, C100; the explicit solution for one drive |
| C105 | scipy solver with any `spsolve` that solves regular systems exactly (`Sci.Exact`) | the matrix and right side passed to `spsolve` are those of the kept nodes; the kept block of an invertible matrix is regular |
| C106 | scipy and default solver | both return the values of any solution |
| C107 | `solve` and what is read after it | `Near` is the test spelled out; linear systems reach their solution in one step (with C53) |
| C108 | any sequence of uses of the solver object | every stored entry is a function of its order alone |
| C109 | `edge_matrix_generate` with floating pairs | blocks are written after the ordinary edges, the last nonzero entry stays |
| C110 | the analysis with floating pairs | `Live` carries a field from any input of a pair to all its outputs; no virtual node is left |
| C111 | converged iteration with floating couplings | `Separate`: blocks do not meet each other nor other edges; the sum of C53 with the blocks acting on the fields |
| C112 | converged iteration with integrating couplings | the linearisations drop out: at its outputs a coupling adds where the integration of the present fields ends |
| C113 | `edge_matrix_to_unitary_sre` | rows are vectors of `EuclideanSpace`, compared with Mathlib's `gramSchmidtNormed`, `Orthonormal`, `span` |
| C114 | `EZSqz.__init__` | `SqzUsed.Agree`: the relations of l.129-132 between gains, loss, variances and decibels, written out |
| C115 | `EZSqz.system_setup_coupling` | the equation of every output field; commutators as sums over independent inputs; variances of quadratures with vacuum at all inputs |
| C116 | `matrix_target_to_z_single` | `Cut`: the light path up to a place, a space cut in two; ray products of `Comp.before` and `Cut` |
| C117 | overlaps of named targets | Möbius action on complex numbers in the upper half plane; `shared`: 4 Im Im / normSq, invariant under it |
| C118 | beams and Gouy phasors | beams followed along the matrices between places; phases as `exp` of differences of `arctan` |
| C119 | `optimum_poly` | closed forms with integer coefficients of the integrals (Jacobi polynomials); real values, `StrictMonoOn` |
| C120 | `legendreap` | symmetric multisets of roots; the squared gain at every frequency |
| C121 | `optimum_poly` | comparison with every real polynomial; sums of squares on [0, 1] and reproducing kernels |
| C122 | `generate_sections`, `generate_antisections` | which indices the intervals hold, from the array itself |
| C123 | `continuous_phase`, `mag_phase_signed`, `group_delay` | `Complex.arg`, `Complex.exp`; uniqueness of angles in a range |
| C124 | `first_non_NaN` | the first true entry of a list |
| C125 | `domain_sort`, `interval_limit` | permutations, `List.filter` of the rows |
| C126 | `SimpleUnitfulGroup.__add__`, `__sub__`, `__mul__`, `__neg__`, `valQ`, `refQ` | amounts in root units, over any field and any group of dimensions |
| C127 | `ElementRefValue.val`, `ref`, `ctree_units_scale` | as C126 |
| C128 | `SETUP` of `generate_refval_attribute`, `mag1_units` | cases over the sources; the entries of the tree |
| C129 | `fitter_parameter`, `fitter_inject`, `fitter_reinject`, `fitter_initial` | leaves at paths, prefixes of paths |
| C130 | `FitterRoot.parameter_add`, bounds of `add_fit` | prefixes of keys; real inequalities |
| C131 | `PZTMountedGrounded.system_setup_coupling` | the 2x2 system of the waves solved for the laws |
| C132 | `PolarizingBeamsplitter`, `PolarizingMirror`, `MirrorSelectionStack`, `OpticalSelectionStack` | C75 (selectors) and C67 (mirrors) at each port |
| C133 | `FaradayIsolator` | C132, C73 (rotators) and C74 (half-wave plates) in series |
| C134 | `TransferFunctionMIMO`, `MatrixAmplifier`, `classical_frequency_test_max` | the dictionary of the outputs after the loop; sums over grouped pairs |
| C135 | `AOMBasic.system_setup_coupling` | sums over the components of the drive, half of which drive in each direction; C62 (mean squares) |
| C136 | `HiddenVariableHomodynePD`, `TotalDCPowerPD` | sums of beats of two ports; the convention of signals (C65); values of cosine and sine |
| C137 | `QFit`, `QFitBeamTarget` | least squares is a parameter; a curve of widths is told from others by three places |
| C138 | `polarization_circulation` | positions of mirrors in real space; `numpy` returns nan where the model raises |
| C139 | `zpk_mult`, `zpk_div`, boosts, `sort_roots`, `zpk_convert`, `shift_to` | scipy's `cheby1` and `butter` are parameters, its `freqresp` the quotient of products |
| C140 | `Transformer`, `TransformerSeries`, their Johnson noise | the law of C43 with the impedances of two coupled inductors, over ℂ |
| C141 | noise spectra and gains of the vendor amplifiers | closed forms over ℝ and ℂ |
| C142 | `AOMBasic.system_setup_ports` | the nodes of the couplings of C135 are nodes of the fixpoint of C17 |
| C143 | `AOM.system_setup_ports` | the nodes of the equations of C103 are nodes of the fixpoint of C17 |
| C144 | `HiddenVariableHomodynePD.system_setup_ports`, `TotalDCPowerPD.system_setup_ports` | the nodes of the couplings of C136 are nodes of the fixpoint of C17 |
| C145 | `Space.waist_description`, `Measurements.waist_descriptions` | each waist described once, where the beam of the nearest target has it |
| C146 | `Space.constraints`, `System.constraints`, `Measurements.constraints` | the constraints say that no length is negative |
| C147 | `generate_dispatched`, `zero_check_heuristic`, `check_symbolic_type`, `conjugate` | the first module that has the function, of those registered for the type or for the longest beginning of the name of its module; independence of earlier calls |
| C148 | `PDTransimpedance.__build__` | what the reading of the amplifier is for each current and each noise, from the equations of the completed circuit |
| C149 | `ForceToDisplacementBase.system_setup_coupling` at a `MechanicalPortDriven`, bonded to a one port element | sums of the couplings into the port; the law of the waves and its solution with a mass, spring or damper |
| C150 | `as_target`, `_target_to_child`, `BeamTargetProjected.beam_q` | what is left of an element among the leaves of the layout; the beam of the first target through the matrix between the ends of the chain |
| C151 | `EZSqz.system_setup_ports`, `system_setup_coupling`, with the worklist of `ports_algorithm.py` | keys at the ports when the worklist ends, in any order; the nodes that the couplings join |
| C152 | `NonlinearCrystal.system_setup_ports`, with the worklist of `ports_algorithm.py` and the equations of `Ode/Crystal` | keys at the ports when the worklist ends, in any order; these meet the hypotheses of C99 to C102 |
| C153 | `TransferACExpression.function` over ℂ, infinities and NaN as `none` | a sum of squares is 0 where all are; the zeros of each model |
| C154 | `expression_remapped` on functions of the values of the symbols, `casadi_sparsity_ravel` and `unravel` on lists | the loop that adds in pairs is the sum; the list of averaged expressions by induction over the bunches |
| C155 | `fitter_symbol_map`, `symbol_map` as its parallel lists, the dictionaries of `minimize_function` | the lists in closed form; invariants of the loops over the dictionaries |
| C156 | `angle` of lists of complex numbers | phases up to full turns; the floor at the center; arrays with one point |

## Disagreements between the code and the properties

Proved (each has a theorem with a concrete witness, named in `MANIFEST.json`):

* C03: `0*k` keeps zero entries, so it is neither equal to `k-k` nor recognised as DC.
* C07: `DictKey.__lt__` builds both tuples from `self` (dictionary_keys.py l.53-54), it is always False.
* C10: the thread safe `pushpop` calls a missing attribute.
* C12: a self-gain of 1 raises; loops without drive leave the solution undetermined (`C12_undriven_loop`); with `purge_in` off a
  dead end makes the solver fail (`C12_dead_end_fails`).
* C22: the two solvers disagree on a node without edges that is both source and output.
* C23: the product raises KeyError on plain dictionaries when the second matrix starts from a node the first never reaches.
* C26: the arrays of an object without entries, and `idx_dict`, are not renewed when keys are added to the space.
* C27: `KeyMatrix.__add__` is not a keyed matrix when the second operand has an entry the first lacks.
* C28: `backmap_array` expects the transposed array.
* C29: on cyclic graphs the components yielded are wrong or lost.
* C31: an empty tuple raises.  C32: `angle(0)` is π/2; comparing with an object without `.real` raises.
* C33: even powers raise TypeError, the power 0 does not return, negative odd powers return the base.
* C35: `from_W_R` with `R = 0` means a plane wave front, and the accessor `R` then raises.
* C37: with different wavelengths the overlap is asymmetric and can exceed 1.
* C38: empty systems, lenses without focal length and the targets of mounts break composition.
* C39: two components at one location, an empty system with a boundary, and a component flush with the right boundary raise.
* C40: an owner without `system_setup_ports` loses keys; virtual owners and `subset_second` make the result depend on the order;
  `symmetric_update` with a list raises.
* C41: with both factors at the same port the linearised gain is c instead of 2c; normalised couplings leave out the
  derivative of the norm; the shift 1e-30 enters the source only.
* C42: `CurrentSourceBalanced` is not balanced; `VAmp` with an output impedance depends on the wave impedance.
* C43: the four terminal element realises elementwise reciprocal admittances instead of the impedance matrix (symmetric case) and
  not even those otherwise; the determinant uses `Z12*Z12`.
* C44: the D matrix is added to the states (l.182 reads `ports_states`), and models with more outputs than states raise.
* C49: `ABCDGeneric` ignores the reversal; a system with everything cut off exists in one direction only.
* C50: spaces divide by the index once more than the interfaces allow for: a plate acts as one of thickness L/n.
* C52: the order number depends on `set.pop` (nothing reads it).  C54: a cyclic chain of bonds would not end.
* C55: the current readout reads the waves between the fluctuations of a port.  C56: bonds that form a cycle give a singular system.
* C58: the integrator has the opposite sign (`1/(-1j f)`) of the convention of all other transfer functions.
* C60: optical keys with a zero entry are rejected though the same combination without it is accepted.
* C61: mixers and modulators give half (a quarter for two constants) of every product with a constant component.
* C63: `classical_frequency_test_max` keeps all negative frequencies.
* C67: `phase_rad` turns both reflections by the same phase, so a mirror with a phase other than 0 creates power; at normal incidence the
  backscatter interferes with the reflection and a mirror that scatters half of the light back puts out nothing.
* C68: the backscatter is turned by `phase_rad`; `backscatter_phase_rad` is only tested for 0.
* C69: the phase of the light on a moving mirror is 8π cos(θ) z/λ, twice the phase of the longer path.
* C70: the force uses the amplitude of the reflection in place of the reflectivity, and both sides push in the same direction.
* C75: `PolSelector` never reads the light at `Bk_S` and sends that of `Bk_P` back twice (l.63 uses `Bk_P.i`); the port check of a stack
  compares where it should assign (l.179) and accepts everything.
* C84: `AC_optimal_readout_deg` takes the absolute values of both weights (l.285) and so loses their relative sign: for `I` and `Q` of
  opposite sensitivity and equal, uncorrelated noise, `optimal_readout` is at 45 degrees, where the sensitivity is zero.
* C88: the edges into a photodiode (and the edge of a product of a field with itself) hold the derivative with respect to one
  factor only.  The response of a photodiode is half the derivative of its output, so with a modulator as drive, whose
  couplings are exact, the reported transfer function is half the one of the driven system.  The code has a TODO on a factor of two
  there (nonlinear_utilities.py l.291).
* C90: `MomentDriver` indexes the 1x3 array `P_torque` with three rows (xyz.py l.483) and so always raises IndexError.
* C91: `ZConverter` compares `2πi f/Zm` with the mobility times `2πi f` (string.py l.104-105); the first should be `1/Zm`.  A string has
  the characteristic stiffness η in place of `2πi f η`, and creates power in general.
* C92: the noise of a spring with the loss angle φ is `4kTφ/(2πf k)` (passive.py l.62), which is `1 + φ²` times too large.
* C94, C96: `Harmonic2Generator` lets a new key 0 pass with negative but not with positive frequencies (mixer.py l.254-259): its output
  can have the frequency -f without f, depending on the order in which python sets are traversed.
* C95: light on a photodiode whose port `BA` is driven raises UnboundLocalError (nonlinear_utilities.py l.41).
* C96: `symmetric_update` does not select when the output key is the new one, so a modulator or mirror asks for signals between fields
  of different polarization or carrier, depending on the order; their sidebands follow.
* C100: the gain of a product of two different keys in the crystal is twice too large against the gain of squares (nonlinear_crystal.py
  l.206-213, both orders of the factors are inserted): two sidebands of power 1 each turn into light of a power above 5/2.
* C101: keys without a partner in the crystal, and light which the drive of a modulator does not diffract, have no edge to the output
  (the comments in `system_setup_ports` announce a passthrough): the element is opaque for them.
* C102: with finitely many steps the lowered and raised sidebands behind a crystal are not conjugates, as the keys take their steps one
  after the other (1 - i and 2 + i for one step); they are in the limit.
* C106: a node without edges that is both source and output: the scipy solver returns the source, the default solver returns nothing
  (the scipy solver gives inputs and outputs a diagonal entry, scisparse_algorithm.py l.287-289).
* C107: `delta_v_compute` loops over the keys of the new solution only, so that a field that vanishes (source sums of zero are dropped)
  does not count as a change: `solve` stops and reports fields that violate the equations (solver_algorithm.py l.415).
* C108: solutions of order 0 use the operating point of order `N - 1 = -1`, which means the last one found so far (l.440-441, 464-467).
* C109: a block of a floating coupling replaces the gain that other couplings have between the same nodes instead of adding to it, and so
  does a second block (solver_algorithm.py l.287-297).
* C113: entries up to ten times the machine precision are dropped, and after the norm is taken: a regular matrix of small entries is
  reported as dependent, and a returned row can have a norm below one (SRE_matrix_algorithms.py l.95-123).
* C114: `EZSqz` can be made from variances only: gains end in AttributeError at l.129 and decibels at l.139. A variance given with a
  loss leads to another loss (l.111); a first variance above one is exchanged with the second; no squeezing divides by zero (l.147);
  `used_rel_variance_2` stays None when it is computed.
* C115: the default of `EZSqz` squeezes the phase quadrature, not the amplitude quadrature as its docstring says; light of other optical
  frequencies does not pass; the light at its loss ports does not commute with the light at its outputs, though l.313 says unitary.
* C116: at the place of a thin lens the matrix from a target on the left includes the lens, that from a target on the right does not.
  `mat_target_z` (unsorted arrays) ends in an unbound local; `q_target_z` for unsorted arrays starts at the left end.
* C117: across a refracting surface the overlap of two targets that hold the same beam exceeds 1 one way and is below 1 the other way,
  for the beam of a target always has the wavelength in vacuum. A target named `left` or `right` cannot be reached by its name;
  `q_at` uses an attribute `input_q` that does not exist.
* C119-C121 hold as the docstrings say. Fractions made from `np.arange` hold 64 bit integers, which may overflow at high orders; the model
  takes them as unbounded, as the docstring of `optimum_poly` does.
* C122: the last section of an array that ends with True ends at the index of its last element instead of behind it, so that the element is
  lost. The other sections end behind their last elements.
* C123: `continuous_phase` raises IndexError whenever the phase jumps, since `len(raw_angle)/2` is a float; the phase of data without jumps
  is all it returns. `group_delay` of a single point gives two delays.
* C124: `first_non_NaN` halves an index with the true division and so raises IndexError, or returns the length of the array, whenever the first
  number is not among the first two entries.
* C126: a value with units cannot be divided by a number (only Python 2's `__div__` is defined); values without units cannot be added.
* C128: a `pint` quantity given for a parameter is an AttributeError although the message asks for one; a value in the tree without units is read in
  the units the program happens to use; a reference given by the program is read in the units of the tree.
* C129: a fitted value without units that was put back cannot be fitted again (`ooa.val = value` on a number).
* C130: `_registry_parameters` is never filled, so that "Parameter Keys Must be Unique" is never checked and two symbols may stand for one parameter;
  `preserve_plane` lets stable roots become unstable, by up to `.0001`.
* C131: the piezo reads its mechanical waves with force and displacement exchanged, compared with all other mechanical elements: bonded to them it
  is a spring of stiffness `1/k_N_m`.
* C132: both mirrors of a polarizing beamsplitter have both losses, so that a loss larger than a defect asks for the root of a negative power.
* C133: the isolator builds `FaradayRotator()` with its default of no rotation, so that half of the power passes in both directions; the output
  polarization is read from the entry `pol_from` of the tree, so that it always is the input polarization (the test of the isolator is skipped).
* C134: `TransferFunctionMIMO` stores the output under the name of the input (`self.O[iname]`), so that a filter whose output has a name that is not
  also an input raises KeyError; with `max_freq` any key with a frequency raises TypeError (`F.F_Hz` without `.val`).
* C135: without drive the basic modulator absorbs all light (the norm is then 1e8 and the drive 0), where an undriven modulator passes it; a
  component of the drive at zero frequency counts in the norm but diffracts nothing.
* C136: a homodyne detector gives the mean of the product of light and oscillator but only half of its modulations (the photodiode doubles every
  component but the mean, as the convention of signals asks; the homodyne detector doubles none); its `QuantaDC` is twice the photons per second.
* C137: the widths at two places do not determine a beam; the code fits two points without a word (and its first fit may have only two).
* C138: a linear cavity of two mirrors has no polarization matrix: the second pointing is opposite to the first, nothing is left of it to normalize (numpy gives nan).
* C139: `UGF` is not a unity gain frequency of the controllers returned as `zpk`: the gain of `controller_20x1e9` at `UGF = 1` is more than 500, as its last two factors are not normalised.
* C139: `zpk_convert` loses a root at the origin and a single root below the real axis and doubles a single one above; `cheby_boost_7` has such a zero and such a pole.
* C140: no perfect transformer obeys the law of coupled inductors (C43): an open secondary has the voltage of the opposite sign and the primary draws no current.
* C140: `TransformerSeries` inherits a scattering matrix of zeros and has no use for its impedances: nothing passes it and nothing comes back; with Johnson noise and a resistance of its second winding it raises, as it has no port `pe_C`.
* C141: `((20/3.8)**2 - 1) * 1j / F + 1` adds the corner in quadrature to a power: at 1 Hz the spectra are below the densities named in them; at zero frequency they raise.
* C142: for raising fields `AOMBasic` asks for a drive at the sum of the frequencies (l.134), where lowering fields have it ask for the difference: with light of one frequency from both sides and nothing that drives it, it asks for a drive at twice that frequency and for light that nothing can make. Looking for the light that a drive would turn into that of an output, it adds the drive where it would have to subtract it (l.57-58), which is right only as its mixer asks for the negative component too.
* C144: with an oscillator at another port the keys of the outputs of a homodyne detector depend on the order of the worklist: `symmetric_update` gets no `subset_first` (l.117-121), and when the light at the front is new the detector asks for beats of fields whose polarizations do not meet.
* C145: a waist where two spaces meet at the source of the beam is described by both of them, since each side allows 1e-16 (`alm/space.py` l.107-131). A space that begins at a target is described with the beam of the target before it, since a target whose position equals that of the space is passed over (`alm/measurements.py` l.356-391).
* C146: a layout without a target has no constraints, though its spaces have: `Measurements.constraints` raises an IndexError. `alm/constraints.py` cannot be imported: it takes `substrate_environment` from `measurements.py` and `NoP` from `beam.py`, which have no such names.
* C147: `np.float` and `np.int` are `float` and `int`, so that later entries of the dictionary (`math/dispatched.py` l.18-19) take the place of those that name `math`: functions that only `math` has, as the `atan` that `Complex.angle` calls, raise RuntimeError for python's numbers (so C32 on `angle` is about parts whose type has `atan`). Expressions of sympy whose class is not one of seven raise RuntimeError in `zero_check_heuristic`. The default `conjugate` of an object of two parts keeps the sign of the imaginary part.
* C149: driven ports, as the `Z` of mirrors, have no coupling from the wave that comes in to the one that goes out (`mechanical/ports_driven.py` l.67-74; `ForceSource` has the reflection 1). The port then is a spring of stiffness `1 / Zm_termination` (1 N/m) to the ground, and twice the force acts: radiation pressure displaces a suspended mirror of mobility `Y` by `2 f / (Y + 1 / Zm)` instead of `f / Y`. The ports of a `MirrorSelectionStack` and of each of its mirrors add such a spring each. Right are the reading of the displacement and mirrors that are not bonded.
* C150: `as_target` of an element in a mount (`LensMount`, `MirrorMount`, `TargetMount`) raises AttributeError: mounts have no `_target_to_child` (`alm/mounts.py`), though `matrix_between` takes targets in mounts. A `BeamTargetProjected` in or from a `TargetMount` has no beam.
* C151: `EZSqz` makes the couplings of its loss ports for the keys of the light that comes in beside them (`optics/EZSqz.py` l.264, l.305-311), but the keys of the vacuum are asked for by the light that goes out (l.232). Between elements that send nothing back (a circulator with a photodiode at its third port, and a photodiode) the loss takes squeezed light away and adds no vacuum, and the vacuum of the other side is coupled to a node that does not exist. C115 has the assumption that keys at a loss port are keys of the input beside it (`EZSqz.Lit`). A center that is not at the carrier makes light beyond the order limits (l.268 has the check as a comment).
* C152: `reject_optical_frequency_order` (`system.py` l.247-270) looks at each wavelength alone, so a crystal that two lasers of different wavelengths reach asks for their sum, and then `system_setup_coupling` (`optics/nonlinear_crystal.py` l.201-203) raises for it (`C152_composite_refuted`).
* C153: the default residuals of fits of transfer functions, `direct`, are the logarithm of the magnitude and the sine of the phase (`fitting/casadi/transfer_functions.py` l.85-88), so a model of the wrong sign fits exactly (`C153_direct_refuted`). `bias_balance` has a second zero, at the negative of the data over the square of the SNR (`C153_bias_refuted`), and divides by the weights that the SNR limit has put to 0 (l.76, l.100), so with a limit that takes effect there is nothing finite to minimize (`C153_limit_refuted`).
* C154: the loop over pairs of jittered parameters (`fitting/casadi/expressions.py` l.128-132) does not use `sbunch2`, so each parameter is moved twice by itself, once more for every parameter that comes after it, and no two parameters are moved together (`C154_pairs_refuted`, `C154_two`); what is minimized depends on the order of the parameters (`C154_order_refuted`).
* C155: the commas at the ends of `fitting/casadi/symbolics.py` l.106-107 make the bounds of imaginary parts tuples of one entry and not numbers (`C155_bounds_refuted`; what casadi makes of them is not modelled). Complex parameters are twice in `sbunch_list` (`fitting/casadi/fitter.py` l.269, l.280; `C155_twice_refuted`), so their jitter (C154) counts twice.
* C156: without a center `angle` of an array shows the phase of a positive number as a whole turn, where `angle` of the number itself is 0 (`C156_positive_refuted`: l.29 adds a turn to nearly everything and l.31 takes it away only if some phase was positive), and a phase that is a little below 0 a whole turn above one that is a little above 0 (`C156_jump_refuted`).

Noticed while reading, without a theorem:

* `siso_filter.TransferFunctionSISO` stores the builtin `filter`; `Gain.gain` is not decorated; `ZPSOS` computes `N_zeros` from the poles; `collections.Mapping`
  is gone since python 3.10; `RMS.SquareRootFunction` and `RMSMixer` are unfinished; `filter_func_run` indexes a constant transfer function by an array.
* `matrix_injections` iterates `ins` twice (l.197-201); `solver_algorithm` l.299 stores symbolic floating edges under a stale pair;
  the value of a bond is ignored; an absent norm node reads as 1e12; `driven_solution_get(exact_order=..)` may raise IndexError.
* `VAmp.system_setup_ports` calls `.i` on a `DictKey`; `TransformerSeries` never uses its impedances; `CurrentReadout` and `terminal_N` use
  the plain waves; `assert(port_B.multiple_attach)` is an AttributeError.
* `NoiseReadout.select_sources` passes arguments `__init__` does not take, and `external_collect` is always None; `Testpoint.DC` reads a missing
  `port_set`; `adjust_PSD` is unbound unless `sided_spectra` is 1 or 2; `noise_pair_insert` raises TypeError for an unknown port (`in NOARG`);
  `TransformerSeries` puts the noise of its second winding on `pe_C`, which a two-port does not have.
* `readouts/multi_AC.py` imports `NoiseMatrixView`, which does not exist, so it cannot be imported; `homodyne_SNR` reads a missing
  `noise.noise`; the first definition of `AC_optimal_readout_deg` is replaced by the second one; `AC_PSD_by_source` of the homodyne
  readout prints.
* `matrix_generic.sparsity_graph` appends to sets; `metis_reorder` reads a wrong key; `keymatrix` index maps subscript
  methods; `keyed_linear_algebra.py` and `keymatrix_reduce.py` cannot be imported.
* `alm`: `unit_str`, `matrix_array_invert` (wrong axis), `matrix_target_to_z` of the bases, mounts call `substrate.n()` without its
  argument, `beam_shape_1D` calls `complex` on a beam.
* `yield_bits_on` does not end for negative numbers; `multi_AC.py` l.138-153; the phase of the mirror
  back-scatter; `FrequencyBase.__lt__` orders by `id`.

## Axioms

Generated by `tools/axioms.py` with `#print axioms`.

| property | theorem | axioms |
|---|---|---|
| C01 | `Keys.C01_closed` | propext Classical.choice Quot.sound |
| C01 | `Keys.C01_add_comm` | propext Classical.choice Quot.sound |
| C01 | `Keys.C01_add_assoc` | propext Classical.choice Quot.sound |
| C01 | `Keys.C01_add_sub` | propext Classical.choice Quot.sound |
| C01 | `Keys.C01_sub_eq_add_neg` | propext Classical.choice Quot.sound |
| C01 | `Keys.C01_add_DC` | propext Classical.choice Quot.sound |
| C01 | `Keys.C01_add_neg` | propext Classical.choice Quot.sound |
| C02 | `Keys.C02_frequency` | propext Classical.choice Quot.sound |
| C02 | `Keys.C02_laws` | propext Classical.choice Quot.sound |
| C03 | `Keys.C03_partial` | propext Classical.choice Quot.sound |
| C03 | `Keys.C03_refuted_eq` | propext Quot.sound |
| C03 | `Keys.C03_refuted_DC` | propext |
| C04 | `Keys.C04_frequencyKey` | propext Classical.choice Quot.sound |
| C04 | `Keys.C04_dictKey` | propext Classical.choice Quot.sound |
| C04 | `Keys.C04_eq_iff` | propext Classical.choice Quot.sound |
| C04 | `Keys.C04_dictKey_tuple_inj` | propext Classical.choice Quot.sound |
| C05 | `Keys.C05_or` | propext Quot.sound |
| C05 | `Keys.C05_and` | propext Quot.sound |
| C05 | `Keys.C05_contains` | propext Quot.sound |
| C05 | `Keys.C05_subkey_has` | none |
| C05 | `Keys.C05_order` | propext Classical.choice Quot.sound |
| C06 | `Keys.C06_sub_ok` | propext Quot.sound |
| C06 | `Keys.C06_sub_spec` | propext Classical.choice Quot.sound |
| C06 | `Keys.C06_without_keys` | propext Quot.sound |
| C06 | `Keys.C06_purge_keys` | propext Quot.sound |
| C06 | `Keys.C06_replace_keys` | propext Quot.sound |
| C07 | `Keys.C07_partial` | propext |
| C07 | `Keys.C07_refuted` | propext |
| C07 | `Keys.C07_refuted_total` | propext |
| C08 | `Queue.C08_queue` | propext Classical.choice Quot.sound |
| C08 | `Queue.C08_contents` | propext Quot.sound |
| C09 | `Queue.C09_drain_sorted` | propext Classical.choice Quot.sound |
| C10 | `Queue.C10_partial` | propext Quot.sound |
| C10 | `Queue.C10_refuted` | propext Quot.sound |
| C100 | `Ode.C100_power_partial` | propext Classical.choice Quot.sound |
| C100 | `Ode.C100_power_refuted` | propext Classical.choice Quot.sound |
| C101 | `Ode.C101_transparent_partial` | propext Classical.choice Quot.sound |
| C101 | `Ode.C101_transparent_refuted` | propext Classical.choice Quot.sound |
| C101 | `Ode.C101_modulator_refuted` | propext Classical.choice Quot.sound |
| C102 | `Ode.C102_conj_partial` | propext Classical.choice Quot.sound |
| C102 | `Ode.C102_conj_refuted` | propext Classical.choice Quot.sound |
| C103 | `Ode.C103_couples` | propext Classical.choice Quot.sound |
| C103 | `Ode.C103_power` | propext Classical.choice Quot.sound |
| C104 | `Ode.C104_diffracts` | propext Classical.choice Quot.sound |
| C105 | `Sci.C105_solution` | propext Classical.choice Quot.sound |
| C105 | `Sci.C105_inverse` | propext Classical.choice Quot.sound |
| C105 | `Sci.C105_transfer` | propext Classical.choice Quot.sound |
| C105 | `Sci.C105_transfer_inverse` | propext Classical.choice Quot.sound |
| C105 | `Sci.C105_linear` | propext Classical.choice Quot.sound |
| C105 | `Sci.C105_linear_transfer` | propext Classical.choice Quot.sound |
| C105 | `Sci.C105_returns` | propext Classical.choice Quot.sound |
| C105 | `Sci.C105_linear_returns` | propext Classical.choice Quot.sound |
| C106 | `Sci.C106_agree_partial` | propext Classical.choice Quot.sound |
| C106 | `Sci.C106_isolated_node_refuted` | propext Classical.choice Quot.sound |
| C107 | `Solve.C107_stop_partial` | propext Classical.choice Quot.sound |
| C107 | `Solve.C107_linear` | propext Classical.choice Quot.sound |
| C107 | `Solve.C107_exact` | propext Classical.choice Quot.sound |
| C107 | `Solve.C107_returns` | propext Classical.choice Quot.sound |
| C107 | `Solve.C107_stop_refuted` | propext Classical.choice Quot.sound |
| C108 | `Solve.C108_history` | propext Classical.choice Quot.sound |
| C108 | `Solve.C108_order_zero_refuted` | propext |
| C109 | `Floating.C109_blocks` | propext Classical.choice Quot.sound |
| C109 | `Floating.C109_no_error` | propext Quot.sound |
| C109 | `Floating.C109_outside` | propext Quot.sound |
| C109 | `Floating.C109_add_refuted` | propext Classical.choice Quot.sound |
| C109 | `Floating.C109_add_blocks_refuted` | propext Classical.choice Quot.sound |
| C11 | `Graph.C11_elim` | propext Classical.choice Quot.sound |
| C110 | `Floating.C110_analysis` | propext Classical.choice Quot.sound |
| C110 | `Floating.C110_purge` | propext Classical.choice Quot.sound |
| C110 | `Floating.C110_returns` | propext Classical.choice Quot.sound |
| C111 | `Floating.C111_converged` | propext Classical.choice Quot.sound |
| C112 | `Floating.C112_integrated` | propext Classical.choice Quot.sound |
| C112 | `Floating.C112_declared` | propext Classical.choice Quot.sound |
| C113 | `Sre.C113_no_error` | propext Classical.choice Quot.sound |
| C113 | `Sre.C113_gram_partial` | propext Classical.choice Quot.sound |
| C113 | `Sre.C113_unitary_partial` | propext Classical.choice Quot.sound |
| C113 | `Sre.C113_small_refuted` | propext Classical.choice Quot.sound |
| C113 | `Sre.C113_norm_refuted` | propext Classical.choice Quot.sound |
| C114 | `Optics.C114_variances_partial` | propext Classical.choice Quot.sound |
| C114 | `Optics.C114_pure_partial` | propext Classical.choice Quot.sound |
| C114 | `Optics.C114_loss_refuted` | propext Classical.choice Quot.sound |
| C114 | `Optics.C114_gain_refuted` | propext Classical.choice Quot.sound |
| C114 | `Optics.C114_attribute_refuted` | propext Classical.choice Quot.sound |
| C114 | `Optics.C114_vacuum_refuted` | propext Classical.choice Quot.sound |
| C114 | `Optics.C114_order_refuted` | propext Classical.choice Quot.sound |
| C114 | `Optics.C114_recorded_refuted` | propext Classical.choice Quot.sound |
| C115 | `Optics.C115_fields` | propext Classical.choice Quot.sound |
| C115 | `Optics.C115_quadratures` | propext Classical.choice Quot.sound |
| C115 | `Optics.C115_commutators_partial` | propext Classical.choice Quot.sound |
| C115 | `Optics.C115_variances_partial` | propext Classical.choice Quot.sound |
| C115 | `Optics.C115_other_refuted` | propext Classical.choice Quot.sound |
| C115 | `Optics.C115_loss_refuted` | propext Classical.choice Quot.sound |
| C115 | `Optics.C115_amplitude_refuted` | propext Classical.choice Quot.sound |
| C116 | `Alm.Comp.C116_path` | propext Classical.choice Quot.sound |
| C116 | `Alm.Comp.C116_compose_partial` | propext Classical.choice Quot.sound |
| C116 | `Alm.Comp.C116_target_partial` | propext Classical.choice Quot.sound |
| C116 | `Alm.Comp.C116_lens_refuted` | propext Classical.choice Quot.sound |
| C116 | `Alm.Comp.C116_outside` | propext Classical.choice Quot.sound |
| C117 | `Alm.Meas.C117_overlap` | propext Classical.choice Quot.sound |
| C117 | `Alm.Meas.C117_anywhere` | propext Classical.choice Quot.sound |
| C117 | `Alm.Meas.C117_symmetric_partial` | propext Classical.choice Quot.sound |
| C117 | `Alm.Meas.C117_targets` | propext Classical.choice Quot.sound |
| C117 | `Alm.Meas.C117_default` | propext Classical.choice Quot.sound |
| C117 | `Alm.Meas.C117_seq` | propext Classical.choice Quot.sound |
| C117 | `Alm.Meas.C117_list_partial` | propext Classical.choice Quot.sound |
| C117 | `Alm.Meas.C117_surface_refuted` | propext Classical.choice Quot.sound |
| C118 | `Alm.Meas.C118_source` | propext Classical.choice Quot.sound |
| C118 | `Alm.Meas.C118_beam` | propext Classical.choice Quot.sound |
| C118 | `Alm.Meas.C118_unit` | propext Classical.choice Quot.sound |
| C118 | `Alm.Meas.C118_add` | propext Classical.choice Quot.sound |
| C118 | `Alm.Meas.C118_space` | propext Classical.choice Quot.sound |
| C118 | `Alm.Meas.C118_ends` | propext Classical.choice Quot.sound |
| C118 | `Alm.Meas.C118_default` | propext Classical.choice Quot.sound |
| C119 | `Lgd.C119_integers` | propext Classical.choice Quot.sound |
| C119 | `Lgd.C119_shape` | propext Classical.choice Quot.sound |
| C119 | `Lgd.C119_monotone` | propext Classical.choice Quot.sound |
| C119 | `Lgd.C119_none` | propext Classical.choice Quot.sound |
| C12 | `Graph.C12_solution` | propext Classical.choice Quot.sound |
| C12 | `Graph.C12_inverse` | propext Classical.choice Quot.sound |
| C12 | `Graph.C12_only_failure` | propext Classical.choice Quot.sound |
| C12 | `Graph.C12_undriven_loop` | propext Classical.choice Quot.sound |
| C12 | `Graph.C12_dead_end_fails` | propext Classical.choice Quot.sound |
| C120 | `Lgd.C120_response` | propext Classical.choice Quot.sound |
| C120 | `Lgd.C120_refused` | propext Classical.choice Quot.sound |
| C120 | `Lgd.C120_gain` | propext Classical.choice Quot.sound |
| C121 | `Lgd.C121_steepest` | propext Classical.choice Quot.sound |
| C122 | `Npu.C122_sections_partial` | propext Classical.choice Quot.sound |
| C122 | `Npu.C122_refuted` | propext Classical.choice Quot.sound |
| C122 | `Npu.C122_antisections` | propext Classical.choice Quot.sound |
| C122 | `Npu.C122_complement` | propext Classical.choice Quot.sound |
| C123 | `Npu.C123_continuous_partial` | propext Classical.choice Quot.sound |
| C123 | `Npu.C123_continuous_refuted` | propext Classical.choice Quot.sound |
| C123 | `Npu.C123_signed` | propext Classical.choice Quot.sound |
| C123 | `Npu.C123_signed_unique` | propext Classical.choice Quot.sound |
| C123 | `Npu.C123_delay` | propext Classical.choice Quot.sound |
| C123 | `Npu.C123_pure_delay` | propext Classical.choice Quot.sound |
| C123 | `Npu.C123_single_refuted` | propext Classical.choice Quot.sound |
| C124 | `Npu.C124_first_partial` | propext Classical.choice Quot.sound |
| C124 | `Npu.C124_first_refuted` | propext Classical.choice Quot.sound |
| C125 | `Npu.C125_sort` | propext Classical.choice Quot.sound |
| C125 | `Npu.C125_interval` | propext Classical.choice Quot.sound |
| C126 | `Unt.C126_add_partial` | propext Classical.choice Quot.sound |
| C126 | `Unt.C126_sub` | propext Classical.choice Quot.sound |
| C126 | `Unt.C126_kinds` | propext Quot.sound |
| C126 | `Unt.C126_units` | propext Classical.choice Quot.sound |
| C126 | `Unt.C126_scale` | propext Quot.sound |
| C126 | `Unt.C126_refuted` | propext Classical.choice Quot.sound |
| C126 | `Unt.C126_unitless_refuted` | propext Quot.sound |
| C127 | `Unt.C127_read` | propext Classical.choice Quot.sound |
| C127 | `Unt.C127_ratio` | propext Classical.choice Quot.sound |
| C127 | `Unt.C127_kinds` | propext Quot.sound |
| C128 | `Unt.C128_given_partial` | propext Classical.choice Quot.sound |
| C128 | `Unt.C128_missing` | propext Classical.choice Quot.sound |
| C128 | `Unt.C128_once` | propext Quot.sound |
| C128 | `Unt.C128_override` | propext Quot.sound |
| C128 | `Unt.C128_prototype` | propext Classical.choice Quot.sound |
| C128 | `Unt.C128_quantity_refuted` | propext Quot.sound |
| C128 | `Unt.C128_units_refuted` | propext Classical.choice Quot.sound |
| C128 | `Unt.C128_reference_refuted` | propext Classical.choice Quot.sound |
| C129 | `Unt.C129_key` | propext |
| C129 | `Unt.C129_initial` | propext Classical.choice Quot.sound |
| C129 | `Unt.C129_inject` | propext Classical.choice Quot.sound |
| C129 | `Unt.C129_reinject` | propext Classical.choice Quot.sound |
| C129 | `Unt.C129_unchanged` | propext Classical.choice Quot.sound |
| C129 | `Unt.C129_two` | propext Classical.choice Quot.sound |
| C129 | `Unt.C129_plain_partial` | propext Classical.choice Quot.sound |
| C129 | `Unt.C129_plain_inject` | propext Quot.sound |
| C129 | `Unt.C129_again_refuted` | propext Classical.choice Quot.sound |
| C13 | `Graph.C13_transfer` | propext Classical.choice Quot.sound |
| C13 | `Graph.C13_inverse` | propext Classical.choice Quot.sound |
| C130 | `Unt.C130_check_partial` | propext Quot.sound |
| C130 | `Unt.C130_unique_refuted` | propext |
| C130 | `Unt.C130_lost` | propext Classical.choice Quot.sound |
| C130 | `Unt.C130_plane_partial` | propext Classical.choice Quot.sound |
| C130 | `Unt.C130_plane_refuted` | propext Classical.choice Quot.sound |
| C131 | `Circuit.C131_law_partial` | propext Classical.choice Quot.sound |
| C131 | `Circuit.C131_reciprocal` | propext Classical.choice Quot.sound |
| C131 | `Circuit.C131_refuted` | propext Classical.choice Quot.sound |
| C132 | `Optics.C132_scatter` | propext Classical.choice Quot.sound |
| C132 | `Optics.C132_ideal_partial` | propext Classical.choice Quot.sound |
| C132 | `Optics.C132_loss_refuted` | propext Classical.choice Quot.sound |
| C133 | `Optics.C133_partial` | propext Classical.choice Quot.sound |
| C133 | `Optics.C133_refuted` | propext Classical.choice Quot.sound |
| C133 | `Optics.C133_pol_refuted` | propext Quot.sound |
| C134 | `Signal.C134_filter_partial` | propext Quot.sound |
| C134 | `Signal.C134_keys_partial` | propext Quot.sound |
| C134 | `Signal.C134_amplifier_partial` | propext Quot.sound |
| C134 | `Signal.C134_names_refuted` | propext Quot.sound |
| C134 | `Signal.C134_max_refuted` | propext |
| C135 | `Optics.C135_shift` | propext Classical.choice Quot.sound |
| C135 | `Optics.C135_power_partial` | propext Classical.choice Quot.sound |
| C135 | `Optics.C135_back` | propext Classical.choice Quot.sound |
| C135 | `Optics.C135_conjugate` | propext Classical.choice Quot.sound |
| C135 | `Optics.C135_idle_refuted` | propext Quot.sound |
| C136 | `Optics.C136_signal` | propext Classical.choice Quot.sound |
| C136 | `Optics.C136_common` | propext Classical.choice Quot.sound |
| C136 | `Optics.C136_through` | propext Classical.choice Quot.sound |
| C136 | `Optics.C136_ok` | propext Quot.sound |
| C136 | `Optics.C136_outputs` | propext Classical.choice Quot.sound |
| C136 | `Optics.C136_sidebands` | propext Classical.choice Quot.sound |
| C136 | `Optics.C136_wave_partial` | propext Classical.choice Quot.sound |
| C136 | `Optics.C136_real` | propext Classical.choice Quot.sound |
| C136 | `Optics.C136_power` | propext Classical.choice Quot.sound |
| C136 | `Optics.C136_quanta` | propext Classical.choice Quot.sound |
| C136 | `Optics.C136_matched` | propext Classical.choice Quot.sound |
| C136 | `Optics.C136_phase` | propext Classical.choice Quot.sound |
| C136 | `Optics.C136_rotate` | propext Classical.choice Quot.sound |
| C136 | `Optics.C136_half_refuted` | propext Classical.choice Quot.sound |
| C137 | `Alm.QFit.C137_units` | propext Classical.choice Quot.sound |
| C137 | `Alm.QFit.C137_curve` | propext Classical.choice Quot.sound |
| C137 | `Alm.QFit.C137_waist` | propext Classical.choice Quot.sound |
| C137 | `Alm.QFit.C137_unique` | propext Classical.choice Quot.sound |
| C137 | `Alm.QFit.C137_two_refuted` | propext Classical.choice Quot.sound |
| C137 | `Alm.QFit.C137_recovers` | propext Classical.choice Quot.sound |
| C137 | `Alm.QFit.C137_guess` | propext Classical.choice Quot.sound |
| C137 | `Alm.QFit.C137_guess_exact` | propext Classical.choice Quot.sound |
| C137 | `Alm.QFit.C137_prefit` | propext Quot.sound |
| C137 | `Alm.C137_target` | propext Classical.choice Quot.sound |
| C137 | `Alm.C137_at` | propext Classical.choice Quot.sound |
| C138 | `Circulation.C138_normalize` | propext Classical.choice Quot.sound |
| C138 | `Circulation.C138_reflect` | propext Classical.choice Quot.sound |
| C138 | `Circulation.C138_mirror` | propext Classical.choice Quot.sound |
| C138 | `Circulation.C138_jones` | propext Classical.choice Quot.sound |
| C138 | `Circulation.C138_defect` | propext Classical.choice Quot.sound |
| C138 | `Circulation.C138_planar` | propext Classical.choice Quot.sound |
| C138 | `Circulation.C138_start` | propext Classical.choice Quot.sound |
| C138 | `Circulation.C138_ok` | propext Classical.choice Quot.sound |
| C138 | `Circulation.C138_linear_refuted` | propext Classical.choice Quot.sound |
| C138 | `Circulation.C138_moved` | propext Classical.choice Quot.sound |
| C139 | `PowerLoops.C139_mult` | propext Classical.choice Quot.sound |
| C139 | `PowerLoops.C139_mult_ok` | propext Classical.choice Quot.sound |
| C139 | `PowerLoops.C139_div` | propext Classical.choice Quot.sound |
| C139 | `PowerLoops.C139_unity` | propext Classical.choice Quot.sound |
| C139 | `PowerLoops.C139_scale` | propext Classical.choice Quot.sound |
| C139 | `PowerLoops.C139_controller_partial` | propext Classical.choice Quot.sound |
| C139 | `PowerLoops.C139_unity_gain_refuted` | propext Classical.choice Quot.sound |
| C139 | `PowerLoops.C139_sorted` | propext Classical.choice Quot.sound |
| C139 | `PowerLoops.C139_convert` | propext Classical.choice Quot.sound |
| C139 | `PowerLoops.C139_lost_refuted` | propext Classical.choice Quot.sound |
| C139 | `PowerLoops.C139_shift` | propext Classical.choice Quot.sound |
| C139 | `PowerLoops.C139_ok` | propext Classical.choice Quot.sound |
| C139 | `PowerLoops.C139_controller_ok` | propext Classical.choice Quot.sound |
| C139 | `PowerLoops.C139_boost7_refuted` | propext Classical.choice Quot.sound |
| C14 | `Graph.C14_order` | propext Classical.choice Quot.sound |
| C140 | `Circuit.C140_transformer_partial` | propext Classical.choice Quot.sound |
| C140 | `Circuit.C140_transformer_refuted` | propext Classical.choice Quot.sound |
| C140 | `Circuit.C140_open_refuted` | propext Classical.choice Quot.sound |
| C140 | `Circuit.C140_ok` | propext Classical.choice Quot.sound |
| C140 | `Circuit.C140_series_refuted` | propext Classical.choice Quot.sound |
| C140 | `Circuit.C140_noise` | propext Classical.choice Quot.sound |
| C140 | `Circuit.C140_series_noise_refuted` | propext Classical.choice Quot.sound |
| C141 | `Vendor.C141_V` | propext Classical.choice Quot.sound |
| C141 | `Vendor.C141_I` | propext Classical.choice Quot.sound |
| C141 | `Vendor.C141_corner_refuted` | propext Classical.choice Quot.sound |
| C141 | `Vendor.C141_dc_refuted` | propext Classical.choice Quot.sound |
| C141 | `Vendor.C141_gain` | propext Classical.choice Quot.sound |
| C141 | `Vendor.C141_inamp` | propext Classical.choice Quot.sound |
| C142 | `Fill.C142_targets` | propext Classical.choice Quot.sound |
| C142 | `Fill.C142_sources` | propext Classical.choice Quot.sound |
| C142 | `Fill.C142_orders` | propext Classical.choice Quot.sound |
| C142 | `Fill.C142_terminates` | propext Classical.choice Quot.sound |
| C142 | `Fill.C142_drive_refuted` | propext Classical.choice Quot.sound |
| C143 | `Fill.C143_same` | propext Classical.choice Quot.sound |
| C143 | `Fill.C143_nodes` | propext Classical.choice Quot.sound |
| C143 | `Fill.C143_orders` | propext Classical.choice Quot.sound |
| C143 | `Fill.C143_terminates` | propext Classical.choice Quot.sound |
| C143 | `Fill.C143_shifts` | propext Classical.choice Quot.sound |
| C143 | `Fill.C143_through` | propext Classical.choice Quot.sound |
| C144 | `Fill.C144_beats` | propext Classical.choice Quot.sound |
| C144 | `Fill.C144_conjugate` | propext Classical.choice Quot.sound |
| C144 | `Fill.C144_quiet` | propext Classical.choice Quot.sound |
| C144 | `Fill.C144_nodes` | propext Classical.choice Quot.sound |
| C144 | `Fill.C144_source_refuted` | propext Classical.choice Quot.sound |
| C145 | `Alm.C145_space` | propext Classical.choice Quot.sound |
| C145 | `Alm.C145_sides` | propext Classical.choice Quot.sound |
| C145 | `Alm.C145_ends_refuted` | propext Classical.choice Quot.sound |
| C145 | `Alm.Comp.C145_side` | propext Classical.choice Quot.sound |
| C145 | `Alm.C145_once` | propext Classical.choice Quot.sound |
| C145 | `Alm.C145_source_refuted` | propext Classical.choice Quot.sound |
| C146 | `Alm.C146_lengths` | propext Quot.sound |
| C146 | `Alm.C146_order` | propext Classical.choice Quot.sound |
| C146 | `Alm.C146_system` | propext Classical.choice Quot.sound |
| C146 | `Alm.C146_beam_refuted` | propext Classical.choice Quot.sound |
| C147 | `Disp.C147_first` | propext Quot.sound |
| C147 | `Disp.C147_registered` | propext Quot.sound |
| C147 | `Disp.C147_history` | propext Quot.sound |
| C147 | `Disp.C147_numbers_refuted` | propext Quot.sound |
| C147 | `Disp.C147_classes_refuted` | propext Classical.choice Quot.sound |
| C147 | `Disp.C147_conjugate` | propext |
| C147 | `Disp.C147_parts_refuted` | propext Quot.sound |
| C147 | `Disp.C147_zero` | propext Quot.sound |
| C147 | `Disp.C147_symbolic` | propext Quot.sound |
| C148 | `Circuit.C148_reading` | propext Classical.choice Quot.sound |
| C149 | `Circuit.C149_reading` | propext Classical.choice Quot.sound |
| C149 | `Circuit.C149_force_refuted` | propext Classical.choice Quot.sound |
| C149 | `Circuit.C149_clamped` | propext Classical.choice Quot.sound |
| C149 | `Circuit.C149_mass_refuted` | propext Classical.choice Quot.sound |
| C15 | `Graph.C15_purge` | propext Classical.choice Quot.sound |
| C15 | `Graph.C15_equations` | propext Classical.choice Quot.sound |
| C150 | `Alm.C150_targets` | propext Classical.choice Quot.sound |
| C150 | `Alm.C150_mount_refuted` | propext Classical.choice Quot.sound |
| C150 | `Alm.PTarget.C150_chain` | propext Classical.choice Quot.sound |
| C150 | `Alm.PTarget.C150_back` | propext Classical.choice Quot.sound |
| C151 | `Fill.C151_light` | propext Classical.choice Quot.sound |
| C151 | `Fill.C151_nodes_partial` | propext Classical.choice Quot.sound |
| C151 | `Fill.keeps_sqz` | propext Classical.choice Quot.sound |
| C151 | `Fill.C151_loss_refuted` | propext Classical.choice Quot.sound |
| C151 | `Fill.C151_targets_refuted` | propext Classical.choice Quot.sound |
| C151 | `Fill.C151_orders_refuted` | propext Classical.choice Quot.sound |
| C152 | `Fill.C152_light` | propext Classical.choice Quot.sound |
| C152 | `Fill.C152_build` | propext Classical.choice Quot.sound |
| C152 | `Fill.C152_closed` | propext Classical.choice Quot.sound |
| C152 | `Fill.keeps_crystal` | propext Classical.choice Quot.sound |
| C152 | `Fill.even_crystal` | propext Classical.choice Quot.sound |
| C152 | `Fill.C152_composite_refuted` | propext Classical.choice Quot.sound |
| C153 | `Fit.C153_nonneg` | propext Classical.choice Quot.sound |
| C153 | `Fit.C153_scale` | propext Classical.choice Quot.sound |
| C153 | `Fit.C153_subtract` | propext Classical.choice Quot.sound |
| C153 | `Fit.C153_magnitude` | propext Classical.choice Quot.sound |
| C153 | `Fit.C153_direct_partial` | propext Classical.choice Quot.sound |
| C153 | `Fit.C153_direct_refuted` | propext Classical.choice Quot.sound |
| C153 | `Fit.C153_bias_partial` | propext Classical.choice Quot.sound |
| C153 | `Fit.C153_bias_refuted` | propext Classical.choice Quot.sound |
| C153 | `Fit.C153_limit_refuted` | propext Classical.choice Quot.sound |
| C154 | `Fit.C154_mean` | propext Classical.choice Quot.sound |
| C154 | `Fit.C154_sum` | propext Classical.choice Quot.sound |
| C154 | `Fit.C154_plain` | propext Classical.choice Quot.sound |
| C154 | `Fit.C154_one` | propext Classical.choice Quot.sound |
| C154 | `Fit.C154_bounds` | propext Classical.choice Quot.sound |
| C154 | `Fit.C154_relative` | propext Classical.choice Quot.sound |
| C154 | `Fit.C154_two` | propext Classical.choice Quot.sound |
| C154 | `Fit.C154_unravel` | propext |
| C154 | `Fit.C154_pairs_refuted` | propext Classical.choice Quot.sound |
| C154 | `Fit.C154_order_refuted` | propext Classical.choice Quot.sound |
| C155 | `Fit.C155_lengths` | propext Quot.sound |
| C155 | `Fit.C155_nodup` | propext Quot.sound |
| C155 | `Fit.C155_solution` | propext Classical.choice Quot.sound |
| C155 | `Fit.C155_start` | propext Classical.choice Quot.sound |
| C155 | `Fit.C155_bounds_partial` | propext Quot.sound |
| C155 | `Fit.C155_bounds_refuted` | propext Quot.sound |
| C155 | `Fit.C155_twice_refuted` | propext Quot.sound |
| C156 | `Util.C156_phase` | propext Classical.choice Quot.sound |
| C156 | `Util.C156_degrees` | propext Classical.choice Quot.sound |
| C156 | `Util.C156_chain` | propext Classical.choice Quot.sound |
| C156 | `Util.C156_center` | propext Classical.choice Quot.sound |
| C156 | `Util.C156_total` | propext Classical.choice Quot.sound |
| C156 | `Util.C156_positive_refuted` | propext Classical.choice Quot.sound |
| C156 | `Util.C156_jump_refuted` | propext Classical.choice Quot.sound |
| C16 | `Graph.C16_color` | propext Classical.choice Quot.sound |
| C17 | `Graph.C17_ops` | propext Classical.choice Quot.sound |
| C17 | `Graph.C17_simplify` | propext Classical.choice Quot.sound |
| C18 | `Dag.C18_reduceLU` | propext Classical.choice Quot.sound |
| C18 | `Dag.C18_zero_diagonal` | propext Classical.choice Quot.sound |
| C19 | `Dag.C19_column` | propext Classical.choice Quot.sound |
| C19 | `Dag.C19_row` | propext Classical.choice Quot.sound |
| C19 | `Dag.C19_twice` | propext Classical.choice Quot.sound |
| C20 | `Dag.C20_row` | propext Classical.choice Quot.sound |
| C20 | `Dag.C20_col` | propext Classical.choice Quot.sound |
| C21 | `Dag.C21_solution` | propext Classical.choice Quot.sound |
| C21 | `Dag.C21_inverse` | propext Classical.choice Quot.sound |
| C21 | `Dag.C21_transfer` | propext Classical.choice Quot.sound |
| C21 | `Dag.C21_transfer_inverse` | propext Classical.choice Quot.sound |
| C21 | `Dag.C21_linear` | propext Classical.choice Quot.sound |
| C21 | `Dag.C21_linear_transfer` | propext Classical.choice Quot.sound |
| C22 | `Dag.C22_agree` | propext Classical.choice Quot.sound |
| C22 | `Dag.C22_isolated_node` | propext Classical.choice Quot.sound |
| C23 | `Sre.C23_product` | propext Classical.choice Quot.sound |
| C23 | `Sre.C23_finished` | propext Classical.choice Quot.sound |
| C23 | `Sre.C23_keyError` | propext Classical.choice Quot.sound |
| C24 | `Sre.C24_adjoint` | propext Quot.sound |
| C24 | `Sre.C24_twice` | propext Quot.sound |
| C24 | `Sre.C24_product` | propext Classical.choice Quot.sound |
| C25 | `KeyMat.C25_index` | propext Classical.choice Quot.sound |
| C25 | `KeyMat.C25_frozen` | propext Quot.sound |
| C25 | `KeyMat.C25_unfrozen` | propext |
| C25 | `KeyMat.C25_freeze` | propext |
| C25 | `KeyMat.C25_forever` | propext Classical.choice Quot.sound |
| C25 | `KeyMat.C25_inverse` | propext Classical.choice Quot.sound |
| C26 | `KeyMat.C26_vector_partial` | propext Classical.choice Quot.sound |
| C26 | `KeyMat.C26_matrix_partial` | propext Classical.choice Quot.sound |
| C26 | `KeyMat.C26_vector_frozen` | propext Classical.choice Quot.sound |
| C26 | `KeyMat.C26_matrix_frozen` | propext Classical.choice Quot.sound |
| C26 | `KeyMat.C26_empty` | propext Classical.choice Quot.sound |
| C26 | `KeyMat.C26_stale` | propext Quot.sound |
| C26 | `KeyMat.C26_stale_matrix` | propext Quot.sound |
| C26 | `KeyMat.C26_vector_write` | propext Quot.sound |
| C26 | `KeyMat.C26_vector_add` | propext Quot.sound |
| C26 | `KeyMat.C26_vector_delete` | propext Quot.sound |
| C26 | `KeyMat.C26_matrix_write` | propext Quot.sound |
| C26 | `KeyMat.C26_matrix_multiply` | propext Quot.sound |
| C26 | `KeyMat.C26_matrix_nullable` | propext Classical.choice Quot.sound |
| C26 | `KeyMat.C26_matrix_delete` | propext Quot.sound |
| C26 | `KeyMat.C26_matrix_fill` | propext Quot.sound |
| C26 | `KeyMat.C26_idx_dict` | propext Classical.choice Quot.sound |
| C26 | `KeyMat.C26_idx_stale` | propext |
| C27 | `KeyMat.C27_sub` | propext Classical.choice Quot.sound |
| C27 | `KeyMat.C27_sub_array` | propext Classical.choice Quot.sound |
| C27 | `KeyMat.C27_add_partial` | propext Classical.choice Quot.sound |
| C27 | `KeyMat.C27_add_fails` | propext Quot.sound |
| C27 | `KeyMat.C27_spaces` | propext Classical.choice Quot.sound |
| C27 | `KeyMat.C27_eye` | propext Quot.sound |
| C27 | `KeyMat.C27_mul` | propext Classical.choice Quot.sound |
| C27 | `KeyMat.C27_scale` | propext Quot.sound |
| C27 | `KeyMat.C27_items` | propext Quot.sound |
| C27 | `KeyMat.C27_delete` | propext Quot.sound |
| C28 | `KeyMat.C28_vector` | propext Classical.choice Quot.sound |
| C28 | `KeyMat.C28_transposed_partial` | propext Classical.choice Quot.sound |
| C28 | `KeyMat.C28_swapped` | propext Classical.choice Quot.sound |
| C28 | `KeyMat.C28_inverse` | propext Classical.choice Quot.sound |
| C28 | `KeyMat.C28_refuted` | propext |
| C28 | `KeyMat.C28_refused` | propext |
| C29 | `Tarjan.C29_order` | propext Classical.choice Quot.sound |
| C29 | `Tarjan.C29_cycle` | propext Classical.choice Quot.sound |
| C29 | `Tarjan.C29_dict` | propext Classical.choice Quot.sound |
| C29 | `Tarjan.C29_two` | none |
| C29 | `Tarjan.C29_three` | propext Quot.sound |
| C29 | `Tarjan.C29_lost` | propext Quot.sound |
| C30 | `Num.C30_bits` | propext Classical.choice Quot.sound |
| C31 | `Num.C31_stackrange` | propext Classical.choice Quot.sound |
| C31 | `Num.C31_iterables` | propext Quot.sound |
| C31 | `Num.C31_empty` | propext |
| C32 | `Cplx.C32_init` | propext Classical.choice Quot.sound |
| C32 | `Cplx.C32_add` | propext Classical.choice Quot.sound |
| C32 | `Cplx.C32_sub` | propext Classical.choice Quot.sound |
| C32 | `Cplx.C32_mul` | propext Classical.choice Quot.sound |
| C32 | `Cplx.C32_div` | propext Classical.choice Quot.sound |
| C32 | `Cplx.C32_unary` | propext Classical.choice Quot.sound |
| C32 | `Cplx.C32_eq` | propext Classical.choice Quot.sound |
| C32 | `Cplx.C32_eq_bare` | propext Classical.choice Quot.sound |
| C32 | `Cplx.C32_hash` | propext Classical.choice Quot.sound |
| C32 | `Cplx.C32_exp` | propext Classical.choice Quot.sound |
| C32 | `Cplx.C32_angle` | propext Classical.choice Quot.sound |
| C32 | `Cplx.C32_angle_zero` | propext Classical.choice Quot.sound |
| C33 | `Cplx.C33_odd_partial` | propext Classical.choice Quot.sound |
| C33 | `Cplx.C33_half` | propext Classical.choice Quot.sound |
| C33 | `Cplx.C33_even` | propext Classical.choice Quot.sound |
| C33 | `Cplx.C33_zero` | propext Classical.choice Quot.sound |
| C33 | `Cplx.C33_negative` | propext Classical.choice Quot.sound |
| C33 | `Cplx.C33_refuted` | propext Classical.choice Quot.sound |
| C33 | `Cplx.C33_other` | propext Classical.choice Quot.sound |
| C34 | `Alm.Beam.C34_compose` | propext Classical.choice Quot.sound |
| C34 | `Alm.Beam.C34_identity` | propext Classical.choice Quot.sound |
| C34 | `Alm.Beam.C34_distance` | propext Classical.choice Quot.sound |
| C34 | `Alm.Beam.C34_gouy` | propext Classical.choice Quot.sound |
| C35 | `Alm.Beam.C35_Z_ZR` | propext Classical.choice Quot.sound |
| C35 | `Alm.Beam.C35_Z_W0` | propext Classical.choice Quot.sound |
| C35 | `Alm.Beam.C35_dRad_Z` | propext Classical.choice Quot.sound |
| C35 | `Alm.Beam.C35_W_R_partial` | propext Classical.choice Quot.sound |
| C35 | `Alm.Beam.C35_W_R_flat` | propext Classical.choice Quot.sound |
| C35 | `Alm.Beam.C35_accessors` | propext Classical.choice Quot.sound |
| C35 | `Alm.Beam.C35_roundtrip` | propext Classical.choice Quot.sound |
| C35 | `Alm.Beam.C35_physical` | propext Classical.choice Quot.sound |
| C36 | `Alm.Beam.C36_eigenmode` | propext Classical.choice Quot.sound |
| C36 | `Alm.Beam.C36_unstable` | propext Classical.choice Quot.sound |
| C37 | `Alm.Beam.C37_self` | propext Classical.choice Quot.sound |
| C37 | `Alm.Beam.C37_overlap` | propext Classical.choice Quot.sound |
| C37 | `Alm.Beam.C37_integral` | propext Classical.choice Quot.sound |
| C37 | `Alm.Beam.C37_wavelengths` | propext Classical.choice Quot.sound |
| C38 | `Alm.Comp.C38_path` | propext Classical.choice Quot.sound |
| C38 | `Alm.Comp.C38_compose_partial` | propext Classical.choice Quot.sound |
| C38 | `Alm.Comp.C38_identity` | propext Classical.choice Quot.sound |
| C38 | `Alm.Comp.C38_memo` | propext Quot.sound |
| C38 | `Alm.Comp.C38_empty_refuted` | propext Classical.choice Quot.sound |
| C38 | `Alm.Comp.C38_no_focal_refuted` | propext Classical.choice Quot.sound |
| C38 | `Alm.Comp.C38_mount_refuted` | propext Classical.choice Quot.sound |
| C39 | `Alm.C39_width` | propext Quot.sound |
| C39 | `Alm.C39_stack` | propext Quot.sound |
| C39 | `Alm.C39_tiles` | propext Classical.choice Quot.sound |
| C39 | `Alm.C39_located` | propext Classical.choice Quot.sound |
| C39 | `Alm.C39_reversed` | propext Classical.choice Quot.sound |
| C39 | `Alm.C39_target_pos` | propext Classical.choice Quot.sound |
| C39 | `Alm.C39_exists` | propext Quot.sound |
| C39 | `Alm.C39_ties` | propext Quot.sound |
| C39 | `Alm.C39_empty_refuted` | propext Classical.choice Quot.sound |
| C39 | `Alm.C39_flush_refuted` | propext Classical.choice Quot.sound |
| C40 | `Ports.C40_no_error` | propext Classical.choice Quot.sound |
| C40 | `Ports.C40_least_partial` | propext Classical.choice Quot.sound |
| C40 | `Ports.C40_order_partial` | propext Classical.choice Quot.sound |
| C40 | `Ports.C40_terminates` | propext Classical.choice Quot.sound |
| C40 | `Ports.C40_symmetric_update` | propext Classical.choice Quot.sound |
| C40 | `Ports.C40_symmetric_update_same` | propext Classical.choice Quot.sound |
| C40 | `Ports.C40_list_refuted` | propext Classical.choice Quot.sound |
| C40 | `Ports.C40_virtual_refuted` | propext Classical.choice Quot.sound |
| C40 | `Ports.C40_mute_refuted` | propext Classical.choice Quot.sound |
| C40 | `Ports.C40_subset_refuted` | propext Classical.choice Quot.sound |
| C41 | `Inject.C41_fixed_point_term` | propext Classical.choice Quot.sound |
| C41 | `Inject.C41_fixed_point` | propext Classical.choice Quot.sound |
| C41 | `Inject.C41_expansion_partial` | propext Quot.sound |
| C41 | `Inject.C41_expansion_other` | propext Quot.sound |
| C41 | `Inject.C41_norms_expansion_partial` | propext Classical.choice Quot.sound |
| C41 | `Inject.C41_same_port` | propext Quot.sound |
| C41 | `Inject.C41_same_port_refuted` | propext Classical.choice Quot.sound |
| C41 | `Inject.C41_second_order` | propext Classical.choice Quot.sound |
| C41 | `Inject.C41_norm_shift_refuted` | propext Classical.choice Quot.sound |
| C41 | `Inject.C41_norm_expansion_refuted` | propext Classical.choice Quot.sound |
| C42 | `Circuit.C42_element` | propext Classical.choice Quot.sound |
| C42 | `Circuit.C42_connection_power` | propext Classical.choice Quot.sound |
| C42 | `Circuit.C42_current_balanced_refuted` | propext Classical.choice Quot.sound |
| C42 | `Circuit.C42_vamp` | propext Classical.choice Quot.sound |
| C42 | `Circuit.C42_vamp_ideal` | propext Classical.choice Quot.sound |
| C43 | `Circuit.C43_refuted` | propext Classical.choice Quot.sound |
| C43 | `Circuit.C43_partial` | propext Classical.choice Quot.sound |
| C43 | `Circuit.C43_realised_partial` | propext Classical.choice Quot.sound |
| C43 | `Circuit.C43_uncoupled_wires` | propext Classical.choice Quot.sound |
| C43 | `Circuit.C43_asymmetric_refuted` | propext Classical.choice Quot.sound |
| C44 | `Signal.C44_equations` | propext Classical.choice Quot.sound |
| C44 | `Signal.C44_transfer` | propext Classical.choice Quot.sound |
| C44 | `Signal.C44_partial` | propext Classical.choice Quot.sound |
| C44 | `Signal.C44_no_error` | propext Quot.sound |
| C44 | `Signal.C44_index_error` | propext Quot.sound |
| C44 | `Signal.C44_refuted` | propext Classical.choice Quot.sound |
| C45 | `Signal.C45_conjugate` | propext Classical.choice Quot.sound |
| C45 | `Signal.C45_value` | propext Classical.choice Quot.sound |
| C45 | `Signal.C45_roots` | propext Classical.choice Quot.sound |
| C45 | `Signal.C45_dc` | propext Classical.choice Quot.sound |
| C45 | `Signal.C45_cascade` | propext Classical.choice Quot.sound |
| C46 | `Alm.Beam.C46_sqrt` | propext Classical.choice Quot.sound |
| C47 | `Alm.Beam.C47_reversed` | propext Classical.choice Quot.sound |
| C47 | `Alm.Beam.C47_return` | propext Classical.choice Quot.sound |
| C48 | `Alm.C48_focus` | propext Classical.choice Quot.sound |
| C48 | `Alm.C48_telescope` | propext Classical.choice Quot.sound |
| C49 | `Alm.C49_elements` | propext Classical.choice Quot.sound |
| C49 | `Alm.C49_retrace_partial` | propext Classical.choice Quot.sound |
| C49 | `Alm.C49_abcd_refuted` | propext Classical.choice Quot.sound |
| C49 | `Alm.C49_edge_refuted` | propext Classical.choice Quot.sound |
| C50 | `Alm.C50_CXCX_partial` | propext Classical.choice Quot.sound |
| C50 | `Alm.C50_PLCX_partial` | propext Classical.choice Quot.sound |
| C50 | `Alm.C50_PLCXMirror` | propext Classical.choice Quot.sound |
| C50 | `Alm.C50_plate_refuted` | propext Classical.choice Quot.sound |
| C50 | `Alm.C50_lensmaker_refuted` | propext Classical.choice Quot.sound |
| C51 | `Inject.C51_edge_matrix` | propext Classical.choice Quot.sound |
| C51 | `Inject.C51_no_error` | propext Classical.choice Quot.sound |
| C51 | `Inject.C51_source_vector` | propext Quot.sound |
| C52 | `Inject.C52_sparsity` | propext Classical.choice Quot.sound |
| C52 | `Inject.C52_order_independent` | propext Classical.choice Quot.sound |
| C52 | `Inject.C52_terminates` | propext Classical.choice Quot.sound |
| C52 | `Inject.C52_order_refuted` | propext |
| C53 | `Inject.C53_converged` | propext Classical.choice Quot.sound |
| C54 | `Inject.C54_bonds` | propext Classical.choice Quot.sound |
| C54 | `Inject.C54_path` | propext Classical.choice Quot.sound |
| C54 | `Inject.C54_terminates` | propext Quot.sound |
| C54 | `Inject.C54_cycle` | propext |
| C55 | `Circuit.C55_circuit` | propext Classical.choice Quot.sound |
| C55 | `Circuit.C55_voltage_readout` | propext Classical.choice Quot.sound |
| C55 | `Circuit.C55_current_readout` | propext Classical.choice Quot.sound |
| C55 | `Circuit.C55_current_readout_refuted` | propext Classical.choice Quot.sound |
| C56 | `Circuit.C56_solution` | propext Classical.choice Quot.sound |
| C56 | `Circuit.C56_circuit` | propext Classical.choice Quot.sound |
| C56 | `Circuit.C56_completes` | propext Classical.choice Quot.sound |
| C56 | `Circuit.C56_cycle_refuted` | propext Classical.choice Quot.sound |
| C57 | `Signal.C57_conjugate` | propext Classical.choice Quot.sound |
| C57 | `Signal.C57_gain` | propext Classical.choice Quot.sound |
| C58 | `Signal.C58_resonance` | propext Classical.choice Quot.sound |
| C58 | `Signal.C58_integrator_refuted` | propext Classical.choice Quot.sound |
| C58 | `Signal.C58_integrator_partial` | propext Classical.choice Quot.sound |
| C59 | `Signal.C59_element` | propext Classical.choice Quot.sound |
| C59 | `Signal.C59_real` | propext Classical.choice Quot.sound |
| C59 | `Signal.C59_rational` | propext Classical.choice Quot.sound |
| C60 | `Keys.C60_classical` | propext Quot.sound |
| C60 | `Keys.C60_negation` | propext Quot.sound |
| C60 | `Keys.C60_extract` | propext Quot.sound |
| C60 | `Keys.C60_finite` | propext Classical.choice Quot.sound |
| C60 | `Keys.C60_optical` | propext Quot.sound |
| C60 | `Keys.C60_optical_refuted` | none |
| C61 | `Signal.C61_truncated` | propext Classical.choice Quot.sound |
| C61 | `Signal.C61_partial` | propext Classical.choice Quot.sound |
| C61 | `Signal.C61_modulator_partial` | propext Classical.choice Quot.sound |
| C61 | `Signal.C61_refuted` | propext Classical.choice Quot.sound |
| C61 | `Signal.C61_modulator_refuted` | propext Classical.choice Quot.sound |
| C62 | `Signal.C62_mean_square` | propext Classical.choice Quot.sound |
| C62 | `Signal.C62_power` | propext Classical.choice Quot.sound |
| C63 | `Signal.C63_band` | propext Quot.sound |
| C63 | `Signal.C63_ok` | propext Quot.sound |
| C63 | `Signal.C63_symmetric` | propext Quot.sound |
| C63 | `Signal.C63_test_max_partial` | propext Quot.sound |
| C63 | `Signal.C63_test_max_refuted` | none |
| C64 | `Optics.C64_element` | propext Classical.choice Quot.sound |
| C64 | `Optics.C64_real` | propext Classical.choice Quot.sound |
| C65 | `Optics.C65_coefficient` | propext Classical.choice Quot.sound |
| C65 | `Optics.C65_power` | propext Classical.choice Quot.sound |
| C65 | `Optics.C65_real` | propext Classical.choice Quot.sound |
| C65 | `Optics.C65_magic` | propext Classical.choice Quot.sound |
| C66 | `Optics.C66_phase` | propext Classical.choice Quot.sound |
| C66 | `Optics.C66_amplitude` | propext Classical.choice Quot.sound |
| C66 | `Optics.C66_both` | propext Classical.choice Quot.sound |
| C67 | `Optics.Mirror.C67_scatter` | propext Classical.choice Quot.sound |
| C67 | `Optics.Mirror.C67_normal` | propext Classical.choice Quot.sound |
| C67 | `Optics.Mirror.C67_energy_partial` | propext Classical.choice Quot.sound |
| C67 | `Optics.Mirror.C67_normal_energy_partial` | propext Classical.choice Quot.sound |
| C67 | `Optics.Mirror.C67_vacuum_partial` | propext Classical.choice Quot.sound |
| C67 | `Optics.Mirror.C67_phase_refuted` | propext Classical.choice Quot.sound |
| C67 | `Optics.Mirror.C67_backscatter_refuted` | propext Classical.choice Quot.sound |
| C68 | `Optics.Mirror.C68_partial` | propext Classical.choice Quot.sound |
| C68 | `Optics.Mirror.C68_no_effect` | propext Quot.sound |
| C68 | `Optics.Mirror.C68_refuted` | propext Classical.choice Quot.sound |
| C69 | `Optics.Mirror.C69_motion` | propext Classical.choice Quot.sound |
| C69 | `Optics.Mirror.C69_refuted` | propext Classical.choice Quot.sound |
| C70 | `Optics.Mirror.C70_force` | propext Classical.choice Quot.sound |
| C70 | `Optics.Mirror.C70_partial` | propext Classical.choice Quot.sound |
| C70 | `Optics.Mirror.C70_refuted` | propext Classical.choice Quot.sound |
| C71 | `Optics.C71_delay` | propext Classical.choice Quot.sound |
| C71 | `Optics.C71_power` | propext Classical.choice Quot.sound |
| C71 | `Optics.C71_series` | propext Classical.choice Quot.sound |
| C72 | `Optics.C72_power` | propext Classical.choice Quot.sound |
| C73 | `Optics.C73_turn` | propext Classical.choice Quot.sound |
| C73 | `Optics.C73_return` | propext Classical.choice Quot.sound |
| C73 | `Optics.C73_power` | propext Classical.choice Quot.sound |
| C74 | `Optics.Mount.C74_half` | propext Classical.choice Quot.sound |
| C74 | `Optics.Mount.C74_half_twice` | propext Classical.choice Quot.sound |
| C74 | `Optics.Mount.C74_quarter_twice` | propext Classical.choice Quot.sound |
| C74 | `Optics.Mount.C74_power` | propext Classical.choice Quot.sound |
| C75 | `Optics.C75_select` | propext Classical.choice Quot.sound |
| C75 | `Optics.C75_error` | propext Quot.sound |
| C75 | `Optics.C75_pol_partial` | propext Classical.choice Quot.sound |
| C75 | `Optics.C75_pol_refuted` | propext Quot.sound |
| C75 | `Optics.C75_pol_return_refuted` | propext Classical.choice Quot.sound |
| C75 | `Optics.C75_stack_refuted` | propext |
| C76 | `Optics.C76_next` | propext Classical.choice Quot.sound |
| C76 | `Optics.C76_power` | propext Classical.choice Quot.sound |
| C77 | `Noise.C77_noise_map` | propext Quot.sound |
| C77 | `Noise.C77_csd` | propext Classical.choice Quot.sound |
| C77 | `Noise.C77_by_source` | propext Classical.choice Quot.sound |
| C77 | `Noise.C77_correlation` | propext Classical.choice Quot.sound |
| C77 | `Noise.C77_readout` | propext Classical.choice Quot.sound |
| C78 | `Noise.C78_positive` | propext Classical.choice Quot.sound |
| C79 | `Circuit.C79_reciprocity` | propext Classical.choice Quot.sound |
| C79 | `Circuit.C79_response` | propext Classical.choice Quot.sound |
| C80 | `Noise.C80_nyquist` | propext Classical.choice Quot.sound |
| C80 | `Noise.C80_nyquist_real` | propext Classical.choice Quot.sound |
| C81 | `Readout.C81_sensitivity` | propext Classical.choice Quot.sound |
| C81 | `Readout.C81_open_loop` | propext Classical.choice Quot.sound |
| C81 | `Readout.C81_loop_gain` | propext Classical.choice Quot.sound |
| C81 | `Readout.C81_plant` | propext Classical.choice Quot.sound |
| C82 | `Readout.C82_rotated` | propext Classical.choice Quot.sound |
| C82 | `Readout.C82_sensitivity` | propext Classical.choice Quot.sound |
| C82 | `Readout.C82_turn` | propext Classical.choice Quot.sound |
| C82 | `Readout.C82_by_source` | propext Classical.choice Quot.sound |
| C83 | `Readout.C83_angle` | propext Classical.choice Quot.sound |
| C83 | `Readout.C83_axes` | propext Classical.choice Quot.sound |
| C83 | `Readout.C83_conditional` | propext Classical.choice Quot.sound |
| C84 | `Readout.C84_bound` | propext Classical.choice Quot.sound |
| C84 | `Readout.C84_attained` | propext Classical.choice Quot.sound |
| C84 | `Readout.C84_readout_partial` | propext Classical.choice Quot.sound |
| C84 | `Readout.C84_readout_refuted` | propext Classical.choice Quot.sound |
| C85 | `Shot.C85_response` | propext Classical.choice Quot.sound |
| C85 | `Shot.C85_only` | propext Classical.choice Quot.sound |
| C85 | `Shot.C85_first_order` | propext Classical.choice Quot.sound |
| C86 | `Shot.C86_wire` | propext Classical.choice Quot.sound |
| C86 | `Shot.C86_space` | propext Classical.choice Quot.sound |
| C86 | `Shot.C86_wave_plate` | propext Classical.choice Quot.sound |
| C86 | `Shot.C86_rotator` | propext Classical.choice Quot.sound |
| C86 | `Shot.C86_circulator` | propext Classical.choice Quot.sound |
| C86 | `Shot.C86_mirror` | propext Classical.choice Quot.sound |
| C86 | `Shot.C86_normal_mirror` | propext Classical.choice Quot.sound |
| C86 | `Shot.C86_shot_noise` | propext Classical.choice Quot.sound |
| C86 | `Shot.C86_dc` | propext Classical.choice Quot.sound |
| C87 | `Inject.C87_response` | propext Classical.choice Quot.sound |
| C88 | `Inject.C88_derivative_partial` | propext Classical.choice Quot.sound |
| C88 | `Inject.C88_square_refuted` | propext Classical.choice Quot.sound |
| C88 | `Shot.C88_photodiode` | propext Classical.choice Quot.sound |
| C88 | `Shot.C88_photodiode_refuted` | propext Classical.choice Quot.sound |
| C89 | `Circuit.C89_element` | propext Classical.choice Quot.sound |
| C90 | `Circuit.C90_lever` | propext Classical.choice Quot.sound |
| C90 | `Circuit.C90_moment_driver_refuted` | propext Classical.choice Quot.sound |
| C91 | `Noise.C91_string` | propext Classical.choice Quot.sound |
| C91 | `Noise.C91_stiffness` | propext Classical.choice Quot.sound |
| C91 | `Noise.C91_refuted` | propext Classical.choice Quot.sound |
| C92 | `Noise.C92_noise` | propext Classical.choice Quot.sound |
| C92 | `Noise.C92_excess` | propext Classical.choice Quot.sound |
| C92 | `Noise.C92_fluctuation_dissipation` | propext Classical.choice Quot.sound |
| C92 | `Noise.C92_loss_angle_refuted` | propext Classical.choice Quot.sound |
| C93 | `Fill.C93_optical` | propext Classical.choice Quot.sound |
| C93 | `Fill.C93_signal` | propext Classical.choice Quot.sound |
| C93 | `Fill.C93_linear` | propext Classical.choice Quot.sound |
| C93 | `Fill.C93_inserts` | propext Classical.choice Quot.sound |
| C93 | `Fill.C93_beats` | propext Classical.choice Quot.sound |
| C93 | `Fill.C93_sidebands` | propext Classical.choice Quot.sound |
| C93 | `Fill.C93_kinds` | propext Classical.choice Quot.sound |
| C94 | `Fill.C94_conjugate_partial` | propext Classical.choice Quot.sound |
| C94 | `Fill.C94_shown_partial` | propext Classical.choice Quot.sound |
| C94 | `Fill.C94_setup_partial` | propext Classical.choice Quot.sound |
| C94 | `Fill.C94_harmonic_refuted` | propext Classical.choice Quot.sound |
| C95 | `Fill.C95_no_error` | propext Classical.choice Quot.sound |
| C95 | `Fill.C95_orders` | propext Classical.choice Quot.sound |
| C95 | `Fill.C95_terminates` | propext Classical.choice Quot.sound |
| C95 | `Fill.C95_limits` | propext Classical.choice Quot.sound |
| C95 | `Fill.C95_no_error_refuted` | propext Classical.choice Quot.sound |
| C96 | `Fill.C96_exact_partial` | propext Classical.choice Quot.sound |
| C96 | `Fill.C96_order_partial` | propext Classical.choice Quot.sound |
| C96 | `Fill.C96_harmonic_refuted` | propext Classical.choice Quot.sound |
| C96 | `Fill.C96_drive_refuted` | propext Classical.choice Quot.sound |
| C97 | `Ode.C97_linearises` | propext Classical.choice Quot.sound |
| C97 | `Ode.C97_again` | propext Classical.choice Quot.sound |
| C98 | `Ode.C98_limit` | propext Classical.choice Quot.sound |
| C99 | `Ode.C99_couples` | propext Classical.choice Quot.sound |
| C99 | `Ode.C99_composite_stops` | propext Classical.choice Quot.sound |
