# Formal model of Schoyen/quantum-systems in Lean 4: design

## 1. What the model is

The model is a shallow embedding, function by function, of the Python sources in
`/repo/quantum_systems`. Every definition carries a comment citing file and lines.

* **Scalars.** `PyScalar K`: a field with involution (`star`), an imaginary unit,
  characteristic 0, and a Boolean test `small` for `abs(x) < 1e-12`. Instances:
  `ℂ` (the intended one) and Gaussian rationals `GaussQ` (computable; used to run
  the model inside the kernel for the non-vacuity examples). Arithmetic is exact:
  **floating-point rounding and overflow are not modelled**, except for
  error bounds of the contractions and energies (C110) and of the elements of the two-dimensional (C126) and one-dimensional dots (C130, C131), the index functions in machine arithmetic (C111) and
  the oscillator normalisations with overflow (C124). Theorems about integrals
  and special functions are over `ℝ` and `ℂ`.
* **Arrays.** `NDArray K`: dtype tag (int/float/complex), shape (list of axis lengths) and
  entries (indexed by lists of naturals, 0 outside the shape, so equality of arrays
  is equality of dtype, shape and in-range entries). NumPy primitives used by the code
  (`dot`, `tensordot`, `transpose`, `conj`, `kron`, `einsum` patterns, `trace`, slicing,
  broadcasting `+ - *`, `eye`, `zeros`, in-place `+=` with same-kind casting, item
  assignment) are modelled with their error branches (`ValueError` on shape mismatch etc.).
* **Exceptions are values, and state survives them.** Methods are
  `PyM σ α := σ → Except PyErr α × σ`: when a method raises, the object keeps the
  mutations made before the raise, as in Python. That is what the properties about
  failures are about.
* **Objects and aliasing.** Systems, basis sets and time-evolution operators live in a
  `World` (lists of objects, references are positions). `deepcopy` is modelled on that heap,
  including its failure on module objects (`TypeError: cannot pickle 'module' object`).
  Fock buffers live in a heap of arrays, the dictionaries of the samplers in a heap of
  dictionaries. The arrays of a basis set are values in `Model/BasisSet`; `Model/Memory` has the
  same methods on mutable array objects, and C141 proves that the two agree.
* **Loops** of the Python code are folds over ranges in the same order (`Verif/Core/Loops.lean`);
  `while` loops are recursions whose termination is proved (`indices_nm`, the cap of the data
  frame of the oscillator in a magnetic field).
* **External calls** are parameters with the assumed contract written in the theorem's
  hypotheses, or are replaced by the mathematical object they compute, as said per definition
  (list in section 4).

## 2. Trusted base

* Lean 4.33.0's kernel; axioms: at most `propext`, `Classical.choice`, `Quot.sound` for every
  theorem (checked by `vcheck`).
* No `sorry`, no axioms of our own, no `native_decide`/`bv_decide`.
* The reading of the Python source (nothing is run here), and of the semantics of NumPy, SciPy and
  Python listed in `Verif/Core/NDArray.lean` and at the definitions.

## 3. Files

| directory | contents |
|---|---|
| `Verif/Core` | scalars, arrays, method calls, loops |
| `Verif/Model` | the code |
| `Verif/Spec` | specifications in terms of entries, integrals and histories; concrete objects for the examples |
| `Verif/Lemmas` | what the model's functions compute (used by the proofs only) |
| `Verif/Props` | the property theorems, one file per group, each with a concrete example |

| `Verif/Model/…` | source |
|---|---|
| `BasisSet` | `basis_set.py`, overrides of `sinc_dvr.py` |
| `Memory`, `SystemMemory` | the methods of `basis_set.py` and of the systems with arrays as mutable objects |
| `System`, `Attributes` | `system.py`, `general_orbital_system.py`, `spatial_orbital_system.py`, `time_evolution_operators/operator.py`, `system_helper.py` |
| `Indices`, `Coulomb`, `ParallelCoulomb`, `TwoDim`, `Magnetic`, `SmoothWell`, `SmoothSetup` | `quantum_dots/two_dim/*.py` |
| `Cache` | `get_coulomb_elements` with its files |
| `OneDim`, `Potentials` | `quantum_dots/one_dim/*.py`, `one_dim_potentials.py` |
| `SincDvr` | `sinc_dvr/one_dim/sinc_dvr.py` |
| `Rounding` | contractions, energies and Fock matrices of `basis_set.py` and the systems with rounding errors |
| `RoundingCoulomb` | `coulomb_elements.py` with rounding errors and `fastmath` reordering |
| `RoundingLine` | grid, trapezoidal rules and elements of `one_dim_qd.py` with rounding errors |
| `RoundingEnergies` | the finite-difference matrix and the energies of `ODQD` with rounding errors |
| `RoundingSinc` | the elements of `ODSincDVR` with rounding errors |
| `Overflow` | the normalisations of the oscillator functions with floats, infinities and NaN |
| `MachineIndices` | index functions of `two_dim_helper.py` in machine arithmetic |
| `RandomBasis`, `Sampler`, `Pyscf`, `PyscfOrigin` | `random_basis.py`, `sampler.py`, `custom_system.py` |

## 4. What is not modelled, and assumptions

* Floating-point rounding and overflow (but see C110, C124, C126, C130, C131), integer overflow (int64, numba; but see C111), bounds of numba arrays (numba does not
  check them), memory, time, `print` and `warnings`, plots, tests, docs, commented-out code (psi4,
  old PySCF constructor). The `prange` loop runs in order in `Model/Coulomb`;
  C109 shows that every interleaving of its threads gives the same array.
* `scipy.special.factorial`, `lgamma`, `genlaguerre`/`assoc_laguerre`, `hermite`, `np.sinc`, `np.pi`: the
  real functions (Laguerre polynomials by their explicit sum, Hermite polynomials by their recurrence).
* `sympy.integrate`: the integral over the half line. `np.trapz`: the trapezoidal sum.
* `np.linalg.eigh`: a parameter; hypothesis `IsEigh` (orthonormal columns, eigenvalues ascending), shown
  to be satisfiable for every symmetric matrix.
* `np.random.random`, PySCF's numbers and arrays, the samplers' methods: parameters.
* The array module is a number (all modules compute the same values; `None` raises `AttributeError` when
  something is looked up in it).
* Potentials are functions of one number (the code applies them elementwise to grids).
* Except in C154, time-evolution operator objects are taken to exist from the start of a history; histories create
  systems and basis sets. Functions stored in operators (pulses, weights) are pure functions of time.
* The pandas data frame of the oscillator in a magnetic field is a list of rows; `sort_values` is a stable sort,
  grouping by rounded energy is as in the code.
* Name lookup in the smooth double-well constructor (C71) is modelled just far enough to say that `l` is
  not bound.
* Cache (C53, C54, C74, C78): files are lists of cells written one by one; a load is one step; two path
  strings name the same file exactly if they are equal (no links); nobody deletes a file while it is
  being written.
* Sampler: iteration over `self.samplers` yields a fixed list; `os.makedirs` fails only if the path exists.
* Grids and parameters: `a ≠ 0` for the shielded Coulomb interaction where symmetry of the sums
  is claimed, `L > 0` and at least two grid points in the 1D classes, `a ≠ 0` in the smooth well; they are hypotheses of the
  theorems that need them.

## 5. Per property

Status and theorem names are in `MANIFEST.json`. "False" means: the property as stated in
`properties.jsonl` does not hold of the code; the negation is proved with a concrete
witness (`Cxx_false…`), what the code does instead is usually a theorem `Cxx_actual…`, and the part that holds is
`Cxx_partial`.

| property | modelled | how proved |
|---|---|---|
| C01, C02 | `transform_*_elements` on n-d arrays | `tensordot`/`transpose` wiring to a finite sum |
| C03–C07 | `BasisSet` state machine, `change_basis` | run of the method on a symbolic object; composition by exchange of sums; C06 by induction over chains |
| C08 | same | **false** for `spin_x,y,z`, `spin_2`: the loop rebinds its variable and never assigns the attribute |
| C09 | same | invariant over operation lists; **false** for spin matrices after rectangular `C` and for `bra_spf` without `spf` |
| C10 | setters | case analysis, iff |
| C11 | error branches of `change_basis` | **false**: `l` is updated first; partial: what a failure leaves |
| C12–C14 | `kron`, `transpose` | index arithmetic (div/mod) |
| C15, C17 | flags | induction on the number of calls |
| C16, C19, C21 | `change_to_general_orbital_basis`, spin matrices | symbolic run; finite sums over spin |
| C18 | `setup_pauli_matrices` | 2×2 algebra from orthonormality |
| C20 | `setup_spin_squared_operator` | **false**: the code multiplies by the overlap too often |
| C22–C25 | energies, Fock matrices of both kinds of systems | sums over spin pairs; invariance under block rotations |
| C26 | Fock matrix with output buffer | heap of arrays |
| C27, C28 | densities | sums; equality of results and exceptions |
| C29 | cached dual functions | history induction; **false** after `spf` is assigned again |
| C30, C31 | system sizes and constructors | invariant over histories of operations on many systems |
| C32, C33 | copies in the World model | ownership of objects, frame invariant over histories; shared objects (C33_shared, C35_actual_shared): the copied objects are exactly those reached through operators (induction on the search), and reports are preserved by every map of references that commutes with them |
| C34 | `construct_general_orbital_system` with operator | **false**: the deep copy of the operator raises `TypeError` |
| C35 | failing copies | **false**: the array module is lost |
| C36, C39, C40 | laser field, self-rewriting attributes | invariant over all readings; **false** if pulse and polarisation are both plain: the pulse is ignored |
| C37, C38 | switching and custom operators, flags | invariant over all readings |
| C41 | operators shared by systems | **false**: the system it was set on last is used by all |
| C42, C43 | index map with its search loop | loop invariant, triangular numbers |
| C44–C46 | `coulomb_ho` | refinement of the loops to the closed sum; reindexing |
| C47, C48 | angular integrals | integrals over the angle; C48 **false** for `m_p ≠ m_q` |
| C49, C50, C75, C77 | one-body and dipole matrices in two dimensions | integrals over the plane in polar coordinates, Laguerre identities |
| C51, C52, C76 | oscillator in a magnetic field | sortedness and window argument over the data frame; C52 **false** for tiny frequencies (`IndexError`) |
| C53, C54, C74, C78 | cache program in single steps over a file map | invariants over histories, interruptions and interleavings; C74 **false** (half-written file), C78 **false** (two writers) |
| C55–C58, C79–C81 | ODQD, ODHO | finite sums, contract of `eigh`, Hermite recurrences and integrals over the line; C81 **false** (`beta` is ignored by ODHO) |
| C59, C60, C82 | sinc-DVR | sine at multiples of π; second derivatives of sinc functions; equality of the two representations |
| C61, C62 | `set_u_repr`, general sinc-DVR sets | **false**: nothing is assigned; `TypeError` and wrong elements |
| C63, C64 | 1D potentials | `HasDerivAt`; **false** for `SymmetricDWPotential`, resp. for negative `l` |
| C65 | `RandomBasisSet` | symbolic run for all generators |
| C66 | `cast_to_complex`, `change_module` | symbolic run; **false** for the grid, which is not cast |
| C67 | `SampleCollector` | loops over arbitrary samplers as relations; induction over histories |
| C68, C69 | PySCF constructors | symbolic run in the World model; C69 **false** for odd electron numbers (`AssertionError`) |
| C70 | `spin_delta` | parity arithmetic |
| C71 | smooth double-well constructor | **false**: `NameError` for all arguments |
| C72 | Laguerre functions | orthogonality by finite differences and Gamma integrals |
| C83–C85 | two-body elements in two dimensions | four-dimensional integrals in centre-of-mass and relative coordinates; Cauchy–Schwarz; C83 **false** for masses other than one |
| C86–C88 | one-dimensional spectrum, parity, interaction bounds | two-term recurrence of the difference equation (solutions with the same first value are proportional, hence simple levels and definite parity), summation by parts for the bounds, finite Cauchy–Schwarz with the trapezoidal weights |
| C89, C90 | determinants in old and new bases | sums reordered over the parity decomposition of spin-orbital indices; C89 **false** for density matrices with elements between different spins (their contributions are counted although the spin functions are orthogonal) |
| C91 | every constructor returns a complete, consistent object (`Consistent`) | assembled from the constructor lemmas; sinc-DVR in the 4d representation |
| C92 | positive interaction and one-body bound (`Physical`) for all constructors and histories | `u` is a weighted sum (one dimension), an integral (two dimensions) or a diagonal (sinc) of squares; for the double well the potential of the barrier is completed to a square and the form of the squared radius is at most twice the oscillator energies (`Lemmas/WellBound`); the sinc kinetic energy is the matrix of Fourier coefficients of `k²` (`Lemmas/SincKinetic`); induction over the history, one congruence lemma per operation |
| C93, C94 | lower bounds of reference energies and Fock matrices | from C92: direct terms dominate exchange terms, because anti-symmetrisation keeps positivity |
| C95 | `setup_basis` called again on the finished object | each call run on a symbolic object; **false** in a magnetic field: the method overwrites the frequency it reads, closed form after `k` calls by induction; partial: the other classes, and zero field |
| C96 | attributes `a`, `b` (screening length, well parameters, spinors) | **false**: the doubling overwrites them; partial: a frame predicate (`KeepsAB`) for every other operation, returning or raising |
| C97 | keywords `includes_spin`, `anti_symmetrized_u` of the constructors | the set-up code neither reads nor writes the flags (`FlagBlind`, closed under sequencing), so it commutes with setting them |
| C98 | both `compute_reference_energy`, both `construct_fock_matrix` | algebra of the sums over occupied orbitals, for all `n` |
| C99 | `change_basis` followed by `compute_reference_energy`, `construct_fock_matrix` | energy as a quadratic function of the density matrix (C90); exact expansion; `HasDerivAt` along curves; the converse from explicit shears |
| C100 | elements of the dots, spin doubling, Fock matrices | abstract conserved label in a cancellative monoid; instances from C44, C51, C88 and the closed forms of the angular integrals |
| C101 | `change_to_general_orbital_basis`, spin matrices, Fock matrices | products of Kronecker products with the inverse overlap in `OneCommutes`/`TotalCommutes` (`Spec/SpinConserved.lean`); the Fock matrices via C100 and the closed-shell doubling |
| C102 | the same with two spin bases | the doubled basis set in closed form (`general`), completeness of orthonormal spinors (`OrthoSpin.complete`), Fierz identity by cases on the spin indices |
| C103 | `construct_dipole_moment`, `radial_integral`, `spf_norm` | `L_n^k = L_n^{k+1} - L_{n-1}^{k+1}` (`Lemmas/Ladder.lean`) turns the radial integral into two orthogonality integrals (C72) |
| C104 | one-body and dipole elements of the three oscillators | the sum over the basis is one over the at most six neighbours `(n', m')` (`step_sum`), evaluated by cases on the sign of `m` |
| C73 | repeated basis changes | **false** for spin-doubled sets and rectangular matrices (consequence of C08) |
| C105 | the density, the functions of six constructors, `change_basis` | `OfFunctions` (Spec/Samples) relates arrays to functions on a space with an integral; linearity of the trapezoidal rule, of the integral over the line and of the polar integral on products of the functions; `change_basis` by bilinearity; bounds by reading the density as the quadratic form of `rho` |
| C106 | reference energies, Fock matrices, anti-symmetrisation, spin doubling | `Spec/ManyBody` defines wave functions, operators and determinants without reference to the model; determinants pick one value of an antisymmetric function (sum over permutations), single and double updates of a determinant by cases; spatial systems by spin-doubled arrays |
| C107 | `change_basis` of basis sets and systems, reference energies | product operators compose factor by factor (sum over index tuples = product of sums); one- and two-body operators are sums of product operators; determinants become determinants of coefficients; spatial systems by spin-doubled coefficients |
| C108 | spin doubling, spin matrices, `spin_2`, `spin_2_tb` | the product of two one-body operators is a one-body plus a two-body operator (`oneBodyOp_comp`), commutators of one- and two-body operators from their elements; a one-body operator acts on a determinant column by column, paired orbitals contribute the trace of the Pauli matrix |
| C109 | `_get_coulomb_elements` as threads with private variables and a shared array (`Model/ParallelCoulomb`) | invariant over all executions: private variables are right, every entry is pending in some thread or final; a cost that every step lowers by one |
| C110 | contractions, traces and sums as relations between inputs and possible rounded results (`Model/Rounding`) | `Within u k x e T`: `k` roundings with terms of size `T`; closed under rounding, sums, products; induction over the tree of the additions |
| C111 | the two index functions with wrap-around after every integer operation and rounding after every float operation (`Model/MachineIndices`) | simulation of the loops with a bound on the variables; half integers below `2^52` are representable |
| C112 | `ODSincDVR` constructor as before; nothing new | Plancherel's identity for functions with wave numbers in [-pi, pi], proved by cutting the line into unit cells and Parseval's identity for the values at x + n (`Lemmas/Plancherel`); amplitudes of the sinc functions and of their derivatives; scaling |
| C113 | `ODHO` constructor as before; nothing new | the error of the trapezoidal rule on each cell is an integral of (x-a)(b-x) f''/2 (`Lemmas/Trapezoid`), summed over cells and both coordinates; the integrand is integrable over the plane and the boxes exhaust it |
| C114 | `ODQD` constructor as before; nothing new | Taylor expansion of the central difference (`Lemmas/FiniteDifference`); an eigenvalue within the residual, by Parseval's identity in the eigenvectors; for the lowest level the positive trial function psi - dx^2 psi''/12 bounds all eigenvalues from below, using that psi leaves the walls linearly (Gronwall) |
| C115 | `ODQD` constructor as before; `Spec/Box` states the boundary value problem | along any ultrafilter of grids the normalised eigenvectors and their difference quotients are bounded and equicontinuous, so they have limits, which solve the equation and are orthonormal (`Lemmas/GridLimit`, `GridStates`); Gronwall's inequality makes levels simple; trial functions show that every energy of the box is a limit and that levels stay bounded; the density of the first k+1 states bounds the k-th level from below by (k+1)/(8 L^2), so the limits exhaust the energies; the increasing enumeration does not depend on the ultrafilter; for the rate the level of C114 is identified by the gaps |
| C116 | `ODQD` constructor as before; `Spec/Box` states the boundary value problem | the limits of C115 are uniform (`Lemmas/GridFunctions.uniform`); every limit is a number of modulus one times a fixed real state, and the overlap with that state gives the phase on each grid; products of uniformly close families are close and the trapezoidal rule converges for continuous functions of one and two variables (`Lemmas/Riemann`) |
| C117 | `ODQD` constructor as before; `Spec/Nodes` counts nodes | for a combination of the first m+1 eigenvectors that vanishes at the zeros and is matched across the m sign changes of the k-th one the energy form is a sum of squares (Jacobi), so k nodes are needed (`Lemmas/Nodes.form_nonneg`, `nodes_ge`); alternating signs reverses the spectrum, and the nodes of both vectors add up to at most n-1, so there are exactly k; the parity follows from the signs at both ends |
| C118 | `ODQD` and `ODHO` constructors, `HOPotential.__call__` | lower bound: combinations of the first k+1 box states that vanish at the zeros of the k-th oscillator function have energy at least omega (k+1/2) (Jacobi's substitution, `Lemmas/Oscillation`); upper bound: the sampled oscillator function, which is tiny at the ends of the box, is a trial vector with a small residual (`Lemmas/OscillatorLevels`) |
| C119 | `ODQD` and `ODHO` constructors, `HOPotential.__call__` | expansion of the sampled oscillator function in the eigenvectors of the grid: the levels are isolated, so a small residual means a small distance to one eigenvector times a phase (`Lemmas/GridExpansion`, `Lemmas/OscillatorFunctions`); the elements are continuous in the discrete mean-square norm (`Lemmas/GridNorm`), for the dipole with second moments bounded by the energy (`Lemmas/OscillatorElements`) |
| C120 | `BasisSet.change_basis`, `SpatialOrbitalSystem.compute_reference_energy`, `GeneralOrbitalSystem.compute_reference_energy`; `Spec/Levels` defines the sorted list of energies with an orthonormal complete set of states | min-max on the finite-dimensional space of antisymmetric wave functions: a combination of k+1 states orthogonal to k given states (`Lemmas/ManyBodySpectrum`); existence by the spectral theorem on the antisymmetric subspace; transport of states by the N-fold product of the coefficient matrix; counting by summing squared overlaps with all determinants |
| C121 | `ODQD` and `ODHO` constructors; `Spec/Levels` defines the energies of N electrons (`ElectronEnergies`), with the exact integrals of the box and of the line as the elements of the limit | the limits of the elements (C113, C115, C116, C119) hold up to a phase of every function; phases are a unitary change of basis, which keeps the energies, and the remaining differences of the elements move every energy by a bounded multiple (`Spectrum.near_phase`, C120) |
| C122 | constructors of `ODQD`, `ODHO`, `TwoDimensionalHarmonicOscillator`, the operations of `BasisSet`, `SpatialOrbitalSystem.compute_reference_energy` | a positive operator on pairs is positive on N-particle functions: average over the two coordinates (`Lemmas/ManyBodyPositive`); min-max from C120; antisymmetric functions vanish unless all orbitals differ, and N different orbitals cost at least the N lowest |
| C123 | the constructors of the one- and two-dimensional quantum dots, the data frame of `TwoDimHarmonicOscB` | The arrays of the constructors are compared entry by entry. For the data frame: the states outside the smaller window are strictly above `l` states inside it, so the first `l` rows of the sorted larger window are those of the smaller one (uniqueness of sorted lists). The energies fall by the min-max argument of C120 for the inclusion of the smaller set of functions; a falling sequence with the lower bound of C122 converges |
| C124 | `ODHO.normalization`, `ho_function`, `construct_dipole_moment`, the trapezoid loops and `spf_norm` with floats: finite numbers, infinities, NaN (`Model/Overflow.lean`); the rounding and the factorial of the library are arbitrary functions with the properties of binary64 | Relative errors of products, quotients and roots are combined step by step while all intermediate results are normal numbers (bounds on `2^n n!` by monotonicity from `n = 150` and `n = 151`); zero and NaN are closed under the products and sums of the loops |
| C125 | the elements, states and dipole moments of the dots as in C91, C100, C103 and C120; the totals of N-particle wave functions are in Spec/Sectors.lean | the Hamilton operator commutes with the projection on a total; every sector has an eigenbasis; the bases are collected and sorted; counting by overlaps with determinants, uniqueness by overlaps of two families, symmetries by relabelling of the orbitals |
| C126 | coulomb_ho as a relation between arguments and possible results: every exponent is a sum of rounded logarithms in any order, then rounded exponentials, sums in any order and products (Model/RoundingCoulomb.lean) | relative errors with a factor through sums, products and exponentials; the sizes of the exponents are bounded by the quanta of the four functions; for the loss one rounding of the largest term, bounded below by central binomial coefficients |
| C127 | h_t and u_t of a system as in C36 and C37, with real times; the equation of motion of N-particle wave functions is in Spec/Evolution.lean | the equation is linear with a Hermitian matrix; global existence by Picard iteration for a field cut off outside a ball, which the conserved norm never leaves, and by gluing intervals of growing length; conservation laws by derivatives of inner products and by uniqueness; overlaps by the constancy of the overlap with the phase turned back; changes of basis with C39 and C107 |
| C128 | u_t of a system with AdiabaticSwitching as in C37, the equation of motion as in C127, levels and populations in Spec/Adiabatic.lean | the adiabatic theorem in finite dimensions: the projection on an isolated level and the reduced resolvent are differentiable (by their algebraic equations, with bounds from the gap), the derivative of the population is a commutator that is integrated by parts, which gives C / T (Lemmas/Adiabatic.lean); the gap of a simple level on [0, 1] by compactness and continuity of the energies (C120); for the dot, the ground energy is at most the reference energy and the other energies are at least the one-body energy of the second determinant, because the interaction is repulsive (C92) |
| C129 | h_t and u_t of a system with LaserField as in C36, the equation of motion as in C127, ODHO as in C113, the distance of wave functions in Spec/Stability.lean | the difference of the two wave functions at the time t is tested with the solution through it: its overlap with one of them is constant, with the other one it changes at a rate that the norm of the difference of the Hamilton operators bounds (Lemmas/Stability.lean); the elements of ODHO converge by C113 and the exactness of h and the dipole moment |
| C130 | relations between inputs and the possible floating-point results of linspace, the trapezoidal rules, the shielded interaction and the three loops (Model/RoundingLine.lean) | the relative error of the grid points with respect to L, of the spacing and of the interaction (which moves by at most dx/a relative), then products and sums by the rules of C110/C126; the sums of absolute values are bounded by the norms with the Cauchy-Schwarz inequality |
| C131 | relations for the rounded matrix, a backward stable eigh and the potential (Model/RoundingEnergies.lean) | min-max for the promise of eigh (Lemmas/Weyl.lean); the rounded spacing multiplies the kinetic energy by a factor close to one, which changes a level by at most that factor times its height above the potential minimum; the other errors are bounded by Schur's test for tridiagonal matrices; the k-th level of the exact matrix is within C dx^2 of the k-th energy (C115_rate, from C114 and C115) |
| C132 | lines 198-201 of custom_system.py with the nuclei and the integrals for every origin as parameters (Model/PyscfOrigin.lean) | the constructors by C68, the shift of the origin is a multiple of the overlap, hence of the identity in the RHF basis; it shifts the energy of N electrons by N times the field at the point, which the integral of the field turns into a phase; uniqueness of the evolution (C127) |
| C133 | eigh is any function with the promise IsEigh, two of them for the comparison | the overlap matrix of the two sets of eigenvectors is unitary and commutes with the eigenvalues; levels of the tridiagonal matrix are simple (C87); phases pulled through the quadratures; density of the occupied orbitals is the spectral projection, then C90 |
| C134 | h_t and u_t of the World model with the operators of C36 and C37; energies as in C120 | variational principle for m states (weights at most 1), affine dependence of the mean energy, local maximum for the derivative, mirrored states by a diagonal unitary, C100/C103 for the parities |
| C135 | the Hamilton operator of N particles of C106 with the stored arrays; systems as in C120 | by antisymmetry all particles have the same mean one-body energy and all pairs the same repulsion; the state of K particles with K - n of them fixed is a trial state of n particles |
| C136 | the Schroedinger equation of C127 with the arrays that the system returns | a third solution that ends in the difference of the two compared ones; its inner product with the second one changes at the rate of the matrix element of the difference of the Hamilton operators |
| C137 | the Schroedinger equation of C127 with the arrays that a system with a laser returns; levels as in C128 | the adiabatic theorem of C128 applied to the laser elements of C36; the distance of levels in a field from C134 |
| C138 | the constructors of the one-dimensional classes, of the sinc DVR and of the two-dimensional classes; change_basis, spin doubling, reference energy, Fock matrix, density, laser, potentials | every formula is homogeneous in lengths: the trapezoidal sums, the normalisations, the integrals over the radius by substitution; for ODQD the eigenvectors of the multiple of a matrix are the same and C133 compares two solvers; energies of N electrons by uniqueness of the spectrum |
| C139 | as in C120 and C138; the table of Coulomb elements before the factor sqrt(omega) is the same for all frequencies | min-max principle for the N-electron operator with omega h and sqrt(omega) u: both parts are non-negative (C92), so dividing by omega or sqrt(omega) leaves one part unchanged and moves the other one monotonically; the lowest energy without interaction is that of the determinant of the first orbitals; the double well uses the bound of C92 |
| C140 | `TwoDimSmoothDoubleWell.setup_basis` on an object whose own attributes may be missing (`Model/SmoothSetup`); method names of the class hierarchy as a list | run of the model on every object: case distinction on the attributes; `tdhoSetup_run` (C95) for the base class, `C77_hermitian` so that the solver applies, `decide` for the (finite) list of method names |
| C141 | `Model/Memory`: the methods of `BasisSet` once more, with attributes as references into a list of arrays; `HState.view` forgets the references | refinement: `Sim` relates each method to the one on values (prefix of the heap kept, view equal, same exception), rule by rule for bind, assignment, new arrays; freshness of references tracked in the postcondition; induction over histories |
| C142 | HWorld: basis sets with references to array objects, systems, operators; h, u, h_t, u_t of a system and of each operator class return references (`Verif/Model/SystemMemory.lean`) | refinement of the value-level World (same outcome, same view, memory only extended) for h_t and u_t by cases on the operator; which reference is returned by cases on the class; the loop by induction on the list of times, with C26_fock for one step and the invariant that no basis set refers to the buffer |
| C143 | the same doubled arrays as C16, C19, C102 and C108; N-electron wave functions as functions of N spin orbitals; SpinStates (`Verif/Spec/Multiplets.lean`) | raising and lowering operators on the sectors with fixed component; the square of the spin is Hermitian, conserves the totals and commutes with the Hamiltonian, so the Hamiltonian has an eigenbasis in each common eigenspace of the square and the totals (spectral theorem of C125); eigenvalues S(S+1) by induction on the number of electrons with the second spin, along the raising operator; raising is injective below the top, which gives equal multiplicities and the count; rotation to an arbitrary orthonormal spin basis; closed form by counting pairs of subsets |
| C144 | the World model of systems and operators (C36, C37), the doubled arrays (C16, C19, C102), solutions of the Schroedinger equation (C127); Kept, electronSpin, arraySpin (`Verif/Spec/SpinEvolution.lean`) | an operator that commutes with the Hamiltonian at all times maps solutions to solutions (linearity and the equation of motion), so unitarity and uniqueness of solutions give the three parts of Kept; probabilities by expanding in the common eigenfunctions; the arrays at every time act on fermions as spatial elements without spin (elements of h_t and u_t after any readings, anti-symmetrisation removed on antisymmetric functions), which commute with the spin (C143) |
| C145 | ODQD and ODSincDVR as in C29, C30, C91; electrons as fermions with spin (C120); the order of the potential objects (`Verif/Spec/PotentialOrder.lean`) | the matrices for two potentials differ on the diagonal, so min-max gives the order; the functions of ODQD are orthonormal combinations of the inner grid points, in which the trapezoidal sums of u become an interaction of points, so the energies of electrons transport (l = num - 2) or truncate (fewer functions) to those on the grid; concavity from the sum principle of Ky Fan (C134); exact levels as limits (C115); elementary inequalities for the classes |
| C146 | ODQD and ODSincDVR as in C29, C30, C91; electrons as fermions with spin, their states and energies as in C120; the sum in `Verif/Spec/SumRule.lean` | the sum is half the mean value of the double commutator of D with the Hamiltonian, by completeness of the states; D and the interaction are both diagonal in grid points, so only -(x_p - x_q)^2 h_pq / 2 remains; for the sinc functions this is (1 - (-1)^(p+q)) / 2 per pair of points, for finite differences it couples neighbours only, which gives the upper bound by the row sums and the lower bound because adding dx^2/2 h leaves a diagonal |
| C147 | ODQD as in C29 and C30, densities as in C27, operators of a world as in C36 and C37, moving electrons as in C127; density matrix, currents and the flow in `Verif/Spec/Continuity.lean` | all functions of the grid are a unitary change from the grid points, in which the interaction, the field and the dipole moment are diagonal; the derivative of the occupation of a point is the mean value of its commutator with h, where only the two neighbours remain; the dipole moment follows by summation by parts, the speed from the row sums of the commutator |
| C148 | RoothaanHall, rhfFock, rhfDensity and rhfEnergy (Spec/Rhf.lean) state the equations of the solver in atomic orbitals with the integrals in the order of the chemists; the code is constructRhf of Model/Pyscf.lean with referenceEnergy and constructFock of the returned system | C68 gives the stored elements; the sums of the Fock formula are rearranged to C^T F C, which the equations and C^T S C = 1 make diagonal; the energy is the sum of h_ii + f_ii; spin doubling by energy_doubled and fock_doubled; the statement about determinants from C106 |
| C149 | the odqd, odSincDvr and World models; Combined (Spec/StaticField.lean) says that elements and functions are those of another object in orthonormal combinations; the tilted potential is required at the inner points of the grid only | both dots are sandwiches of matrices on the inner points of the grid (odqd_grid); the coefficients are C'^H C, with C' C'^H = 1 because C' is square (Lemmas/StaticField.lean); energies by ElectronEnergies.truncate and .transport, motion by Evolves.back; the sinc DVR by comparing diagonals |
| C150 | oscB with its data frame (Model/Magnetic.lean); LevelsComplete compares with the infinite spectrum (levelEnergy); Mirrored (Props/FieldReversal.lean) states the relation of the arrays | C51_lowest for both fields and a counting argument show that the kept states are mirrored, so there is a renumbering; energies are equal because both sequences are sorted; two-body elements by the reflection symmetry of C45; energies of electrons by transport with the permutation matrix; the counterexample from the order that the stable sort gives (kept_order) |
| C151 | Reversible (Spec/TimeReversal.lean) states how the elements and their complex conjugates are related; reversedWave is the reversed wave function; Evolves, Answered, LaserAnswers and SwitchingAnswers as for C127, C36 and C37 | Conjugating the Schroedinger equation and a diagonal unitary change of functions (Evolves.reversed); for ODQD the conjugates of the eigenvectors are eigenvectors of the same real matrix, whose levels are simple, so C133 gives the phases; the other elements are real or imaginary entry by entry; transitions by the conservation of inner products |
| C152 | Rotates (Spec/Rotation.lean) states that the one- and two-body elements conserve the angular momentum and that the dipole elements along x and y change it by one with the phases of a vector; turnedWave, turnPhase and angularMomentum are the turned wave function, the phases and the generator; HasParity as for C134; Evolves, Answered and LaserAnswers as for C127 and C36 | A diagonal unitary change of functions that depends on the time (Evolves.turned); the phases of the elements by the selection rules C100 and C103; for rotating fields the frame that turns along has static elements, whose energy C127 shows to be constant; mirrored fields by the signs of the parities |
| C153 | `QuantumSystem.__init__`, `GeneralOrbitalSystem.__init__`, `SpatialOrbitalSystem.__init__`, `change_basis`, `compute_reference_energy` on worlds of objects with references | runs of the constructors are computed for every world; a system reports the same when objects are only added (`sameReports_map`); the energy formulas of C24 are applied to the doubled or anti-symmetrised elements; counterexample: `Demo.world` |
| C154 | all operations of `SOp` and all constructors on worlds of objects with references, operators with the cells of their lambdas | one predicate `Good` (sound worlds go to sound worlds, and objects are kept) with rules for reading, writing, growing and binding; `deepcopy` by `good_copyObjects` (renamed references lead to copies or to old objects); induction over `Arises` and over histories |
| C155 | the getters of systems and basis sets (Model/Attributes.lean) | runs of the getters; the only effect is that `bra_spf` is stored, which no report sees (`sameReports_map`, `withBra_idem`), by induction over the readings |
| C156 | possible floating-point values of the spacing, h, spf, u and the dipole elements of `ODSincDVR` (Model/RoundingSinc.lean) | positive quantities: bounds of ratios (`Ratio`) through every operation; `spacing_float` from the rounded grid; sums of 1/k² and Schur's test with Weyl's inequality for the eigenvalues; the sine is compared with its zeros for the functions (`npSinc_float`); C120_spin_perturbation for several electrons; `shield_close` and `position_close` of C130 for the rest |
| C157 | `ODSincDVR` as in C59, densities as in C27, operators of a world as in C36 and C37, moving electrons as in C127; currents in `Verif/Spec/SincFlow.lean` | interaction, potential and field are diagonal in the points and commute with the numbers of electrons there (`Evolves.diagonal`), so only the off-diagonal kinetic elements are left; symmetry of h makes the currents antisymmetric, and the dipole moment follows by exchanging the two sums; for the speed limit the velocity is the mean of the momentum matrix, whose elements are the Fourier coefficients of k on [-π, π], so that π ∓ k is an integral of squares (`Verif/Lemmas/SincMomentum.lean`) |
| C158 | `ODSincDVR` as in C59, densities as in C27, operators of a world as in C36 and C37, moving electrons as in C127; mirror in `Verif/Spec/SincMirror.lean` | the grid is symmetric (`linspace_mirror`), so each closed form is invariant; a permutation of the spin orbitals carries one Hamilton operator into the other (`hamiltonOp_renamed`) and the density matrix with it; the parity follows from the uniqueness of the motion; energies and states by the same permutation, a state with a simple energy is a multiple of its mirror image; the stronger field lowers the energies by the concavity of C134 |

## 6. Testing the theorems

`seeded/LOG.jsonl` has one line per deliberate bug put into a scratch copy of the model: what was edited, the
claim that the edit breaks, the theorems that stopped proving, and the theorems that were tightened as a result.
