{
 "claims": [
  {
   "property": "C01",
   "status": "proved",
   "theorems": [
    "QS.Props.C01_one_body",
    "QS.Props.C01_default"
   ],
   "note": "all rectangular shapes; ValueError branch included"
  },
  {
   "property": "C02",
   "status": "proved",
   "theorems": [
    "QS.Props.C02_two_body",
    "QS.Props.C02_default"
   ],
   "note": "all sizes; ValueError branch included"
  },
  {
   "property": "C03",
   "status": "proved",
   "theorems": [
    "QS.Props.C03_change_basis",
    "QS.Props.C03_succeeds",
    "QS.Props.C03_succeeds_default"
   ],
   "note": "basis sets with four-index u and documented shapes"
  },
  {
   "property": "C04",
   "status": "proved",
   "theorems": [
    "QS.Props.C04_composition",
    "QS.Props.C04_succeeds"
   ],
   "note": "equality of whole objects; success for sets without one-body spin matrices (see C73 for the others)"
  },
  {
   "property": "C05",
   "status": "proved",
   "theorems": [
    "QS.Props.C05_undo",
    "QS.Props.C05_identity"
   ],
   "note": ""
  },
  {
   "property": "C06",
   "status": "proved",
   "theorems": [
    "QS.Props.C06_step",
    "QS.Props.C06_symmetries",
    "QS.Props.C06_succeeds"
   ],
   "note": "induction over any sequence of basis changes"
  },
  {
   "property": "C07",
   "status": "proved",
   "theorems": [
    "QS.Props.C07_pure",
    "QS.Props.C07_preview"
   ],
   "note": ""
  },
  {
   "property": "C08",
   "status": "partial",
   "theorems": [
    "QS.Props.C08_actual",
    "QS.Props.C08_partial",
    "QS.Props.C08_false"
   ],
   "note": "false as stated (C08_false): the one-body spin matrices are never updated; proved: what the call does to each spin operator, and correctness for spin_2_tb always and for all of them under spatial rotations"
  },
  {
   "property": "C09",
   "status": "partial",
   "theorems": [
    "QS.Props.C09_partial",
    "QS.Props.C09_all_partial",
    "QS.Props.C09_false_spin",
    "QS.Props.C09_false_bra"
   ],
   "note": "false for the spin matrices and for bra_spf without spf (C09_false_spin, C09_false_bra); proved by induction over all histories for the other attributes, and for all attributes under the stated restriction"
  },
  {
   "property": "C10",
   "status": "proved",
   "theorems": [
    "QS.Props.C10_elements",
    "QS.Props.C10_spin",
    "QS.Props.C10_functions",
    "QS.Props.C10_none"
   ],
   "note": "also says which exception a 0-d array raises (IndexError/TypeError instead of AssertionError for functions and dipole moments)"
  },
  {
   "property": "C11",
   "status": "partial",
   "theorems": [
    "QS.Props.C11_partial",
    "QS.Props.C11_axes_partial",
    "QS.Props.C11_false",
    "QS.Props.C11_false_half"
   ],
   "note": "false as stated (C11_false: l keeps the new value; C11_false_half: half-transformed object); proved: mismatched coefficient matrices change nothing but l, and later basis changes are unaffected"
  },
  {
   "property": "C12",
   "status": "proved",
   "theorems": [
    "QS.Props.C12_one_body"
   ],
   "note": "rectangular matrices"
  },
  {
   "property": "C13",
   "status": "proved",
   "theorems": [
    "QS.Props.C13_two_body"
   ],
   "note": "BasisSet and ODSincDVR (four-index u)"
  },
  {
   "property": "C14",
   "status": "proved",
   "theorems": [
    "QS.Props.C14_antisymmetrize"
   ],
   "note": "BasisSet and ODSincDVR (four-index u)"
  },
  {
   "property": "C15",
   "status": "proved",
   "theorems": [
    "QS.Props.C15_once",
    "QS.Props.C15_flagged"
   ],
   "note": "any number of calls, by induction"
  },
  {
   "property": "C16",
   "status": "proved",
   "theorems": [
    "QS.Props.C16_general",
    "QS.Props.C16_succeeds",
    "QS.Props.C16_rejects",
    "QS.Props.C16_sinc"
   ],
   "note": "every successful call; success for every orthonormal spin basis; rejection of others"
  },
  {
   "property": "C17",
   "status": "proved",
   "theorems": [
    "QS.Props.C17_no_second_doubling",
    "QS.Props.C17_after_doubling"
   ],
   "note": ""
  },
  {
   "property": "C18",
   "status": "proved",
   "theorems": [
    "QS.Props.C18_algebra",
    "QS.Props.C18_standard"
   ],
   "note": ""
  },
  {
   "property": "C19",
   "status": "proved",
   "theorems": [
    "QS.Props.C19_angular_momentum"
   ],
   "note": ""
  },
  {
   "property": "C20",
   "status": "partial",
   "theorems": [
    "QS.Props.C20_actual",
    "QS.Props.C20_partial",
    "QS.Props.C20_false"
   ],
   "note": "false: C20_false gives an overlap diag(2,1) for which spin_2 is wrong; C20_actual says what is stored (3/4 s^3 x 1); C20_partial holds where s*s = 1"
  },
  {
   "property": "C21",
   "status": "proved",
   "theorems": [
    "QS.Props.C21_total_spin"
   ],
   "note": "all n <= l, plain and anti-symmetrised elements"
  },
  {
   "property": "C22",
   "status": "proved",
   "theorems": [
    "QS.Props.C22_energies_agree"
   ],
   "note": "every orthonormal spin basis, all n and l; systems without time evolution operator (with one, construct_general_orbital_system raises, C34)"
  },
  {
   "property": "C23",
   "status": "proved",
   "theorems": [
    "QS.Props.C23_fock_agree"
   ],
   "note": "every orthonormal spin basis, all n and l; systems without time evolution operator (with one, construct_general_orbital_system raises, C34)"
  },
  {
   "property": "C24",
   "status": "proved",
   "theorems": [
    "QS.Props.C24_formulas",
    "QS.Props.C24_fock"
   ],
   "note": "both formulas, all n <= l"
  },
  {
   "property": "C25",
   "status": "proved",
   "theorems": [
    "QS.Props.C25_invariant",
    "QS.Props.C25_unitary"
   ],
   "note": "all rotations within the occupied and within the virtual space"
  },
  {
   "property": "C26",
   "status": "proved",
   "theorems": [
    "QS.Props.C26_fock",
    "QS.Props.C26_dtype",
    "QS.Props.C26_hermitian",
    "QS.Props.C26_alias",
    "QS.Props.C26_alias_basis"
   ],
   "note": "result, buffer aliasing and dtype failure; Hermiticity of the spatial Fock matrix uses exchange symmetry of u"
  },
  {
   "property": "C27",
   "status": "proved",
   "theorems": [
    "QS.Props.C27_density",
    "QS.Props.C27_failures",
    "QS.Props.C27_linear",
    "QS.Props.C27_real"
   ],
   "note": "also which dtype and shape combinations raise"
  },
  {
   "property": "C28",
   "status": "proved",
   "theorems": [
    "QS.Props.C28_commute",
    "QS.Props.C28_old_basis",
    "QS.Props.C28_unmodified"
   ],
   "note": "exact equality (values and exceptions) with the density after change_basis"
  },
  {
   "property": "C29",
   "status": "partial",
   "theorems": [
    "QS.Props.C29_false",
    "QS.Props.C29_actual",
    "QS.Props.C29_partial"
   ],
   "note": "false as stated (C29_false): the dual is cached at the first read; C29_actual says what a later assignment of spf does; C29_partial: all histories in which spf is not assigned after the dual was created"
  },
  {
   "property": "C30",
   "status": "proved",
   "theorems": [
    "QS.Props.C30_create",
    "QS.Props.C30_set_size",
    "QS.Props.C30_always",
    "QS.Props.C30_basis_changes",
    "QS.Props.C30_new_size"
   ],
   "note": "all histories of operations on any number of systems, by induction"
  },
  {
   "property": "C31",
   "status": "proved",
   "theorems": [
    "QS.Props.C31_accepts",
    "QS.Props.C31_occupies",
    "QS.Props.C31_general"
   ],
   "note": "all even n for SpatialOrbitalSystem, rejection of odd n, and the general system built from it (without time evolution operator, see C34)"
  },
  {
   "property": "C32",
   "status": "proved",
   "theorems": [
    "QS.Props.C32_unchanged",
    "QS.Props.C32_independent"
   ],
   "note": "C32_unchanged: every handle of the spatial system reports what it did before the call; C32_independent: for all later operation sequences, operators being used only with the system they belong to (sharing one is C41)"
  },
  {
   "property": "C33",
   "status": "proved",
   "theorems": [
    "QS.Props.C33_shared",
    "QS.Props.C33_equal",
    "QS.Props.C33_independent"
   ],
   "note": "C33_equal and C33_independent: for systems sharing nothing, operators being used only with the system they belong to (sharing one is C41); C33_shared: what a copy is when objects are shared, for all worlds"
  },
  {
   "property": "C34",
   "status": "partial",
   "theorems": [
    "QS.Props.C34_actual",
    "QS.Props.C34_false",
    "QS.Props.C34_partial"
   ],
   "note": "false as stated (C34_false): with an operator set the call raises TypeError (C34_actual); C34_partial covers systems without operator and operators that are set again"
  },
  {
   "property": "C35",
   "status": "partial",
   "theorems": [
    "QS.Props.C35_actual_shared",
    "QS.Props.C35_actual_basis",
    "QS.Props.C35_actual_system",
    "QS.Props.C35_false",
    "QS.Props.C35_false_shared",
    "QS.Props.C35_partial"
   ],
   "note": "false as stated (C35_false, C35_false_shared): a failing copy leaves the module None; C35_actual_* say exactly that, C35_actual_shared for all worlds and exactly when; C35_partial: in all other cases the copy succeeds and the original is unchanged"
  },
  {
   "property": "C36",
   "status": "partial",
   "theorems": [
    "QS.Props.C36_partial",
    "QS.Props.C36_false",
    "QS.Props.C36_actual"
   ],
   "note": "false as stated (C36_false): a plain pulse with a plain or missing polarisation is replaced by the polarisation; C36_actual says that such a pulse is ignored; C36_partial: all histories of readings whenever the pulse or the polarisation is callable"
  },
  {
   "property": "C37",
   "status": "proved",
   "theorems": [
    "QS.Props.C37_switching",
    "QS.Props.C37_custom"
   ],
   "note": "all histories of readings"
  },
  {
   "property": "C38",
   "status": "proved",
   "theorems": [
    "QS.Props.C38_flags",
    "QS.Props.C38_set",
    "QS.Props.C38_none"
   ],
   "note": "the operator must be bound to the system, as set_time_evolution_operator does"
  },
  {
   "property": "C39",
   "status": "partial",
   "theorems": [
    "QS.Props.C39_partial",
    "QS.Props.C39_false",
    "QS.Props.C39_switching"
   ],
   "note": "false in the case of C36_false (C39_false); C39_partial: callable pulse or polarisation; C39_switching: full second half"
  },
  {
   "property": "C40",
   "status": "partial",
   "theorems": [
    "QS.Props.C40_partial",
    "QS.Props.C40_false"
   ],
   "note": "false in the case of C36_false (C40_false); C40_partial: callable pulse or polarisation"
  },
  {
   "property": "C41",
   "status": "partial",
   "theorems": [
    "QS.Props.C41_false",
    "QS.Props.C41_actual",
    "QS.Props.C41_partial",
    "QS.Props.C41_partial_others"
   ],
   "note": "false as stated (C41_false): an operator set on a second system computes from that system; C41_actual; C41_partial: all histories in which operators are not shared"
  },
  {
   "property": "C42",
   "status": "proved",
   "theorems": [
    "QS.Props.C42_terminates",
    "QS.Props.C42_index_of_numbers",
    "QS.Props.C42_numbers_of_index",
    "QS.Props.C42_nonneg"
   ],
   "note": "termination of the search loop and both inverse directions, for all indices and all quantum numbers"
  },
  {
   "property": "C43",
   "status": "proved",
   "theorems": [
    "QS.Props.C43_monotone",
    "QS.Props.C43_shell",
    "QS.Props.C43_m_ladder"
   ],
   "note": ""
  },
  {
   "property": "C44",
   "status": "proved",
   "theorems": [
    "QS.Props.C44_selection_rule"
   ],
   "note": "all quantum numbers"
  },
  {
   "property": "C45",
   "status": "proved",
   "theorems": [
    "QS.Props.C45_quantum_numbers",
    "QS.Props.C45_table"
   ],
   "note": "quantum numbers and table, all sizes"
  },
  {
   "property": "C46",
   "status": "proved",
   "theorems": [
    "QS.Props.C46_formula",
    "QS.Props.C46_table"
   ],
   "note": "refinement of the loops to the closed Anisimovas-Matulis sum; factorials exact"
  },
  {
   "property": "C47",
   "status": "proved",
   "theorems": [
    "QS.Props.C47_cos",
    "QS.Props.C47_sin",
    "QS.Props.C47_abs_cos",
    "QS.Props.C47_abs_sin"
   ],
   "note": "against the integrals over the angle"
  },
  {
   "property": "C48",
   "status": "partial",
   "theorems": [
    "QS.Props.C48_actual",
    "QS.Props.C48_false",
    "QS.Props.C48_partial"
   ],
   "note": "false as stated (C48_false); C48_actual says which elements the functions return; C48_partial is the part that holds"
  },
  {
   "property": "C49",
   "status": "proved",
   "theorems": [
    "QS.Props.C49_dipole"
   ],
   "note": "against the integrals over the plane"
  },
  {
   "property": "C50",
   "status": "proved",
   "theorems": [
    "QS.Props.C50_hermitian",
    "QS.Props.C50_no_barrier",
    "QS.Props.C50_matrix_elements",
    "QS.Props.C50_mass",
    "QS.Props.C50_basis_set"
   ],
   "note": "against the integrals over the plane"
  },
  {
   "property": "C51",
   "status": "proved",
   "theorems": [
    "QS.Props.C51_lowest",
    "QS.Props.C51_one_body",
    "QS.Props.C51_constructed"
   ],
   "note": "all fields; the object is constructed whenever l >= 1 and sqrt(omega_0^2 + omega_c^2/4) >= 2e-6 (C51_constructed)"
  },
  {
   "property": "C52",
   "status": "partial",
   "theorems": [
    "QS.Props.C52_false",
    "QS.Props.C52_agrees",
    "QS.Props.C52_partial"
   ],
   "note": "false as stated (C52_false): for a tiny frequency the constructor raises IndexError; C52_agrees: whenever it is constructed, C52_partial: all frequencies of at least 2e-6"
  },
  {
   "property": "C53",
   "status": "proved",
   "theorems": [
    "QS.Props.C53_transparent",
    "QS.Props.C53_steps"
   ],
   "note": "all histories of complete calls, by induction; also removals of files and changes of sys.path[0]"
  },
  {
   "property": "C54",
   "status": "proved",
   "theorems": [
    "QS.Props.C54_interrupted",
    "QS.Props.C54_no_wrong_elements"
   ],
   "note": "all histories with interruptions after any number of steps; a later call may raise (C74)"
  },
  {
   "property": "C55",
   "status": "proved",
   "theorems": [
    "QS.Props.C55_elements",
    "QS.Props.C55_symmetric",
    "QS.Props.C55_odho",
    "QS.Props.C55_odqd"
   ],
   "note": "all grids, functions, alpha and a (a not 0 for the symmetry of the grid sums in the classes)"
  },
  {
   "property": "C56",
   "status": "proved",
   "theorems": [
    "QS.Props.C56_functions",
    "QS.Props.C56_lowest"
   ],
   "note": "np.linalg.eigh is a parameter assumed to return orthonormal eigenvectors in ascending order, and shown to exist; also completeness: the functions are the lowest ones"
  },
  {
   "property": "C57",
   "status": "proved",
   "theorems": [
    "QS.Props.C57_dipole"
   ],
   "note": "all l, grids and beta"
  },
  {
   "property": "C58",
   "status": "proved",
   "theorems": [
    "QS.Props.C58_elements"
   ],
   "note": "all l and omega > 0"
  },
  {
   "property": "C59",
   "status": "proved",
   "theorems": [
    "QS.Props.C59_functions"
   ],
   "note": "Every object made by the constructor; symmetry and reality of h include the potential diagonal."
  },
  {
   "property": "C60",
   "status": "proved",
   "theorems": [
    "QS.Props.C60_transform",
    "QS.Props.C60_spin",
    "QS.Props.C60_change_basis",
    "QS.Props.C60_constructor"
   ],
   "note": "Elements, dtype and shape; also change_basis as a whole and the objects of the constructor."
  },
  {
   "property": "C61",
   "status": "partial",
   "theorems": [
    "QS.Props.C61_actual",
    "QS.Props.C61_false",
    "QS.Props.C61_partial"
   ],
   "note": "The claim is false: set_u_repr assigns nothing (C61_false, C61_actual). Proved when the requested representation is the current one."
  },
  {
   "property": "C62",
   "status": "partial",
   "theorems": [
    "QS.Props.C62_actual_system",
    "QS.Props.C62_actual",
    "QS.Props.C62_false",
    "QS.Props.C62_false_elements",
    "QS.Props.C62_partial"
   ],
   "note": "The claim is false in both parts (C62_false, C62_false_elements, C62_actual_system, C62_actual). Proved for the 4d representation."
  },
  {
   "property": "C63",
   "status": "partial",
   "theorems": [
    "QS.Props.C63_actual",
    "QS.Props.C63_false",
    "QS.Props.C63_partial",
    "QS.Props.C63_not_offered"
   ],
   "note": "The claim is false: SymmetricDWPotential fails (C63_false, C63_not_offered). Proved for all the other potentials and all parameters."
  },
  {
   "property": "C64",
   "status": "partial",
   "theorems": [
    "QS.Props.C64_even",
    "QS.Props.C64_actual",
    "QS.Props.C64_false",
    "QS.Props.C64_partial",
    "QS.Props.C64_only_minima"
   ],
   "note": "The claim is false for negative l (C64_false, C64_actual). Proved for l > 0."
  },
  {
   "property": "C65",
   "status": "proved",
   "theorems": [
    "QS.Props.C65_symmetries"
   ],
   "note": "All outcomes of the random generator."
  },
  {
   "property": "C66",
   "status": "partial",
   "theorems": [
    "QS.Props.C66_false",
    "QS.Props.C66_cast_partial",
    "QS.Props.C66_module",
    "QS.Props.C66_succeeds"
   ],
   "note": "The literal claim is false: the grid stays real (C66_false). Proved for all other attributes; change_module in full."
  },
  {
   "property": "C67",
   "status": "proved",
   "theorems": [
    "QS.Props.C67_sample",
    "QS.Props.C67_sample_raises",
    "QS.Props.C67_dump_unsaved",
    "QS.Props.C67_dump_saved",
    "QS.Props.C67_returned",
    "QS.Props.C67_survives",
    "QS.Props.C67_overwritten"
   ],
   "note": "All samplers (arbitrary effects on all dictionaries and files), all histories, including calls that raise."
  },
  {
   "property": "C68",
   "status": "proved",
   "theorems": [
    "QS.Props.C68_symmetry",
    "QS.Props.C68_ao",
    "QS.Props.C68_ao_spin",
    "QS.Props.C68_rhf",
    "QS.Props.C68_rhf_spin"
   ],
   "note": "PySCF's integrals and coefficients are parameters."
  },
  {
   "property": "C69",
   "status": "partial",
   "theorems": [
    "QS.Props.C69_actual",
    "QS.Props.C69_false",
    "QS.Props.C69_partial"
   ],
   "note": "The claim is false: odd electron numbers raise AssertionError (C69_false, C69_actual). Proved for all even numbers that fit into the basis."
  },
  {
   "property": "C70",
   "status": "proved",
   "theorems": [
    "QS.Props.C70_spin_delta",
    "QS.Props.C70_delta"
   ],
   "note": ""
  },
  {
   "property": "C71",
   "status": "partial",
   "theorems": [
    "QS.Props.C71_actual",
    "QS.Props.C71_false"
   ],
   "note": "false as stated (C71_false); C71_actual: the constructor raises for all arguments"
  },
  {
   "property": "C72",
   "status": "proved",
   "theorems": [
    "QS.Props.C72_orthonormal",
    "QS.Props.C72_overlap"
   ],
   "note": ""
  },
  {
   "property": "C73",
   "status": "partial",
   "theorems": [
    "QS.Props.C73_actual",
    "QS.Props.C73_false",
    "QS.Props.C73_partial"
   ],
   "note": "false as stated (C73_false); proved: what every such call does, and that any chain of basis changes succeeds without spin matrices or with square coefficient matrices"
  },
  {
   "property": "C75",
   "status": "proved",
   "theorems": [
    "QS.Props.C75_one_body"
   ],
   "note": ""
  },
  {
   "property": "C76",
   "status": "proved",
   "theorems": [
    "QS.Props.C76_matrix_elements"
   ],
   "note": ""
  },
  {
   "property": "C77",
   "status": "proved",
   "theorems": [
    "QS.Props.C77_hermitian",
    "QS.Props.C77_matrix_elements"
   ],
   "note": ""
  },
  {
   "property": "C74",
   "status": "partial",
   "theorems": [
    "QS.Props.C74_actual",
    "QS.Props.C74_false",
    "QS.Props.C74_partial"
   ],
   "note": "false as stated (C74_false): a half-written file makes later calls raise EOFError or ValueError (C74_actual); C74_partial: interruptions before the file is opened or after it is written"
  },
  {
   "property": "C78",
   "status": "partial",
   "theorems": [
    "QS.Props.C78_partial",
    "QS.Props.C78_false"
   ],
   "note": "false as stated (C78_false): with two writers a third process can load a file with a hole; C78_partial: all interleavings in which no cache file is opened for writing twice"
  },
  {
   "property": "C79",
   "status": "proved",
   "theorems": [
    "QS.Props.C79_exact"
   ],
   "note": "integrals over the real line; Hermite functions by their recurrence"
  },
  {
   "property": "C80",
   "status": "proved",
   "theorems": [
    "QS.Props.C80_rejects"
   ],
   "note": "all l, grids and potentials"
  },
  {
   "property": "C81",
   "status": "partial",
   "theorems": [
    "QS.Props.C81_actual",
    "QS.Props.C81_false",
    "QS.Props.C81_partial"
   ],
   "note": "false as stated (C81_false): ODHO ignores beta (C81_actual); C81_partial: beta = 0"
  },
  {
   "property": "C82",
   "status": "proved",
   "theorems": [
    "QS.Props.C82_elements",
    "QS.Props.C82_hamiltonian"
   ],
   "note": "Elements and action on all linear combinations; np.sinc and np.pi are the real functions."
  },
  {
   "property": "C83",
   "status": "partial",
   "theorems": [
    "QS.Props.C83_actual",
    "QS.Props.C83_partial",
    "QS.Props.C83_false"
   ],
   "note": "The claim is false for masses other than one: the code scales by sqrt(omega), the integral by sqrt(mass*omega) (C83_false, C83_actual). Proved for unit mass, including integrability of the integrand."
  },
  {
   "property": "C84",
   "status": "proved",
   "theorems": [
    "QS.Props.C84_magnetic"
   ],
   "note": "Includes integrability; the factor 1/sqrt(mass) is part of the statement."
  },
  {
   "property": "C85",
   "status": "proved",
   "theorems": [
    "QS.Props.C85_direct_exchange"
   ],
   "note": "By the Cauchy-Schwarz inequality for the Coulomb integrals of C83."
  },
  {
   "property": "C86",
   "status": "proved",
   "theorems": [
    "QS.Props.C86_odqd",
    "QS.Props.C86_odho"
   ],
   "note": "ODQD and ODHO; positivity of direct elements for ODQD with alpha > 0."
  },
  {
   "property": "C87",
   "status": "proved",
   "theorems": [
    "QS.Props.C87_spectrum"
   ],
   "note": "Pointwise eigenvalue equation, strict ordering, lower and upper bound, for every eigensolver that fulfils the eigh contract."
  },
  {
   "property": "C88",
   "status": "proved",
   "theorems": [
    "QS.Props.C88_odqd",
    "QS.Props.C88_odho"
   ],
   "note": "ODQD with any even potential and ODHO."
  },
  {
   "property": "C89",
   "status": "partial",
   "theorems": [
    "QS.Props.C89_actual",
    "QS.Props.C89_partial",
    "QS.Props.C89_closed_shell",
    "QS.Props.C89_false"
   ],
   "note": "The claim is false: elements of the density matrix between different spins are counted (C89_false, C89_actual). Proved for spin-diagonal density matrices and for doubled spatial density matrices."
  },
  {
   "property": "C90",
   "status": "proved",
   "theorems": [
    "QS.Props.C90_energy",
    "QS.Props.C90_fock"
   ],
   "note": "Both system kinds, any rectangular C and C_tilde."
  },
  {
   "property": "C91",
   "status": "proved",
   "theorems": [
    "QS.Props.C91_odqd",
    "QS.Props.C91_odho",
    "QS.Props.C91_tdho",
    "QS.Props.C91_double_well",
    "QS.Props.C91_magnetic",
    "QS.Props.C91_sinc",
    "QS.Props.C91_random",
    "QS.Props.C91_usable"
   ],
   "note": "All constructors; TwoDimHarmonicOscB for every call that returns (C51 says when), ODSincDVR in the 4d representation."
  },
  {
   "property": "C92",
   "status": "proved",
   "theorems": [
    "QS.Props.C92_history",
    "QS.Props.C92_elements",
    "QS.Props.C92_odqd",
    "QS.Props.C92_odho",
    "QS.Props.C92_tdho",
    "QS.Props.C92_magnetic",
    "QS.Props.C92_double_well",
    "QS.Props.C92_sinc",
    "QS.Props.C92_double_well_bound"
   ],
   "note": "Positivity of u and the lower bound of h for every constructor (for the double well the bound of the completed square) and, by induction, after any history of operations."
  },
  {
   "property": "C93",
   "status": "proved",
   "theorems": [
    "QS.Props.C93_energy",
    "QS.Props.C93_per_particle",
    "QS.Props.C93_tdho"
   ],
   "note": "Both system kinds, any history; corollary for quantum dots."
  },
  {
   "property": "C94",
   "status": "proved",
   "theorems": [
    "QS.Props.C94_fock",
    "QS.Props.C94_orbital_energies"
   ],
   "note": "Both system kinds, with and without a buffer; orbital energies."
  },
  {
   "property": "C95",
   "status": "partial",
   "theorems": [
    "QS.Props.C95_odho",
    "QS.Props.C95_odqd",
    "QS.Props.C95_sinc",
    "QS.Props.C95_tdho",
    "QS.Props.C95_double_well",
    "QS.Props.C95_actual",
    "QS.Props.C95_field_changes",
    "QS.Props.C95_false",
    "QS.Props.C95_partial"
   ],
   "note": "False in a magnetic field: every call of setup_basis of TwoDimHarmonicOscB adds omega_c^2/4 to the squared frequency (C95_actual: closed form after any number of calls, C95_false). Proved for the five other classes and for zero field."
  },
  {
   "property": "C96",
   "status": "partial",
   "theorems": [
    "QS.Props.C96_actual",
    "QS.Props.C96_false",
    "QS.Props.C96_partial"
   ],
   "note": "False: change_to_general_orbital_basis stores the spinors in the attributes a and b (C96_actual, C96_false). Proved for every other operation, whether it returns or raises."
  },
  {
   "property": "C97",
   "status": "proved",
   "theorems": [
    "QS.Props.C97_odho",
    "QS.Props.C97_odqd",
    "QS.Props.C97_sinc",
    "QS.Props.C97_tdho",
    "QS.Props.C97_double_well",
    "QS.Props.C97_magnetic",
    "QS.Props.C97_random",
    "QS.Props.C97_tdho_consistent",
    "QS.Props.C97_double_well_consistent"
   ],
   "note": "Seven constructors, returning or raising; the two-dimensional dots stay complete and consistent with every setting."
  },
  {
   "property": "C98",
   "status": "proved",
   "theorems": [
    "QS.Props.C98_sum",
    "QS.Props.C98_koopmans",
    "QS.Props.C98_pair"
   ],
   "note": "Both classes of system."
  },
  {
   "property": "C99",
   "status": "proved",
   "theorems": [
    "QS.Props.C99_expansion",
    "QS.Props.C99_gradient",
    "QS.Props.C99_brillouin",
    "QS.Props.C99_stationary_iff"
   ],
   "note": "Exact second-order expansion; derivative along every differentiable curve; stationarity iff the occupied-virtual blocks vanish."
  },
  {
   "property": "C100",
   "status": "proved",
   "theorems": [
    "QS.Props.C100_fock",
    "QS.Props.C100_general",
    "QS.Props.C100_tdho",
    "QS.Props.C100_double_well",
    "QS.Props.C100_magnetic",
    "QS.Props.C100_odho",
    "QS.Props.C100_odqd"
   ],
   "note": "Selection rules of all dots but the sinc DVR, spin doubling, and the Fock matrices built from them."
  },
  {
   "property": "C101",
   "status": "proved",
   "theorems": [
    "QS.Props.C101_conserved",
    "QS.Props.C101_orthonormal",
    "QS.Props.C101_fock_diagonal",
    "QS.Props.C101_fock_closed_shell"
   ],
   "note": "Any spin basis, any invertible overlap matrix; Fock matrices of all occupations and of closed shells."
  },
  {
   "property": "C102",
   "status": "proved",
   "theorems": [
    "QS.Props.C102_spin_2_tb",
    "QS.Props.C102_independent",
    "QS.Props.C102_rotated",
    "QS.Props.C102_spin_2"
   ],
   "note": "Includes the closed form of spin_2_tb for every orthonormal spin basis."
  },
  {
   "property": "C103",
   "status": "proved",
   "theorems": [
    "QS.Props.C103_dipole",
    "QS.Props.C103_double_well",
    "QS.Props.C103_magnetic",
    "QS.Props.C103_shells"
   ],
   "note": "Radial integrals via L_n^k = L_n^{k+1} - L_{n-1}^{k+1} and orthogonality; oscillator, double well, magnetic field."
  },
  {
   "property": "C104",
   "status": "proved",
   "theorems": [
    "QS.Props.C104_two_dim",
    "QS.Props.C104_magnetic",
    "QS.Props.C104_one_dim"
   ],
   "note": "Diagonal sum rule for the three oscillators."
  },
  {
   "property": "C105",
   "status": "proved",
   "theorems": [
    "QS.Props.C105_change_basis",
    "QS.Props.C105_integral",
    "QS.Props.C105_bounds",
    "QS.Props.C105_odqd",
    "QS.Props.C105_odho",
    "QS.Props.C105_two_dim",
    "QS.Props.C105_magnetic",
    "QS.Props.C105_sinc"
   ],
   "note": "OfFunctions for the six constructors, its preservation by change_basis, the integrals and the bounds. Spin doubling does not keep it (see C89)."
  },
  {
   "property": "C106",
   "status": "proved",
   "theorems": [
    "QS.Props.C106_determinants",
    "QS.Props.C106_antisymmetrised",
    "QS.Props.C106_general",
    "QS.Props.C106_general_fock",
    "QS.Props.C106_brillouin",
    "QS.Props.C106_spatial",
    "QS.Props.C106_spatial_fock",
    "QS.Props.C106_doubled",
    "QS.Props.C106_variational",
    "QS.Props.C106_variational_general"
   ],
   "note": "Slater-Condon rules proved from the definition of the determinant, for wave functions as functions of N indices."
  },
  {
   "property": "C107",
   "status": "proved",
   "theorems": [
    "QS.Props.C107_hamiltonian",
    "QS.Props.C107_matrix_elements",
    "QS.Props.C107_spectrum",
    "QS.Props.C107_truncation",
    "QS.Props.C107_energy",
    "QS.Props.C107_spatial_energy"
   ],
   "note": "All N by products of one-particle operators; two-body elements as sums of products of matrix units."
  },
  {
   "property": "C108",
   "status": "proved",
   "theorems": [
    "QS.Props.C108_conserved",
    "QS.Props.C108_algebra",
    "QS.Props.C108_squared",
    "QS.Props.C108_reference",
    "QS.Props.C108_projection"
   ],
   "note": "Uses first-quantised operators from Spec/ManyBody. The overlap must be the identity; C20 and C21 show what happens otherwise."
  },
  {
   "property": "C109",
   "status": "proved",
   "theorems": [
    "QS.Props.C109_deterministic",
    "QS.Props.C109_terminates",
    "QS.Props.C109_progress",
    "QS.Props.C109_completes",
    "QS.Props.C109_race_free",
    "QS.Props.C109_entries"
   ],
   "note": "Steps are assignments of private variables, loop tests and writes of one entry; writes of one entry are atomic; exact arithmetic (fastmath reassociation has no effect)."
  },
  {
   "property": "C110",
   "status": "proved",
   "theorems": [
    "QS.Props.C110_one_body",
    "QS.Props.C110_two_body",
    "QS.Props.C110_hermitian",
    "QS.Props.C110_energy",
    "QS.Props.C110_energy_after_change",
    "QS.Props.C110_fock",
    "QS.Props.C110_antisymmetric",
    "QS.Props.C110_exact"
   ],
   "note": "Standard model of floating-point arithmetic: no overflow, underflow or NaN. For complex numbers u is a multiple of the unit roundoff."
  },
  {
   "property": "C111",
   "status": "proved",
   "theorems": [
    "QS.Props.C111_indices_nm",
    "QS.Props.C111_terminates",
    "QS.Props.C111_index_p"
   ],
   "note": "Floats are rational numbers after a rounding function."
  },
  {
   "property": "C112",
   "status": "proved",
   "theorems": [
    "QS.Props.C112_overlap",
    "QS.Props.C112_kinetic",
    "QS.Props.C112_state",
    "QS.Props.C112_projection"
   ],
   "note": "Lebesgue integrals over the real line; integrability is part of the statements."
  },
  {
   "property": "C113",
   "status": "proved",
   "theorems": [
    "QS.Props.C113_second_order",
    "QS.Props.C113_limit"
   ],
   "note": "Exact arithmetic; the constant is not made explicit."
  },
  {
   "property": "C114",
   "status": "proved",
   "theorems": [
    "QS.Props.C114_level",
    "QS.Props.C114_above",
    "QS.Props.C114_ground"
   ],
   "note": "psi four times continuously differentiable; six times for the statement about the lowest level. eigh is assumed to return sorted eigenvalues and orthonormal eigenvectors."
  },
  {
   "property": "C115",
   "status": "proved",
   "theorems": [
    "QS.Props.C115_rate",
    "QS.Props.C115_converge",
    "QS.Props.C115_levels",
    "QS.Props.C115_potentials",
    "QS.Props.C115_empty_box"
   ],
   "note": "Convergence needs no smoothness beyond continuity; the rate (C115_rate) needs four continuous derivatives of the solution. eigh is assumed to return sorted eigenvalues and orthonormal eigenvectors."
  },
  {
   "property": "C116",
   "status": "proved",
   "theorems": [
    "QS.Props.C116_converge",
    "QS.Props.C116_phase_free"
   ],
   "note": "The phases are those that eigh happens to choose; they depend on the grid only. No rate. a = 0 is excluded, as the integrals diverge."
  },
  {
   "property": "C117",
   "status": "proved",
   "theorems": [
    "QS.Props.C117_nodes",
    "QS.Props.C117_ground",
    "QS.Props.C117_parity"
   ],
   "note": "eigh is assumed to return exact sorted eigenvalues and orthonormal eigenvectors."
  },
  {
   "property": "C118",
   "status": "proved",
   "theorems": [
    "QS.Props.C118_above",
    "QS.Props.C118_energies"
   ],
   "note": "eigh is assumed to return exact sorted eigenvalues and orthonormal eigenvectors."
  },
  {
   "property": "C119",
   "status": "proved",
   "theorems": [
    "QS.Props.C119_limit",
    "QS.Props.C119_moduli"
   ],
   "note": "eigh is assumed to return exact sorted eigenvalues and orthonormal eigenvectors. beta = 0 for ODQD because ODHO ignores beta in its dipole elements."
  },
  {
   "property": "C120",
   "status": "proved",
   "theorems": [
    "QS.Props.C120_count",
    "QS.Props.C120_exist",
    "QS.Props.C120_unitary",
    "QS.Props.C120_truncation",
    "QS.Props.C120_perturbation",
    "QS.Props.C120_spin_perturbation",
    "QS.Props.C120_reference",
    "QS.Props.C120_general_reference",
    "QS.Props.C120_electrons"
   ],
   "note": "Exact arithmetic over the complex numbers. The energies are those of the N-body operator of Spec/ManyBody on antisymmetric wave functions."
  },
  {
   "property": "C121",
   "status": "proved",
   "theorems": [
    "QS.Props.C121_box",
    "QS.Props.C121_oscillators",
    "QS.Props.C121_line",
    "QS.Props.C121_grid_line"
   ],
   "note": "eigh is assumed to return exact sorted eigenvalues and orthonormal eigenvectors. The number of orbitals l is fixed while the grid is refined: the limit of a complete basis is not considered."
  },
  {
   "property": "C122",
   "status": "proved",
   "theorems": [
    "QS.Props.C122_monotone",
    "QS.Props.C122_electrons",
    "QS.Props.C122_zero_point",
    "QS.Props.C122_history",
    "QS.Props.C122_aufbau",
    "QS.Props.C122_reference",
    "QS.Props.C122_odho",
    "QS.Props.C122_odqd",
    "QS.Props.C122_tdho"
   ],
   "note": "Exact arithmetic; eigh is assumed to return exact sorted eigenvalues and orthonormal eigenvectors. The two-dimensional dot uses the exact value of the Coulomb table (C83)."
  },
  {
   "property": "C123",
   "status": "proved",
   "theorems": [
    "QS.Props.C123_energies",
    "QS.Props.C123_odho",
    "QS.Props.C123_odqd",
    "QS.Props.C123_odho_limit",
    "QS.Props.C123_tdho",
    "QS.Props.C123_tdho_limit",
    "QS.Props.C123_magnetic",
    "QS.Props.C123_magnetic_limit",
    "QS.Props.C123_magnetic_without",
    "QS.Props.C123_double_well_limit"
   ],
   "note": "Nestedness for the five classes of quantum dots, fall of all energies with the number of functions, existence and bounds of the limits; the exception for omega = 0 and omega_c < 0."
  },
  {
   "property": "C124",
   "status": "partial",
   "theorems": [
    "QS.Props.C124_false",
    "QS.Props.C124_actual",
    "QS.Props.C124_partial",
    "QS.Props.C124_tdho"
   ],
   "note": "False as stated; C124_false and C124_actual say what happens from function 151 on, C124_partial gives the accuracy up to 150, C124_tdho the two-dimensional normalisation."
  },
  {
   "property": "C125",
   "status": "proved",
   "theorems": [
    "QS.Props.C125_conserved",
    "QS.Props.C125_count",
    "QS.Props.C125_unique",
    "QS.Props.C125_nondegenerate",
    "QS.Props.C125_lowest",
    "QS.Props.C125_transitions",
    "QS.Props.C125_electrons",
    "QS.Props.C125_tdho",
    "QS.Props.C125_magnetic",
    "QS.Props.C125_double_well",
    "QS.Props.C125_odho",
    "QS.Props.C125_odqd"
   ],
   "note": "LabelledSpectrum adds the totals to Spectrum (C120); the dots are quantified over all parameters. The mirror symmetry needs complete shells (otherwise the orbital with the opposite m can be missing)."
  },
  {
   "property": "C126",
   "status": "proved",
   "theorems": [
    "QS.Props.C126_element",
    "QS.Props.C126_zero",
    "QS.Props.C126_table",
    "QS.Props.C126_limit",
    "QS.Props.C126_permitted",
    "QS.Props.C126_loss",
    "QS.Props.C126_double"
   ],
   "note": "Standard model of rounding without overflow and underflow; log, exp and lgamma are assumed to have relative errors of at most u. The loss of accuracy says what the error model permits, not what a given processor computes. Distributing products over sums, which fastmath may also do, is not modelled."
  },
  {
   "property": "C127",
   "status": "proved",
   "theorems": [
    "QS.Props.C127_unitary",
    "QS.Props.C127_totals",
    "QS.Props.C127_ehrenfest",
    "QS.Props.C127_energy",
    "QS.Props.C127_overlap",
    "QS.Props.C127_stationary",
    "QS.Props.C127_driven",
    "QS.Props.C127_switched",
    "QS.Props.C127_laser",
    "QS.Props.C127_switching",
    "QS.Props.C127_custom",
    "QS.Props.C127_change",
    "QS.Props.C127_change_laser",
    "QS.Props.C127_tdho"
   ],
   "note": "The equation of motion is the exact one in the space of the basis functions; integrators (not part of the code) are not modelled. Plain pulses with plain polarisations are excluded because C36 is false for them. The statement about changes of basis is for square matrices and, tied to the code, for laser fields."
  },
  {
   "property": "C128",
   "status": "proved",
   "theorems": [
    "QS.Props.C128_slow",
    "QS.Props.C128_switched",
    "QS.Props.C128_bound",
    "QS.Props.C128_switching",
    "QS.Props.C128_switching_general",
    "QS.Props.C128_simple",
    "QS.Props.C128_level",
    "QS.Props.C128_reference",
    "QS.Props.C128_tdho"
   ],
   "note": "The equation of motion is the exact one in the space of the basis functions (no integrator is part of the code). The levels are simple levels; degenerate levels are excluded by the hypothesis."
  },
  {
   "property": "C129",
   "status": "proved",
   "theorems": [
    "QS.Props.C129_motion",
    "QS.Props.C129_population",
    "QS.Props.C129_mean",
    "QS.Props.C129_laser",
    "QS.Props.C129_odho"
   ],
   "note": "The equation of motion is the exact one in the space of the basis functions, in exact arithmetic; the limit is that of box and grid with a fixed number of functions, and a callable pulse or polarisation is assumed (see C36)."
  },
  {
   "property": "C130",
   "status": "proved",
   "theorems": [
    "QS.Props.C130_elements",
    "QS.Props.C130_dipole",
    "QS.Props.C130_symmetric",
    "QS.Props.C130_odqd",
    "QS.Props.C130_limit",
    "QS.Props.C130_double",
    "QS.Props.C130_exact"
   ],
   "note": "The standard model of rounding without overflow and underflow: every operation, the square root included, has a relative error of at most u; the single-particle functions are given numbers, i.e. errors of numpy.linalg.eigh are not included."
  },
  {
   "property": "C131",
   "status": "proved",
   "theorems": [
    "QS.Props.C131_energies",
    "QS.Props.C131_oscillator",
    "QS.Props.C131_total",
    "QS.Props.C131_best",
    "QS.Props.C131_collapse",
    "QS.Props.C131_exact"
   ],
   "note": "The standard model of rounding without overflow and underflow; backward stability of eigh (LAPACK) is the assumption about the library. The total error is stated for levels whose wave function has four continuous derivatives."
  },
  {
   "property": "C132",
   "status": "proved",
   "theorems": [
    "QS.Props.C132_center",
    "QS.Props.C132_moves",
    "QS.Props.C132_rhf",
    "QS.Props.C132_rhf_spin",
    "QS.Props.C132_moved",
    "QS.Props.C132_total",
    "QS.Props.C132_laser",
    "QS.Props.C132_origins"
   ],
   "note": "PySCF's integrals are parameters; the assumption about set_common_orig_ (the integrals about R are <i|r - R|j>) is a hypothesis."
  },
  {
   "property": "C133",
   "status": "proved",
   "theorems": [
    "QS.Props.C133_eigenvectors",
    "QS.Props.C133_odqd",
    "QS.Props.C133_absolute",
    "QS.Props.C133_doubled",
    "QS.Props.C133_system",
    "QS.Props.C133_electrons",
    "QS.Props.C133_reference",
    "QS.Props.C133_reference_spin",
    "QS.Props.C133_open"
   ],
   "note": "C133_open is the counterexample without the gap."
  },
  {
   "property": "C134",
   "status": "proved",
   "theorems": [
    "QS.Props.C134_concave",
    "QS.Props.C134_field",
    "QS.Props.C134_symmetric",
    "QS.Props.C134_switched",
    "QS.Props.C134_laser",
    "QS.Props.C134_custom",
    "QS.Props.C134_switching",
    "QS.Props.C134_tdho",
    "QS.Props.C134_double_well",
    "QS.Props.C134_magnetic",
    "QS.Props.C134_odho",
    "QS.Props.C134_odqd"
   ],
   "note": "For LaserField one of pulse and polarisation must be callable, as in C127 (see C36)."
  },
  {
   "property": "C135",
   "status": "proved",
   "theorems": [
    "QS.Props.C135_per_particle",
    "QS.Props.C135_per_pair",
    "QS.Props.C135_electrons",
    "QS.Props.C135_physical",
    "QS.Props.C135_reference",
    "QS.Props.C135_general_reference"
   ],
   "note": "Repulsive means that the two-body elements are those of a positive operator on pairs; C92 proves it for the dots."
  },
  {
   "property": "C136",
   "status": "proved",
   "theorems": [
    "QS.Props.C136_near",
    "QS.Props.C136_driven",
    "QS.Props.C136_laser",
    "QS.Props.C136_custom"
   ],
   "note": "The arrays h_t and u_t are those the system answers with; the Schroedinger equation of N electrons with them is solved exactly. For LaserField one of pulse and polarisation must be callable, as in C127 (see C36)."
  },
  {
   "property": "C137",
   "status": "proved",
   "theorems": [
    "QS.Props.C137_field",
    "QS.Props.C137_weak",
    "QS.Props.C137_returns",
    "QS.Props.C137_bound",
    "QS.Props.C137_laser",
    "QS.Props.C137_tdho"
   ],
   "note": "For LaserField one of pulse and polarisation must be callable, as in C127 (see C36)."
  },
  {
   "property": "C138",
   "status": "proved",
   "theorems": [
    "QS.Props.C138_odho",
    "QS.Props.C138_odqd",
    "QS.Props.C138_sinc",
    "QS.Props.C138_tdho",
    "QS.Props.C138_double_well",
    "QS.Props.C138_change",
    "QS.Props.C138_doubled",
    "QS.Props.C138_system",
    "QS.Props.C138_electrons",
    "QS.Props.C138_density",
    "QS.Props.C138_laser",
    "QS.Props.C138_potentials",
    "QS.Props.C138_fixed_units"
   ],
   "note": "Exact arithmetic. The class with a magnetic field rounds frequencies to eight decimals and fails for small ones (C52), so it is not included. For the two-dimensional classes the table of Coulomb elements is the same array in both objects. For LaserField one of pulse and polarisation must be callable (C36)."
  },
  {
   "property": "C139",
   "status": "proved",
   "theorems": [
    "QS.Props.C139_levels",
    "QS.Props.C139_size",
    "QS.Props.C139_tdho",
    "QS.Props.C139_double_well"
   ],
   "note": ""
  },
  {
   "property": "C140",
   "status": "proved",
   "theorems": [
    "QS.Props.C140_raises",
    "QS.Props.C140_early",
    "QS.Props.C140_constructor",
    "QS.Props.C140_late"
   ],
   "note": "lines after the failing call are an arbitrary parameter; np.linalg.eigh as in C56"
  },
  {
   "property": "C141",
   "status": "proved",
   "theorems": [
    "QS.Props.C141_call",
    "QS.Props.C141_history",
    "QS.Props.C141_change_basis",
    "QS.Props.C141_change_basis_keeps",
    "QS.Props.C141_general",
    "QS.Props.C141_general_twice",
    "QS.Props.C141_copy",
    "QS.Props.C141_setter",
    "QS.Props.C141_same_module",
    "QS.Props.C141_bra",
    "QS.Props.C141_antisymmetrise",
    "QS.Props.C141_antisymmetrise_sinc"
   ],
   "note": "NumPy rules used: conj of a real array and asarray within one module return the same object, all other operations used make a new one, deepcopy with one memo; slices and views are not modelled"
  },
  {
   "property": "C142",
   "status": "proved",
   "theorems": [
    "QS.Props.C142_step",
    "QS.Props.C142_loop",
    "QS.Props.C142_buffer_h",
    "QS.Props.C142_h_t",
    "QS.Props.C142_u_t",
    "QS.Props.C142_live_h",
    "QS.Props.C142_new_h",
    "QS.Props.C142_live_u",
    "QS.Props.C142_new_u",
    "QS.Props.C142_write_h",
    "QS.Props.C142_write_u"
   ],
   "note": "Array objects of basis sets as references (the model of C141), one level up: systems and operators. The arrays an operator object holds are values."
  },
  {
   "property": "C143",
   "status": "proved",
   "theorems": [
    "QS.Props.C143_stored",
    "QS.Props.C143_smallest",
    "QS.Props.C143_count",
    "QS.Props.C143_unique",
    "QS.Props.C143_consistent",
    "QS.Props.C143_tdho",
    "QS.Props.C143_magnetic",
    "QS.Props.C143_double_well",
    "QS.Props.C143_odho"
   ],
   "note": "Exact arithmetic. Factors in front of the two-body arrays: 1/2 for u and 1 for spin_2_tb, half of that when the arrays are anti-symmetrised. Existence of the states is proved, not computed by an eigensolver."
  },
  {
   "property": "C144",
   "status": "proved",
   "theorems": [
    "QS.Props.C144_kept",
    "QS.Props.C144_electrons",
    "QS.Props.C144_orbitals_laser",
    "QS.Props.C144_orbitals_switching",
    "QS.Props.C144_orbitals_custom",
    "QS.Props.C144_laser",
    "QS.Props.C144_switching",
    "QS.Props.C144_custom"
   ],
   "note": "Exact arithmetic, electrons as identical fermions. Exchange symmetry of the spatial u is needed for the anti-symmetrised array to be Hermitian; the classes of the package have it (C91). Factors in front of the two-body arrays as in C143. The motion is that of the Schroedinger equation, not of an integrator."
  },
  {
   "property": "C145",
   "status": "proved",
   "theorems": [
    "QS.Props.C145_odqd",
    "QS.Props.C145_complete",
    "QS.Props.C145_electrons",
    "QS.Props.C145_concave",
    "QS.Props.C145_sinc",
    "QS.Props.C145_box",
    "QS.Props.C145_potentials",
    "QS.Props.C145_deeper"
   ],
   "note": "Exact arithmetic. With fewer functions than inner points on both sides no order of the energies of several electrons is claimed, because ODQD then chooses different functions for the two potentials."
  },
  {
   "property": "C146",
   "status": "proved",
   "theorems": [
    "QS.Props.C146_single",
    "QS.Props.C146_sinc",
    "QS.Props.C146_odqd"
   ],
   "note": "Exact arithmetic; ODSincDVR with the four-index representation of u; ODQD with l = num_grid_points - 2. With fewer functions the position is cut to the chosen functions, so the double commutator is another one and nothing is claimed."
  },
  {
   "property": "C147",
   "status": "proved",
   "theorems": [
    "QS.Props.C147_flows",
    "QS.Props.C147_laser",
    "QS.Props.C147_switching"
   ],
   "note": "Exact arithmetic, l = num_grid_points - 2. With fewer functions the electrons cannot occupy single points and there is no such equation; nothing is claimed for them. The existence of a moving wave function is C127."
  },
  {
   "property": "C148",
   "status": "proved",
   "theorems": [
    "QS.Props.C148_rhf",
    "QS.Props.C148_spin",
    "QS.Props.C148_brillouin"
   ],
   "note": "Exact arithmetic; that PySCF has converged is a hypothesis (the equations of Roothaan and Hall), the code only warns if it has not. The existence of the Fock matrix of the spatial system needs the core Hamiltonian and the two-electron integrals to have the same dtype, as PySCF's have."
  },
  {
   "property": "C149",
   "status": "proved",
   "theorems": [
    "QS.Props.C149_odqd",
    "QS.Props.C149_laser",
    "QS.Props.C149_motion",
    "QS.Props.C149_sinc"
   ],
   "note": "Exact arithmetic; the eigenvalue solver enters through IsEigh (ascending eigenvalues, orthonormal eigenvectors)."
  },
  {
   "property": "C150",
   "status": "proved",
   "theorems": [
    "QS.Props.C150_mirrored",
    "QS.Props.C150_energies",
    "QS.Props.C150_cut"
   ],
   "note": "Exact arithmetic: states of equal energy are recognised as such by the sort. LevelsComplete is the condition that no level is cut; C150_cut shows that it is needed."
  },
  {
   "property": "C151",
   "status": "proved",
   "theorems": [
    "QS.Props.C151_laser",
    "QS.Props.C151_switching",
    "QS.Props.C151_transitions",
    "QS.Props.C151_odqd",
    "QS.Props.C151_odho",
    "QS.Props.C151_sinc",
    "QS.Props.C151_tdho",
    "QS.Props.C151_double_well",
    "QS.Props.C151_magnetic"
   ],
   "note": "The spins are left as they are: the elements do not act on them. When h_t and u_t answer like this is C36 and C37."
  },
  {
   "property": "C152",
   "status": "proved",
   "theorems": [
    "QS.Props.C152_frame",
    "QS.Props.C152_rotated",
    "QS.Props.C152_dipole",
    "QS.Props.C152_circular",
    "QS.Props.C152_mirrored",
    "QS.Props.C152_tdho",
    "QS.Props.C152_magnetic"
   ],
   "note": "When h_t and u_t answer like this is C36; that the functions have parities is C134."
  },
  {
   "property": "C153",
   "status": "partial",
   "theorems": [
    "QS.Props.C153_partial",
    "QS.Props.C153_doubled",
    "QS.Props.C153_energy",
    "QS.Props.C153_two_electrons",
    "QS.Props.C153_exchange",
    "QS.Props.C153_changed",
    "QS.Props.C153_false"
   ],
   "note": "False as stated (C153_false, by a spatial system the basis set of which is doubled by a later GeneralOrbitalSystem). Proved instead: C153_partial (SpatialOrbitalSystem never changes existing systems, GeneralOrbitalSystem does not if there is nothing to transform), and exactly what happens otherwise: C153_doubled, C153_energy, C153_two_electrons, C153_exchange, C153_changed."
  },
  {
   "property": "C154",
   "status": "proved",
   "theorems": [
    "QS.Props.C154_arises",
    "QS.Props.C154_history",
    "QS.Props.C154_constructors",
    "QS.Props.C154_operators",
    "QS.Props.C154_calls"
   ],
   "note": "C154_arises (invariant of all worlds that arise), C154_history (what every history keeps), C154_constructors, C154_operators (operators made by the constructors qualify), C154_calls (no NameError). Supplies the hypothesis World.Closed of C33_shared, C35_actual_shared and C153. Plain pulses and polarisations of LaserField are excluded on purpose: they share one variable (see C36)."
  },
  {
   "property": "C155",
   "status": "proved",
   "theorems": [
    "QS.Props.C155_values",
    "QS.Props.C155_reading"
   ],
   "note": "C155_values (what is read), C155_reading (nothing is changed by reading). Mutation of the returned arrays by the caller is the subject of C141 and C142."
  },
  {
   "property": "C156",
   "status": "proved",
   "theorems": [
    "QS.Props.C156_elements",
    "QS.Props.C156_energies",
    "QS.Props.C156_hermitian",
    "QS.Props.C156_interaction",
    "QS.Props.C156_functions",
    "QS.Props.C156_dipole",
    "QS.Props.C156_exact",
    "QS.Props.C156_exact_functions",
    "QS.Props.C156_electrons",
    "QS.Props.C156_oscillator"
   ],
   "note": "C156_elements, C156_energies, C156_oscillator, C156_electrons, C156_hermitian, C156_functions, C156_interaction, C156_dipole; C156_exact and C156_exact_functions show that the relations for h and spf are not empty. The energies are exact eigenvalues of the rounded matrix: the library does not diagonalise it, so no error of a diagonalisation is included."
  },
  {
   "property": "C157",
   "status": "proved",
   "theorems": [
    "QS.Props.C157_flows",
    "QS.Props.C157_laser",
    "QS.Props.C157_switching",
    "QS.Props.C157_speed"
   ],
   "note": "C157_flows (any elements h + F·dipole and c·u), C157_laser, C157_switching; C157_speed (the speed limit for beta = 0, from what the other three conclude). Only the 4d representation: with the 2d one u is no array of four indices and the claim has no two-body operator to speak of. That moving wave functions exist (for continuous functions of time) is C127."
  },
  {
   "property": "C158",
   "status": "proved",
   "theorems": [
    "QS.Props.C158_elements",
    "QS.Props.C158_mirror",
    "QS.Props.C158_dipole",
    "QS.Props.C158_laser",
    "QS.Props.C158_switching",
    "QS.Props.C158_parity",
    "QS.Props.C158_states",
    "QS.Props.C158_lowered",
    "QS.Props.C158_stark"
   ],
   "note": "C158_elements (both representations), C158_mirror, C158_dipole, C158_laser, C158_switching, C158_parity, C158_states, C158_lowered, C158_stark (opposite fields have the same energies: a field of SincMirrors); the claims on motion are for the 4d representation. C158_laser, C158_switching, C158_parity and C158_stark take the conclusions of C36_partial and C37_switching as hypotheses."
  }
 ]
}