{"id": "C01", "title": "One-body basis transformation", "statement": "transform_one_body_elements(h, C, C_tilde) returns, at every (p,q), sum_ab C_tilde[p,a] h[a,b] C[b,q]; leaving C_tilde out uses the conjugate transpose of C; incompatible shapes raise ValueError.", "quantifier": "all array sizes, all rectangular C and C_tilde, all values", "why_tests_cant": "Tests compare one random array of one size against einsum; the index wiring has to be right for every size, every rectangular shape and every value.", "anchors": ["quantum_systems/basis_set.py: BasisSet.transform_one_body_elements", "quantum_systems/system.py: QuantumSystem.transform_one_body_elements"]}
{"id": "C02", "title": "Two-body basis transformation", "statement": "transform_two_body_elements(u, C, C_tilde) returns, at every (p,q,r,s), sum_abcd C_tilde[p,a] C_tilde[q,b] u[a,b,c,d] C[c,r] C[d,s].", "quantifier": "all array sizes, all rectangular C and C_tilde, all values", "why_tests_cant": "Tests compare one random array of one size against einsum; the index wiring has to be right for every size, every rectangular shape and every value.", "anchors": ["quantum_systems/basis_set.py: BasisSet.transform_two_body_elements"]}
{"id": "C03", "title": "change_basis transforms every stored quantity", "statement": "After a successful change_basis(C, C_tilde), l is the number of columns of C and h, s, u, every dipole component, spf and bra_spf hold the transformed quantities of the old ones; everything else the call documents as untouched (grid, flags, nuclear repulsion) is unchanged.", "quantifier": "all basis sets, all C and C_tilde of matching shape", "why_tests_cant": "The method mutates ten attributes in sequence; one wrong order or one forgotten update only shows on particular sets of populated attributes.", "anchors": ["quantum_systems/basis_set.py: BasisSet.change_basis, _change_basis_*"]}
{"id": "C04", "title": "Composition of basis changes", "statement": "Calling change_basis(C1, D1) and then change_basis(C2, D2) leaves the same l, h, s, u, dipole moments, spf and bra_spf as one call change_basis(C1 C2, D2 D1), whenever both calls succeed; and they do succeed for every spatial basis set with matching shapes.", "quantifier": "all basis sets and all pairs of composable rectangular coefficient matrices", "why_tests_cant": "Is an equation between two histories, for all matrices.", "anchors": ["quantum_systems/basis_set.py: BasisSet.change_basis"]}
{"id": "C05", "title": "Basis changes can be undone", "statement": "If C_tilde C = 1 and C C_tilde = 1, change_basis(C, C_tilde) followed by change_basis(C_tilde, C) restores l, h, s, u, dipole moments, spf and bra_spf exactly; changing with the identity changes none of them.", "quantifier": "all basis sets, all invertible C", "why_tests_cant": "Round trip over all inputs.", "anchors": ["quantum_systems/basis_set.py: BasisSet.change_basis"]}
{"id": "C06", "title": "Symmetries survive a basis change", "statement": "With the default C_tilde, change_basis keeps h, s and every dipole component Hermitian, keeps u Hermitian (u[pqrs] = conj u[rspq]), keeps u[pqrs] = u[qpsr], and keeps u anti-symmetric in its last (and first) index pair, when they were so before.", "quantifier": "all basis sets with those symmetries, all rectangular C, all sequences of basis changes", "why_tests_cant": "Quantifies over all matrices and all sequences.", "anchors": ["quantum_systems/basis_set.py: BasisSet.change_basis"]}
{"id": "C07", "title": "Preview of transformed elements", "statement": "get_transformed_h(C) and get_transformed_u(C) do not change the basis set and return exactly what change_basis(C) would store in h and u.", "quantifier": "all basis sets, all C", "why_tests_cant": "Needs equality of two code paths on all inputs plus absence of side effects.", "anchors": ["quantum_systems/basis_set.py: BasisSet.get_transformed_h, get_transformed_u, change_basis"]}
{"id": "C08", "title": "Spin operators follow a basis change", "statement": "After change_basis the stored spin_x, spin_y, spin_z, spin_2 and spin_2_tb are the operators' matrix elements in the new basis.", "quantifier": "all spin-doubled basis sets, all C", "why_tests_cant": "Spin attributes are never inspected after a basis change by the tests; the claim is about all C.", "anchors": ["quantum_systems/basis_set.py: BasisSet._change_basis_one_body_elements, _change_basis_two_body_elements"]}
{"id": "C09", "title": "Axis lengths always match l", "statement": "After every successful sequence of public operations (setters, change_basis, change_to_general_orbital_basis, anti_symmetrize_two_body_elements, cast_to_complex, change_module, bra_spf reads) every populated matrix-element attribute has all axes equal to l, and spf/bra_spf have first axis l.", "quantifier": "all operation sequences of any length on all basis sets", "why_tests_cant": "An invariant over arbitrary histories.", "anchors": ["quantum_systems/basis_set.py: BasisSet setters and mutating methods"]}
{"id": "C10", "title": "Setters validate and are atomic", "statement": "Assigning h, u, s, dipole_moment, spf, bra_spf or a spin matrix succeeds exactly if the documented axis-length conditions hold (and, for spin matrices, includes_spin); a rejected assignment leaves the whole basis set unchanged and raises AssertionError (TypeError or IndexError for 0-dimensional dipole moments or functions, AttributeError or TypeError for None in place of matrix elements; None is accepted for the functions).", "quantifier": "all basis sets, all arrays", "why_tests_cant": "Both directions over all arrays, plus frame condition.", "anchors": ["quantum_systems/basis_set.py: property setters, check_axis_lengths"]}
{"id": "C11", "title": "A failing change_basis leaves the basis set usable", "statement": "If change_basis raises, the basis set is as it was before the call.", "quantifier": "all basis sets, all C, all points where the call can raise", "why_tests_cant": "Crash-point property.", "anchors": ["quantum_systems/basis_set.py: BasisSet.change_basis"]}
{"id": "C12", "title": "Spin doubling of one-body elements", "statement": "add_spin_one_body(h) has, at (2p+a, 2q+b), the value h[p,q] if a = b and 0 otherwise, and shape twice that of h.", "quantifier": "all sizes and values", "why_tests_cant": "Tests compare one random array of one size against einsum; the index wiring has to be right for every size, every rectangular shape and every value.", "anchors": ["quantum_systems/basis_set.py: BasisSet.add_spin_one_body"]}
{"id": "C13", "title": "Spin doubling of two-body elements", "statement": "add_spin_two_body(u) has, at (2p+a, 2q+b, 2r+c, 2s+d), the value u[p,q,r,s] if a = c and b = d, and 0 otherwise.", "quantifier": "all sizes and values", "why_tests_cant": "Tests compare one random array of one size against einsum; the index wiring has to be right for every size, every rectangular shape and every value.", "anchors": ["quantum_systems/basis_set.py: BasisSet.add_spin_two_body"]}
{"id": "C14", "title": "Anti-symmetrised two-body elements", "statement": "anti_symmetrize_u(u)[pqrs] = u[pqrs] - u[pqsr]; the result changes sign under exchange of the last two indices, and, if u[pqrs] = u[qpsr], under exchange of the first two.", "quantifier": "all sizes and values", "why_tests_cant": "Tests compare one random array of one size against einsum; the index wiring has to be right for every size, every rectangular shape and every value.", "anchors": ["quantum_systems/basis_set.py: BasisSet.anti_symmetrize_u"]}
{"id": "C15", "title": "Anti-symmetrisation happens once", "statement": "anti_symmetrize_two_body_elements called any number of times (at least once) on a basis set has the effect of calling it once: u is u[pqrs]-u[pqsr] of the original elements, never doubled, and the flag reads true.", "quantifier": "all basis sets, any number of calls", "why_tests_cant": "Idempotence over any number of calls.", "anchors": ["quantum_systems/basis_set.py: BasisSet.anti_symmetrize_two_body_elements"]}
{"id": "C16", "title": "Change to a general orbital basis", "statement": "A successful change_to_general_orbital_basis doubles l, sets includes_spin, and makes h, s, u, dipole moments and spf the spin-doubled (and, if requested, anti-symmetrised) versions of the old ones, with both members of each spin pair sharing the same spatial function.", "quantifier": "all spatial basis sets, all orthonormal spin bases, both anti_symmetrize choices", "why_tests_cant": "Ten attributes are rebuilt; the equations have to hold for all sizes and values.", "anchors": ["quantum_systems/basis_set.py: BasisSet.change_to_general_orbital_basis, add_spin_spf"]}
{"id": "C17", "title": "No second spin doubling", "statement": "Calling change_to_general_orbital_basis on a basis set that already includes spin changes nothing, however often it is called.", "quantifier": "all basis sets including spin, any number of calls", "why_tests_cant": "Idempotence over any number of calls.", "anchors": ["quantum_systems/basis_set.py: BasisSet.change_to_general_orbital_basis"]}
{"id": "C18", "title": "Pauli matrices in any spin basis", "statement": "For every orthonormal pair (a, b), setup_pauli_matrices returns Hermitian matrices with sigma_i^2 = 1, sigma_x sigma_y = i sigma_z and cyclic, and zero trace; for a=(1,0), b=(0,1) they are the standard Pauli matrices.", "quantifier": "all orthonormal spin bases (a, b)", "why_tests_cant": "A continuum of spin bases; the tests use only the default one.", "anchors": ["quantum_systems/basis_set.py: BasisSet.setup_pauli_matrices"]}
{"id": "C19", "title": "Angular momentum algebra of the spin matrices", "statement": "For an orthonormal spatial basis (s = 1) the spin matrices installed by change_to_general_orbital_basis are Hermitian, satisfy [S_x,S_y] = i S_z and cyclic, and spin_2 = 3/4 times the identity; spin_2_tb[pqrs] is the sum over directions of S[p,r] S[q,s] (anti-symmetrised on request).", "quantifier": "all l, all orthonormal spin bases", "why_tests_cant": "Holds for all sizes and all spin bases.", "anchors": ["quantum_systems/basis_set.py: BasisSet.change_to_general_orbital_basis, setup_spin_squared_operator"]}
{"id": "C20", "title": "spin_2 in a non-orthogonal basis", "statement": "spin_2 holds the matrix elements of the one-body part of the squared spin operator, 3/4 s (x) 1, for every overlap matrix s.", "quantifier": "all Hermitian invertible overlap matrices", "why_tests_cant": "The repository's own test says it cannot treat non-orthonormal basis sets.", "anchors": ["quantum_systems/basis_set.py: BasisSet.setup_spin_squared_operator"]}
{"id": "C21", "title": "Total spin of the reference determinant", "statement": "In an orthonormal spin-doubled basis the spin_2 / spin_2_tb elements give <S^2> = 0 for the closed-shell reference determinant of every even n, and 3/4 for every odd n.", "quantifier": "all n <= l, all orthonormal spin bases", "why_tests_cant": "All particle numbers and sizes.", "anchors": ["quantum_systems/basis_set.py: BasisSet.setup_spin_squared_operator", "quantum_systems/general_orbital_system.py: GeneralOrbitalSystem.spin_2, spin_2_tb"]}
{"id": "C22", "title": "Spatial and general reference energies agree", "statement": "The reference energy of the GeneralOrbitalSystem built from a closed-shell SpatialOrbitalSystem (anti-symmetrised) equals the reference energy of the spatial system.", "quantifier": "all even particle numbers, all l, all matrix elements", "why_tests_cant": "Compares two code paths for all inputs.", "anchors": ["quantum_systems/spatial_orbital_system.py: SpatialOrbitalSystem.construct_general_orbital_system, compute_reference_energy", "quantum_systems/general_orbital_system.py: GeneralOrbitalSystem.compute_reference_energy"]}
{"id": "C23", "title": "Spatial and general Fock matrices agree", "statement": "The Fock matrix of the GeneralOrbitalSystem built from a closed-shell SpatialOrbitalSystem is the spin-doubled Fock matrix of the spatial system.", "quantifier": "all even particle numbers, all l, all matrix elements", "why_tests_cant": "Compares two code paths for all inputs.", "anchors": ["quantum_systems/spatial_orbital_system.py: SpatialOrbitalSystem.construct_fock_matrix", "quantum_systems/general_orbital_system.py: GeneralOrbitalSystem.construct_fock_matrix"]}
{"id": "C24", "title": "Reference energy formulas", "statement": "compute_reference_energy returns sum_i h_ii + 1/2 sum_ij u_ijij (general) and 2 sum_i h_ii + sum_ij (2 u_ijij - u_ijji) (spatial) over the occupied indices, which equals 1/2 sum_i (h_ii + f_ii) resp. sum_i (h_ii + f_ii) with f the Fock matrix of the same system.", "quantifier": "all n <= l, all matrix elements", "why_tests_cant": "Slices and traces with axis arguments have to pick the right index pairs for all sizes.", "anchors": ["quantum_systems/general_orbital_system.py: GeneralOrbitalSystem.compute_reference_energy", "quantum_systems/spatial_orbital_system.py: SpatialOrbitalSystem.compute_reference_energy"]}
{"id": "C25", "title": "Reference energy is invariant under occupied rotations", "statement": "Changing basis with a unitary that mixes occupied orbitals among themselves and virtual orbitals among themselves does not change the reference energy.", "quantifier": "all systems (general and spatial), all block unitary C", "why_tests_cant": "All unitaries, all sizes.", "anchors": ["quantum_systems/system.py: QuantumSystem.change_basis", "quantum_systems/general_orbital_system.py: compute_reference_energy", "quantum_systems/spatial_orbital_system.py: compute_reference_energy"]}
{"id": "C26", "title": "Fock matrix construction and the output buffer", "statement": "construct_fock_matrix(h, u, f) returns h_pq + sum_i u_piqi (general) or h_pq + sum_i (2 u_piqi - u_piiq) (spatial); passing a preallocated f of the right shape, whose dtype can hold h and u, gives the same result whatever f contained, as long as f is not the array h or u itself, and leaves h and u untouched (a dtype that cannot hold them raises TypeError); the Fock matrix of Hermitian, exchange-symmetric elements is Hermitian; with h itself as f the call returns the interaction part only and leaves that in h.", "quantifier": "all n <= l, all elements, all prior contents of f", "why_tests_cant": "Depends on the prior contents of a mutable buffer and on aliasing.", "anchors": ["quantum_systems/general_orbital_system.py: GeneralOrbitalSystem.construct_fock_matrix", "quantum_systems/spatial_orbital_system.py: SpatialOrbitalSystem.construct_fock_matrix"]}
{"id": "C27", "title": "Particle density", "statement": "compute_particle_density(rho) is sum_pq bra_spf[p](x) rho[q,p] spf[q](x) at every grid point; it is linear in rho and, for Hermitian rho and bra = conj(ket), real.", "quantifier": "all grids, all density matrices, all single-particle functions", "why_tests_cant": "All grids and matrices.", "anchors": ["quantum_systems/system_helper.py: compute_particle_density", "quantum_systems/basis_set.py: BasisSet.compute_particle_density"]}
{"id": "C28", "title": "Particle density and basis change commute", "statement": "compute_particle_density(rho, C, C_tilde) equals compute_particle_density(rho) after change_basis(C, C_tilde), equals the density of C rho C_tilde in the old basis, and does not modify the single-particle functions.", "quantifier": "all basis sets, all C, C_tilde, rho", "why_tests_cant": "Equality of histories for all inputs.", "anchors": ["quantum_systems/basis_set.py: BasisSet.compute_particle_density, change_basis"]}
{"id": "C29", "title": "bra_spf is the dual of spf", "statement": "For a basis set whose bra_spf was never assigned, bra_spf reads as the complex conjugate of the current spf.", "quantifier": "all histories of spf assignments, reads, basis changes and casts", "why_tests_cant": "bra_spf is cached on first read; only histories that assign spf after a read expose it.", "anchors": ["quantum_systems/basis_set.py: BasisSet.bra_spf, spf, cast_to_complex, change_module"]}
{"id": "C30", "title": "Occupied and virtual slices partition the basis", "statement": "For every accepted n and l, indices selected by o and v are disjoint, together they are 0..l-1, they have sizes n and m = l - n; n > l is rejected with AssertionError; this stays true after every sequence of basis changes.", "quantifier": "all n, l and all sequences of basis changes", "why_tests_cant": "All sizes and histories.", "anchors": ["quantum_systems/system.py: QuantumSystem.__init__, set_system_size, change_basis"]}
{"id": "C31", "title": "Closed-shell constructor contract", "statement": "SpatialOrbitalSystem(n, basis) succeeds exactly if n is even, the basis has no spin and n/2 <= l, and then occupies n/2 orbitals; construct_general_orbital_system gives a system with n occupied spin-orbitals and 2l in total.", "quantifier": "all n and basis sets", "why_tests_cant": "All n, both directions.", "anchors": ["quantum_systems/spatial_orbital_system.py: SpatialOrbitalSystem.__init__, construct_general_orbital_system"]}
{"id": "C32", "title": "construct_general_orbital_system leaves the spatial system alone", "statement": "Building a GeneralOrbitalSystem from a SpatialOrbitalSystem does not change the spatial system's elements, and no later operation on either system changes what the other one reports, other than handing one system the operator object of the other (see C41).", "quantifier": "all systems, all later operation sequences on either system", "why_tests_cant": "Aliasing property over arbitrary histories.", "anchors": ["quantum_systems/spatial_orbital_system.py: SpatialOrbitalSystem.construct_general_orbital_system", "quantum_systems/basis_set.py: BasisSet.copy_basis"]}
{"id": "C33", "title": "copy_system gives an independent equal system", "statement": "copy_system returns a system reporting the same elements, sizes and time-dependent Hamiltonians, and no later operation on either one changes what the other reports, other than handing one system the operator object of the other (see C41).", "quantifier": "all systems, all later operation sequences", "why_tests_cant": "Aliasing property over arbitrary histories.", "anchors": ["quantum_systems/system.py: QuantumSystem.copy_system", "quantum_systems/basis_set.py: BasisSet.change_module"]}
{"id": "C34", "title": "construct_general_orbital_system carries the time-evolution operator over", "statement": "If the spatial system has a time-evolution operator, the constructed general system has a copy of it bound to itself.", "quantifier": "all systems with a time-evolution operator", "why_tests_cant": "Never exercised by the tests; concerns every operator.", "anchors": ["quantum_systems/spatial_orbital_system.py: SpatialOrbitalSystem.construct_general_orbital_system"]}
{"id": "C35", "title": "A failing copy leaves the original usable", "statement": "If copy_basis or copy_system raises, the original object still has its array module and behaves as before.", "quantifier": "all objects reachable from the basis set or system, i.e. all failure points of the deep copy", "why_tests_cant": "Crash-point property.", "anchors": ["quantum_systems/basis_set.py: BasisSet.copy_basis", "quantum_systems/system.py: QuantumSystem.copy_system", "quantum_systems/quantum_dots/one_dim/one_dim_potentials.py: GaussianPotential"]}
{"id": "C36", "title": "Laser field Hamiltonian", "statement": "With a LaserField set, h_t(t) = h + E(t) sum_k e_k(t) d_k with the given pulse (constant or callable) and polarisation (constant, callable or default x axis), u_t(t) = u, and the answer at t does not depend on which or how many evaluations came before.", "quantifier": "all systems, pulses, polarisations, times, and all call histories", "why_tests_cant": "h_t rewrites its own attributes on first use, so history independence needs all call sequences.", "anchors": ["quantum_systems/time_evolution_operators/operator.py: LaserField"]}
{"id": "C37", "title": "Adiabatic switching and custom operators", "statement": "AdiabaticSwitching gives u_t(t) = f(t) u and h_t = h; CustomOneBodyOperator gives h_t(t) = h + w(t) A and u_t = u; constants are treated as constant functions; answers do not depend on earlier evaluations.", "quantifier": "all systems, switching functions, weights, operators, times and call histories", "why_tests_cant": "Over all call sequences.", "anchors": ["quantum_systems/time_evolution_operators/operator.py: AdiabaticSwitching, CustomOneBodyOperator"]}
{"id": "C38", "title": "One-/two-body flags tell the truth", "statement": "If the operator of a system is bound to it (as set_time_evolution_operator does) and has_one_body_time_evolution_operator is False then h_t(t) = h for every t, and if has_two_body_time_evolution_operator is False then u_t(t) = u for every t; setting the operator to None restores both.", "quantifier": "all systems, operators and times", "why_tests_cant": "Solvers skip work on these flags; needs all operators and times.", "anchors": ["quantum_systems/system.py: QuantumSystem.has_one_body_time_evolution_operator, has_two_body_time_evolution_operator, h_t, u_t", "quantum_systems/time_evolution_operators/operator.py: TimeEvolutionOperator"]}
{"id": "C39", "title": "Time-dependent Hamiltonian and basis change commute", "statement": "With a LaserField, h_t(t) after change_basis(C, C_tilde) is the transform of h_t(t) before it; likewise u_t with AdiabaticSwitching.", "quantifier": "all systems, C, C_tilde, pulses and times", "why_tests_cant": "Equality of histories.", "anchors": ["quantum_systems/time_evolution_operators/operator.py: LaserField, AdiabaticSwitching", "quantum_systems/system.py: QuantumSystem.change_basis"]}
{"id": "C40", "title": "Hermitian time-dependent Hamiltonian", "statement": "If h and all dipole components are Hermitian and the pulse and polarisation are real at t, h_t(t) is Hermitian.", "quantifier": "all systems, real pulses, times", "why_tests_cant": "All inputs.", "anchors": ["quantum_systems/time_evolution_operators/operator.py: LaserField.h_t"]}
{"id": "C41", "title": "A system's h_t and u_t use its own elements", "statement": "h_t and u_t of a system are computed from that system's own h, u and dipole moments, whatever was done with other systems.", "quantifier": "all histories of set_time_evolution_operator calls over any number of systems and operators", "why_tests_cant": "Needs sharing of one operator between systems; aliasing history.", "anchors": ["quantum_systems/system.py: QuantumSystem.set_time_evolution_operator", "quantum_systems/time_evolution_operators/operator.py: TimeEvolutionOperator.set_system"]}
{"id": "C42", "title": "Two-dimensional oscillator index map is a bijection", "statement": "get_indices_nm and get_index_p are inverse to each other: every p >= 0 is get_index_p(get_indices_nm(p)), and every (n >= 0, m) is get_indices_nm(get_index_p(n, m)); get_indices_nm terminates.", "quantifier": "all p, all n >= 0, all integers m", "why_tests_cant": "The test reads a finite table; the claim is for all indices.", "anchors": ["quantum_systems/quantum_dots/two_dim/two_dim_helper.py: get_index_p, get_indices_nm"]}
{"id": "C43", "title": "Orbitals are ordered by shell energy", "statement": "get_shell_energy(get_indices_nm(p)) is non-decreasing in p, shell N holds exactly N orbitals at consecutive indices starting at N(N-1)/2, and inside a shell m increases by 2 from -(N-1) to N-1.", "quantifier": "all p and all shells", "why_tests_cant": "All indices.", "anchors": ["quantum_systems/quantum_dots/two_dim/two_dim_helper.py: get_indices_nm, get_shell_energy, get_one_body_elements"]}
{"id": "C44", "title": "Coulomb selection rule", "statement": "The two-dimensional oscillator Coulomb element u[p,q,r,s] is zero unless m_p + m_q = m_r + m_s.", "quantifier": "all orbital indices", "why_tests_cant": "All indices.", "anchors": ["quantum_systems/quantum_dots/two_dim/coulomb_elements.py: coulomb_ho", "quantum_systems/quantum_dots/two_dim/two_dim_helper.py: get_coulomb_elements"]}
{"id": "C45", "title": "Coulomb element symmetries", "statement": "The two-dimensional oscillator Coulomb elements satisfy u[pqrs] = u[qpsr], u[pqrs] = u[rspq], and are unchanged when every m changes sign.", "quantifier": "all quantum numbers", "why_tests_cant": "Tests sample l = 12 within 1e-8; exact symmetry for all quantum numbers is a statement about the summation formula.", "anchors": ["quantum_systems/quantum_dots/two_dim/coulomb_elements.py: coulomb_ho"]}
{"id": "C46", "title": "Logarithmic evaluation equals the factorial formula", "statement": "In exact arithmetic coulomb_ho, which works with sums of logarithms, equals the Anisimovas-Matulis formula written with factorials, binomials, powers of two and Gamma functions.", "quantifier": "all quantum numbers", "why_tests_cant": "All quantum numbers.", "anchors": ["quantum_systems/quantum_dots/two_dim/coulomb_elements.py: coulomb_ho, log_factorial, log_ratio_1, log_ratio_2, log_product_1, log_product_2, log_product_3"]}
{"id": "C47", "title": "Angular integrals", "statement": "theta_1_integral, theta_2_integral, theta_1_tilde_integral and theta_2_tilde_integral equal the integrals over [0, 2 pi] of exp(-i m_p t) f(t) exp(i m_q t) with f = cos, sin, |cos|, |sin|.", "quantifier": "all integers m_p, m_q", "why_tests_cant": "Tests compare to another closed form for |m| <= 100 in floating point; equality with the integral needs proof for all m.", "anchors": ["quantum_systems/quantum_dots/two_dim/two_dim_helper.py: theta_1_integral, theta_2_integral, theta_1_tilde_integral, theta_2_tilde_integral"]}
{"id": "C48", "title": "Angular integrals of the smooth double well", "statement": "smooth_theta_integral_1 and smooth_theta_integral_2 equal the integrals over [0, 2 pi] of cos^4 resp. cos^2 (or sin^4, sin^2) between the angular functions.", "quantifier": "all integers m_p, m_q", "why_tests_cant": "No test calls them.", "anchors": ["quantum_systems/quantum_dots/two_dim/two_dim_helper.py: smooth_theta_integral_1, smooth_theta_integral_2"]}
{"id": "C49", "title": "Two-dimensional dipole moments", "statement": "The dipole elements of the two-dimensional oscillator are zero unless |m_p - m_q| = 1, Hermitian, and equal the matrix elements of r cos(theta) and r sin(theta) between the single-particle functions.", "quantifier": "all l, all masses and frequencies", "why_tests_cant": "All l and parameters.", "anchors": ["quantum_systems/quantum_dots/two_dim/two_dim_ho.py: TwoDimensionalHarmonicOscillator.construct_dipole_moment"]}
{"id": "C50", "title": "Double-well one-body elements", "statement": "get_double_well_one_body_elements is Hermitian, equals the oscillator elements when the barrier strength is zero, and equals the matrix elements of the oscillator plus the barrier terms m omega^2/8 L^2 - m omega^2/2 L |x| (with unit mass; for any other mass the barrier terms are still those of unit mass).", "quantifier": "all l, barrier strengths, frequencies, both axes", "why_tests_cant": "All l and parameters.", "anchors": ["quantum_systems/quantum_dots/two_dim/two_dim_helper.py: get_double_well_one_body_elements"]}
{"id": "C51", "title": "Magnetic-field basis picks the lowest states", "statement": "The l states TwoDimHarmonicOscB uses are l lowest-energy states of the full infinite spectrum omega(2n+|m|+1) - omega_c m/2, n >= 0, m any integer: no state left out has lower energy than one kept, for any field strength.", "quantifier": "all l >= 1, all omega_0, omega_c", "why_tests_cant": "The candidate window is finite (m up to l+5); that it suffices for all fields is a proof obligation.", "anchors": ["quantum_systems/quantum_dots/two_dim/two_dim_ho.py: TwoDimHarmonicOscB.setup_basis", "quantum_systems/quantum_dots/two_dim/two_dim_helper.py: construct_dataframe, get_shell_energy_B"]}
{"id": "C52", "title": "Zero magnetic field reproduces the oscillator", "statement": "With omega_c = 0 TwoDimHarmonicOscB orders its orbitals (n, m) exactly as TwoDimensionalHarmonicOscillator does, so both give the same h, u and dipole elements.", "quantifier": "all l >= 1, all omega > 0", "why_tests_cant": "The test checks l = 6.", "anchors": ["quantum_systems/quantum_dots/two_dim/two_dim_ho.py: TwoDimHarmonicOscB", "quantum_systems/quantum_dots/two_dim/two_dim_helper.py: construct_dataframe, get_indices_nm"]}
{"id": "C53", "title": "Coulomb cache transparency", "statement": "get_coulomb_elements returns the same elements whether caching is on or off and whatever sequence of calls, sizes and cache toggles came before, provided the cache files were written by completed calls.", "quantifier": "all call histories", "why_tests_cant": "All histories.", "anchors": ["quantum_systems/quantum_dots/two_dim/two_dim_helper.py: get_coulomb_elements"]}
{"id": "C54", "title": "Coulomb cache and interruption", "statement": "A call of get_coulomb_elements interrupted at any point does not make later calls return wrong elements.", "quantifier": "all interruption points", "why_tests_cant": "Crash-point property.", "anchors": ["quantum_systems/quantum_dots/two_dim/two_dim_helper.py: get_coulomb_elements"]}
{"id": "C55", "title": "One-dimensional Coulomb elements", "statement": "The two-body elements of ODQD and ODHO are the double trapezoidal sum over the grid of conj(phi_p(x)) conj(phi_q(y)) alpha/sqrt((x-y)^2+a^2) phi_r(x) phi_s(y); hence u[pqrs] = u[qpsr] and u[pqrs] = conj u[rspq].", "quantifier": "all l, grids, single-particle functions, alpha and a", "why_tests_cant": "Tests check one grid; nested numerical integration is wired by index.", "anchors": ["quantum_systems/quantum_dots/one_dim/one_dim_qd.py: _trapz, _compute_inner_integral, _compute_orbital_integrals"]}
{"id": "C56", "title": "ODQD orthonormality and spectrum", "statement": "Given that the eigenvalue routine returns orthonormal eigenvectors, the single-particle functions of ODQD vanish at the grid ends, are orthonormal under the trapezoidal rule (so the identity stored in s is their overlap), and h is the matrix of the finite-difference Hamiltonian between them.", "quantifier": "all grids, potentials, l <= num_grid_points - 2", "why_tests_cant": "All grids and potentials.", "anchors": ["quantum_systems/quantum_dots/one_dim/one_dim_qd.py: ODQD.setup_basis"]}
{"id": "C57", "title": "ODQD dipole moments", "statement": "The ODQD dipole elements are the trapezoidal matrix elements of x + beta x^2 and form a Hermitian matrix.", "quantifier": "all l, grids, beta", "why_tests_cant": "All inputs.", "anchors": ["quantum_systems/quantum_dots/one_dim/one_dim_qd.py: ODQD.construct_dipole_moment"]}
{"id": "C58", "title": "ODHO dipole moments", "statement": "The ODHO dipole elements are sqrt((n+1)/(2 omega)) between neighbouring levels and zero elsewhere, symmetric; the one-body elements are omega (n + 1/2).", "quantifier": "all l, all omega > 0", "why_tests_cant": "All levels and frequencies.", "anchors": ["quantum_systems/quantum_dots/one_dim/one_dim_qd.py: ODHO.construct_dipole_moment, normalization, setup_basis"]}
{"id": "C59", "title": "Sinc-DVR functions", "statement": "The sinc-DVR functions take the value 1/sqrt(dx) at their own grid point and 0 at all others, so the identity in s is their grid overlap, and the kinetic matrix is symmetric.", "quantifier": "all l >= 2, all grid lengths", "why_tests_cant": "All sizes.", "anchors": ["quantum_systems/sinc_dvr/one_dim/sinc_dvr.py: ODSincDVR.setup_basis, construct_sinc_grid, construct_s"]}
{"id": "C60", "title": "Two- and four-index sinc-DVR interaction agree", "statement": "Transforming the 2d representation of u with any C, C_tilde gives the same elements as transforming the 4d representation with the general routine, with or without anti-symmetrisation; spin doubling in 2d representation agrees with spin doubling in 4d.", "quantifier": "all l, all C, C_tilde", "why_tests_cant": "Two code paths on all inputs.", "anchors": ["quantum_systems/sinc_dvr/one_dim/sinc_dvr.py: ODSincDVR.transform_two_body_elements, add_spin_two_body, construct_coulomb_elements"]}
{"id": "C61", "title": "set_u_repr switches the representation", "statement": "set_u_repr('4d') / set_u_repr('2d') changes u_repr to the requested value and the elements to the same interaction in that representation.", "quantifier": "all ODSincDVR objects", "why_tests_cant": "No test calls it.", "anchors": ["quantum_systems/sinc_dvr/one_dim/sinc_dvr.py: ODSincDVR.set_u_repr"]}
{"id": "C62", "title": "Sinc-DVR general orbital systems", "statement": "GeneralOrbitalSystem(n, ODSincDVR(...)) works, and an ODSincDVR basis changed to general orbitals with anti_symmetrize=True holds anti-symmetric two-body elements whenever anti_symmetrized_u reads true.", "quantifier": "all ODSincDVR objects", "why_tests_cant": "No test builds one.", "anchors": ["quantum_systems/sinc_dvr/one_dim/sinc_dvr.py: ODSincDVR.change_to_general_orbital_basis, anti_symmetrize_u", "quantum_systems/general_orbital_system.py: GeneralOrbitalSystem.__init__"]}
{"id": "C63", "title": "Potential derivatives", "statement": "For every potential class that offers it, derivative(x) is the derivative of the potential at x.", "quantifier": "all parameters and all x (x != 0 for the cusp potential)", "why_tests_cant": "Continuum of parameters.", "anchors": ["quantum_systems/quantum_dots/one_dim/one_dim_potentials.py: derivative methods"]}
{"id": "C64", "title": "Symmetric potentials are even", "statement": "The oscillator, double-well, smooth double-well, symmetric double-well and atomic potentials satisfy V(-x) = V(x); the double wells have their minima value 0 at x = +-l/2 (resp. +-a/2) and are nowhere negative.", "quantifier": "all parameters and all x", "why_tests_cant": "Continuum of parameters.", "anchors": ["quantum_systems/quantum_dots/one_dim/one_dim_potentials.py: __call__ methods"]}
{"id": "C65", "title": "Random basis sets have the promised symmetries", "statement": "RandomBasisSet has Hermitian h, s and dipole components and u[pqrs] = u[qpsr], for every outcome of the random generator.", "quantifier": "all l, dim and all random outcomes", "why_tests_cant": "All random outcomes.", "anchors": ["quantum_systems/random_basis.py: RandomBasisSet"]}
{"id": "C66", "title": "Complex cast and module change preserve values", "statement": "cast_to_complex and change_module change no stored value, shape or flag; after cast_to_complex every populated array is complex.", "quantifier": "all basis sets", "why_tests_cant": "All combinations of populated attributes.", "anchors": ["quantum_systems/basis_set.py: BasisSet.cast_to_complex, change_module"]}
{"id": "C67", "title": "Sampler collection", "statement": "sample(step) calls every sampler once in order with that step; dump passes the samples dictionary through every sampler's dump in order and returns exactly what get_samples then returns; keys added by add_sample survive unless a sampler overwrites them; save_samples=False writes nothing.", "quantifier": "all sampler lists and call histories", "why_tests_cant": "All histories.", "anchors": ["quantum_systems/sampler.py: SampleCollector"]}
{"id": "C68", "title": "PySCF two-body index order", "statement": "The PySCF constructors store u[p,q,r,s] = (pr|qs); with PySCF's eightfold symmetric real integrals this gives u[pqrs] = u[qpsr] = u[rqps] = u[rspq], and in the RHF basis the stored overlap is the identity if the coefficients satisfy C^T S C = 1.", "quantifier": "all integral tables and coefficient matrices", "why_tests_cant": "All tables.", "anchors": ["quantum_systems/custom_system.py: construct_pyscf_system_ao, construct_pyscf_system_rhf"]}
{"id": "C69", "title": "PySCF systems for odd electron numbers", "statement": "construct_pyscf_system_ao(molecule, add_spin=True) returns a GeneralOrbitalSystem with n equal to the number of electrons for every molecule.", "quantifier": "all electron numbers", "why_tests_cant": "Only closed-shell molecules are tested.", "anchors": ["quantum_systems/custom_system.py: construct_pyscf_system_ao"]}
{"id": "C70", "title": "spin_delta", "statement": "spin_delta(p, q) is 1 exactly if p and q have the same parity, and 0 otherwise; delta(p,q) is true exactly if p = q.", "quantifier": "all natural p, q", "why_tests_cant": "Test samples p, q < 100.", "anchors": ["quantum_systems/system_helper.py: spin_delta, delta"]}
{"id": "C71", "title": "Smooth double-well constructor", "statement": "TwoDimSmoothDoubleWell(l, radius, points, ...) constructs a basis set.", "quantifier": "all arguments", "why_tests_cant": "No test constructs one.", "anchors": ["quantum_systems/quantum_dots/two_dim/two_dim_ho.py: TwoDimSmoothDoubleWell.__init__"]}
{"id": "C72", "title": "Orthonormality of the two-dimensional oscillator functions", "statement": "The single-particle functions of TwoDimensionalHarmonicOscillator are orthonormal over the plane, so the identity stored in s is their overlap.", "quantifier": "all p, q, mass, omega > 0", "why_tests_cant": "Continuum integral for all orbitals.", "anchors": ["quantum_systems/quantum_dots/two_dim/two_dim_helper.py: spf_state, spf_norm, spf_radial, spf_theta", "quantum_systems/quantum_dots/two_dim/two_dim_ho.py: TwoDimensionalHarmonicOscillator.setup_basis"]}
{"id": "C73", "title": "Repeated basis changes of spin-doubled sets", "statement": "change_basis can be applied again and again to a spin-doubled basis set: every change_basis whose C has l rows succeeds, whatever basis changes came before.", "quantifier": "all spin-doubled basis sets, all sequences of rectangular coefficient matrices with matching sizes", "why_tests_cant": "The stale one-body spin matrices only show after a second, rectangular change; tests use one square change.", "anchors": ["quantum_systems/basis_set.py:BasisSet._change_basis_one_body_elements", "quantum_systems/basis_set.py:BasisSet.change_basis"]}
{"id": "C75", "title": "Oscillator Hamiltonian", "statement": "The one-body elements of TwoDimensionalHarmonicOscillator are the matrix elements of -1/(2m) Laplacian + m omega^2 r^2 / 2 between its single-particle functions.", "quantifier": "all l, masses and frequencies > 0", "why_tests_cant": "Continuum integrals and derivatives for all orbitals.", "anchors": ["quantum_systems/quantum_dots/two_dim/two_dim_ho.py: TwoDimensionalHarmonicOscillator.setup_basis", "quantum_systems/quantum_dots/two_dim/two_dim_helper.py: get_one_body_elements, spf_state"]}
{"id": "C76", "title": "Oscillator Hamiltonian in a magnetic field", "statement": "The single-particle functions of TwoDimHarmonicOscB are orthonormal, its one-body elements are the matrix elements of -1/(2m) Laplacian + m (omega_0^2 + omega_c^2/4) r^2 / 2 - omega_c L_z / 2 between them, and its dipole elements those of r cos(theta) and r sin(theta).", "quantifier": "all l, masses > 0, frequencies and fields, not both zero, for which the object is constructed", "why_tests_cant": "Continuum integrals and derivatives for all orbitals and fields.", "anchors": ["quantum_systems/quantum_dots/two_dim/two_dim_ho.py: TwoDimHarmonicOscB.setup_basis, get_indices_nm", "quantum_systems/quantum_dots/two_dim/two_dim_helper.py: construct_dataframe, get_one_body_elements_B"]}
{"id": "C77", "title": "Smooth double-well elements", "statement": "get_smooth_double_well_one_body_elements returns a Hermitian matrix; between orbitals of equal m its elements are, for unit mass, the matrix elements of the oscillator plus omega^2/4 (x^4/a^2 - 5b/2 x^2 + a^2/16).", "quantifier": "all l, omega > 0, a != 0, b", "why_tests_cant": "No test calls it; continuum integrals for all orbitals.", "anchors": ["quantum_systems/quantum_dots/two_dim/two_dim_helper.py: get_smooth_double_well_one_body_elements"]}
{"id": "C74", "title": "Coulomb cache recovers from interruption", "statement": "After any history of complete and interrupted calls, a call of get_coulomb_elements returns the Coulomb elements.", "quantifier": "all call histories and all interruption points", "why_tests_cant": "Crash-point property over all histories.", "anchors": ["quantum_systems/quantum_dots/two_dim/two_dim_helper.py: get_coulomb_elements"]}
{"id": "C78", "title": "Coulomb cache shared by several processes", "statement": "When any number of processes call get_coulomb_elements with the cache switched on and their steps interleave in any way, every call that returns elements returns the right ones.", "quantifier": "all numbers of processes, sizes and interleavings", "why_tests_cant": "Race condition; all interleavings.", "anchors": ["quantum_systems/quantum_dots/two_dim/two_dim_helper.py: get_coulomb_elements"]}
{"id": "C79", "title": "ODHO elements are exact", "statement": "The single-particle functions of ODHO are the values at the grid points of orthonormal eigenfunctions of -1/2 d^2/dx^2 + 1/2 omega^2 x^2 on the line; s holds their overlaps, h the matrix elements of that Hamiltonian and dipole_moment those of x.", "quantifier": "all l, all grids of at least two points, all omega > 0", "why_tests_cant": "Infinitely many levels and frequencies; integrals over the line.", "anchors": ["quantum_systems/quantum_dots/one_dim/one_dim_qd.py: ODHO.setup_basis, ho_function, normalization, construct_dipole_moment"]}
{"id": "C80", "title": "ODQD rejects too many functions", "statement": "ODQD never returns a basis set with more functions than there are interior grid points, nor one built on fewer than three grid points; it raises instead.", "quantifier": "all l, grids and potentials", "why_tests_cant": "All sizes.", "anchors": ["quantum_systems/quantum_dots/one_dim/one_dim_qd.py: ODQD.setup_basis"]}
{"id": "C81", "title": "ODHO dipole elements include beta", "statement": "The dipole elements of ODHO, like those of ODQD, are the matrix elements of x + beta x^2.", "quantifier": "all l, omega > 0 and beta", "why_tests_cant": "All inputs; no test sets beta for ODHO.", "anchors": ["quantum_systems/quantum_dots/one_dim/one_dim_qd.py: ODHO.__init__, ODHO.construct_dipole_moment"]}
{"id": "C82", "title": "Sinc-DVR Hamiltonian is exact on its span", "statement": "The matrix h of ODSincDVR, applied to the values at the grid points of any linear combination f of its sinc functions, gives the values of -f''/2 + V f at the grid points; the element h[p,q] is sqrt(dx) times the Hamilton operator acting on function q at grid point p.", "quantifier": "all l >= 2, grid lengths L > 0, potentials V, linear combinations f", "why_tests_cant": "a test can compare the eigenvalues of one matrix with a tolerance; exactness of the kinetic elements for all l, L and functions of the span is a statement about second derivatives at all grid points", "anchors": ["quantum_systems/sinc_dvr/one_dim/sinc_dvr.py:99-124", "quantum_systems/sinc_dvr/one_dim/sinc_dvr.py:146-148"]}
{"id": "C83", "title": "2D two-body elements are Coulomb integrals", "statement": "The two-body elements of TwoDimensionalHarmonicOscillator and TwoDimensionalDoubleWell are the matrix elements of the Coulomb interaction between the basis set's own single-particle functions: u[p,q,r,s] is the integral over both planes of conj(phi_p(1)) conj(phi_q(2)) phi_r(1) phi_s(2)/|r1-r2|.", "quantifier": "all l, omega > 0, mass > 0, grids, array modules and index quadruples", "why_tests_cant": "Tests compare stored numbers computed by the same formula for unit mass; they do not evaluate four-dimensional integrals with a singular integrand, and no test sets a mass other than one.", "anchors": ["quantum_systems/quantum_dots/two_dim/two_dim_ho.py:84-95", "quantum_systems/quantum_dots/two_dim/coulomb_elements.py: coulomb_ho", "quantum_systems/quantum_dots/two_dim/two_dim_helper.py: spf_state"]}
{"id": "C84", "title": "Two-body elements in a magnetic field", "statement": "The two-body elements of TwoDimHarmonicOscB are, for unit mass, the Coulomb integrals of the functions with the effective frequency that the basis set holds on its grid; for other masses they are these integrals divided by sqrt(mass).", "quantifier": "all l, omega and omega_c (not both zero), mass > 0 for which the basis set is constructed, all index quadruples", "why_tests_cant": "The orbitals are chosen by sorting energies; tests check a few parameter sets and never the integrals.", "anchors": ["quantum_systems/quantum_dots/two_dim/two_dim_ho.py:276-305", "quantum_systems/quantum_dots/two_dim/two_dim_helper.py: get_coulomb_elements_B"]}
{"id": "C85", "title": "Direct and exchange elements", "statement": "The direct elements u[p,q,p,q] of the two-dimensional oscillator are real and positive, |u[p,q,r,s]|^2 <= u[p,q,p,q] u[r,s,r,s], and so |u[p,q,q,p]| <= u[p,q,p,q].", "quantifier": "all l, omega > 0, masses, index quadruples", "why_tests_cant": "An inequality over all quantum numbers; the elements are alternating sums whose sign and size cannot be read off from finitely many values.", "anchors": ["quantum_systems/quantum_dots/two_dim/coulomb_elements.py: coulomb_ho", "quantum_systems/quantum_dots/two_dim/two_dim_ho.py:84-95"]}
{"id": "C86", "title": "One-dimensional direct and exchange elements", "statement": "For alpha >= 0 the direct elements u[p,q,p,q] of the one-dimensional quantum dots are real and non-negative, |u[p,q,r,s]|^2 <= u[p,q,p,q] u[r,s,r,s], and so |u[p,q,q,p]| <= u[p,q,p,q]; for ODQD and alpha > 0 the direct elements are positive.", "quantifier": "all L > 0, all grids and l that the constructor accepts (for ODQD at most as many functions as inner grid points, for ODHO at least two points), potentials, alpha >= 0, a != 0, every eigensolver that fulfils its contract, all index quadruples", "why_tests_cant": "An inequality over all potentials and grids; sampled elements show neither the sign nor the bound for the rest.", "anchors": ["quantum_systems/quantum_dots/one_dim/one_dim_qd.py: _compute_inner_integral, _compute_orbital_integrals, ODQD.setup_basis, ODHO.setup_basis"]}
{"id": "C87", "title": "ODQD energies are simple and bounded", "statement": "Every ODQD function satisfies the finite-difference Schroedinger equation with energy h[p,p] at the inner grid points; the energies are real, strictly ascending (no degeneracy), larger than the minimum of the potential at the inner points and at most 2/dx^2 above its maximum.", "quantifier": "all L > 0, all grids and l <= number of inner grid points, potentials, every eigensolver that fulfils its contract", "why_tests_cant": "Near-degenerate levels of double wells differ by less than rounding; that the levels are never equal and that the box on the spectrum holds for every potential is a theorem, not a sample.", "anchors": ["quantum_systems/quantum_dots/one_dim/one_dim_qd.py: ODQD.setup_basis"]}
{"id": "C88", "title": "Parity in one dimension", "statement": "In a symmetric potential every ODQD function is even or odd on the grid, dipole elements (beta = 0) between functions of equal parity vanish and so do two-body elements whose parities multiply to -1; ODHO functions have parity (-1)^p and u[p,q,r,s] = 0 for odd p+q+r+s.", "quantifier": "all L > 0, all grids and l that the constructor accepts (for ODQD at most as many functions as inner grid points, for ODHO at least two points), symmetric potentials, frequencies, alpha, a != 0, every eigensolver that fulfils its contract", "why_tests_cant": "The eigensolver is free to return any eigenbasis; only non-degeneracy forces the parity, which no finite set of potentials shows.", "anchors": ["quantum_systems/quantum_dots/one_dim/one_dim_qd.py: ODQD.setup_basis, ODQD.construct_dipole_moment, ODHO.setup_basis"]}
{"id": "C89", "title": "Spin-summed density after doubling", "statement": "After change_to_general_orbital_basis, compute_particle_density(rho) is the spin-summed density sum_pq bra_p(x) (rho[q up,p up] + rho[q down,p down]) ket_q(x) of the spatial functions.", "quantifier": "all basis sets, numbers of functions, grids, orthonormal spin functions and density matrices of the doubled size", "why_tests_cant": "Density matrices in tests are spin-diagonal; elements between different spins only enter for matrices that no test builds.", "anchors": ["quantum_systems/basis_set.py: BasisSet.compute_particle_density, BasisSet.change_to_general_orbital_basis, BasisSet.add_spin_spf, BasisSet.add_spin_bra_spf"]}
{"id": "C90", "title": "Energy and Fock matrix from the density matrix", "statement": "After every successful change_basis(C, C_tilde) compute_reference_energy is the energy of the determinant with density matrix C_occ C_tilde_occ evaluated with the elements before the change, and construct_fock_matrix is C_tilde F(D) C with the Fock operator of that density matrix.", "quantifier": "all general and spatial systems, sizes, particle numbers, square and rectangular C, any C_tilde", "why_tests_cant": "Tests compare energies for one system and unitary rotations; the formula for arbitrary biorthogonal, rectangular or even non-biorthogonal coefficients is an identity in all of them.", "anchors": ["quantum_systems/system.py: QuantumSystem.change_basis", "quantum_systems/general_orbital_system.py: GeneralOrbitalSystem.compute_reference_energy, GeneralOrbitalSystem.construct_fock_matrix", "quantum_systems/spatial_orbital_system.py: SpatialOrbitalSystem.compute_reference_energy, SpatialOrbitalSystem.construct_fock_matrix"]}
{"id": "C91", "title": "Constructed basis sets are complete and consistent", "statement": "Every constructor of a basis set returns an object with all elements present and matching in size (h, s, u, dipole, single-particle functions), identity overlap, Hermitian h and dipole, u with both symmetries, the dual functions conjugate to the functions, and the flags, dimension and array module that were asked for; change_basis and change_to_general_orbital_basis then succeed on it.", "quantifier": "all sizes and grids (for ODQD at most as many functions as inner grid points, for ODHO and ODSincDVR at least two points), positive lengths, frequencies, masses, barriers, field strengths, potentials, modules and flags, for ODQD, ODHO, ODSincDVR, the two-dimensional oscillator, double well and magnetic field; the random basis set likewise, with Hermitian instead of identity overlap", "why_tests_cant": "Tests construct each class for one or two parameter sets and inspect single elements.", "anchors": ["quantum_systems/quantum_dots/one_dim/one_dim_qd.py: ODQD.setup_basis", "quantum_systems/quantum_dots/one_dim/one_dim_qd.py: ODHO.setup_basis", "quantum_systems/sinc_dvr/one_dim/sinc_dvr.py: ODSincDVR", "quantum_systems/quantum_dots/two_dim/two_dim_ho.py: TwoDimensionalHarmonicOscillator.setup_basis, TwoDimensionalDoubleWell.setup_basis, TwoDimHarmonicOscB", "quantum_systems/random_basis.py: RandomBasisSet"]}
{"id": "C92", "title": "Repulsion stays repulsion", "statement": "For a repulsive interaction the two-body elements are those of a positive operator (direct elements not negative, exchange elements not larger, Cauchy-Schwarz), and h is bounded from below by the zero-point energy or the minimum of the potential times the overlap (for TwoDimensionalDoubleWell by omega^2 L^2/8 (1 - 1/mass) with L the width of the barrier, for any number of functions); both hold for every constructor and stay true, with the same bound, under any sequence of basis changes, spin doubling, anti-symmetrisation, casts and module changes.", "quantifier": "all sizes, parameters, coefficient matrices (rectangular, not orthonormal), spin functions and lengths of the sequence", "why_tests_cant": "Positivity quantifies over all pair vectors and all sequences of operations; tests look at single elements of fixed systems.", "anchors": ["quantum_systems/basis_set.py: BasisSet.change_basis, BasisSet.change_to_general_orbital_basis, BasisSet.anti_symmetrize_two_body_elements, BasisSet.cast_to_complex, BasisSet.change_module", "quantum_systems/quantum_dots/one_dim/one_dim_qd.py", "quantum_systems/quantum_dots/two_dim/two_dim_ho.py", "quantum_systems/sinc_dvr/one_dim/sinc_dvr.py"]}
{"id": "C93", "title": "Lower bounds for the reference energy", "statement": "The reference energy of a system with a repulsive interaction is real and not below the one-body energy of the occupied orbitals (for doubly occupied orbitals plus the direct repulsion); with normalised orbitals it is at least the zero-point energy per particle.", "quantifier": "all general and spatial systems, particle numbers, and basis sets that come from a constructor by any sequence of operations", "why_tests_cant": "A bound for all systems and histories; tests compare energies of a handful of systems with stored numbers.", "anchors": ["quantum_systems/general_orbital_system.py: GeneralOrbitalSystem.compute_reference_energy", "quantum_systems/spatial_orbital_system.py: SpatialOrbitalSystem.compute_reference_energy"]}
{"id": "C94", "title": "Lower bounds for the Fock matrix", "statement": "The Fock matrix of a system with a repulsive interaction is Hermitian and not below h as an operator; so generalised eigenvalues of the Fock matrix are real and at least the lower bound of h.", "quantifier": "all general and spatial systems, sizes, particle numbers, with and without an output buffer, all vectors", "why_tests_cant": "An operator inequality over all vectors and systems.", "anchors": ["quantum_systems/general_orbital_system.py: GeneralOrbitalSystem.construct_fock_matrix", "quantum_systems/spatial_orbital_system.py: SpatialOrbitalSystem.construct_fock_matrix"]}
{"id": "C95", "title": "setup_basis can be called again", "statement": "Calling the public method setup_basis of a quantum dot a second time leaves the frequency, the matrix elements and the orbitals as the constructor made them.", "quantifier": "all sizes, grids and parameters, any number of further calls, for ODHO, ODQD, ODSincDVR, TwoDimensionalHarmonicOscillator, TwoDimensionalDoubleWell and TwoDimHarmonicOscB", "why_tests_cant": "The tests only construct; that the method is idempotent depends on every attribute it reads and writes, for all parameters.", "anchors": ["quantum_systems/quantum_dots/two_dim/two_dim_ho.py: TwoDimHarmonicOscB.setup_basis", "quantum_systems/quantum_dots/one_dim/one_dim_qd.py: ODHO.setup_basis, ODQD.setup_basis", "quantum_systems/sinc_dvr/one_dim/sinc_dvr.py: ODSincDVR.setup_basis"]}
{"id": "C96", "title": "Parameters survive the spin doubling", "statement": "The parameters a basis set was constructed with, in particular the screening length a of the one-dimensional dots, are still its attributes after any operation on the basis set.", "quantifier": "all basis sets, all spinors, all operations (setters, basis changes, doubling, anti-symmetrisation, casts, module changes), whether they return or raise", "why_tests_cant": "The tests never read a parameter back after an operation; the claim is about all operations.", "anchors": ["quantum_systems/basis_set.py: BasisSet.change_to_general_orbital_basis", "quantum_systems/quantum_dots/one_dim/one_dim_qd.py: ODHO.__init__, ODQD.__init__", "quantum_systems/sinc_dvr/one_dim/sinc_dvr.py: ODSincDVR.__init__"]}
{"id": "C97", "title": "Keyword arguments only set flags", "statement": "Constructing a quantum dot or a random basis set with includes_spin or anti_symmetrized_u gives exactly the object the constructor gives without them, except that the two flags hold the given values; it raises exactly when the plain constructor raises.", "quantifier": "all sizes, grids, parameters, potentials, module arguments and both values of both flags, for ODHO, ODQD, ODSincDVR, TwoDimensionalHarmonicOscillator, TwoDimensionalDoubleWell, TwoDimHarmonicOscB and RandomBasisSet", "why_tests_cant": "The tests never construct a dot with these keywords; the claim compares two whole objects for all parameters.", "anchors": ["quantum_systems/basis_set.py: BasisSet.__init__", "quantum_systems/quantum_dots/two_dim/two_dim_ho.py: TwoDimensionalHarmonicOscillator.__init__", "quantum_systems/quantum_dots/one_dim/one_dim_qd.py: ODQD.__init__, ODHO.__init__", "quantum_systems/random_basis.py: RandomBasisSet.__init__"]}
{"id": "C98", "title": "Reference energy from orbital energies, Koopmans' theorem", "statement": "The reference energy is half the sum (general systems) or the sum (doubly occupied orbitals) of the one-body and orbital energies (diagonal Fock elements) of the occupied orbitals. Adding one electron to a general system with anti-symmetrised elements changes the energy by the diagonal Fock element of the orbital it enters; adding a pair to a spatial system changes it by twice that element plus the repulsion of the pair.", "quantifier": "all basis sets with exchange-symmetric elements, all numbers of particles, both classes of system", "why_tests_cant": "Relates two different functions of the systems for all elements and particle numbers; tests check single numbers.", "anchors": ["quantum_systems/general_orbital_system.py: compute_reference_energy, construct_fock_matrix", "quantum_systems/spatial_orbital_system.py: compute_reference_energy, construct_fock_matrix"]}
{"id": "C99", "title": "The Fock matrix is the gradient of the reference energy (Brillouin)", "statement": "The reference energy after change_basis equals the one before, plus the Fock matrix contracted with the change of the density matrix (times the electrons per orbital), plus a term of second order. Along a differentiable curve of coefficient matrices the derivative of the reference energy is the corresponding contraction with construct_fock_matrix; the energy is stationary under all biorthonormal changes of the orbitals exactly if the occupied-virtual blocks of the Fock matrix vanish.", "quantifier": "all basis sets with exchange-symmetric elements, all coefficient matrices (also non-square, with independent C_tilde), all differentiable curves, both classes of system", "why_tests_cant": "A statement about derivatives and all directions; finite differences on examples cannot establish it.", "anchors": ["quantum_systems/general_orbital_system.py: construct_fock_matrix", "quantum_systems/spatial_orbital_system.py: construct_fock_matrix", "quantum_systems/system.py: QuantumSystem.change_basis"]}
{"id": "C100", "title": "Fock matrices conserve the quantum numbers of the dots", "statement": "The one- and two-body elements of the two-dimensional oscillator with and without magnetic field conserve angular momentum, those of the double well its parity, those of the one-dimensional oscillator and of dots in symmetric wells the parity of the orbitals; spin doubling adds the spin direction. A Fock matrix built from elements that conserve a quantum number has no elements between orbitals with different quantum numbers, whichever orbitals are occupied.", "quantifier": "all sizes, grids, parameters (screening length a != 0), both flags, all symmetric potentials, all numbers of particles, both classes of system", "why_tests_cant": "A selection rule for all index quadruples of tables of any size and its consequence for all occupations.", "anchors": ["quantum_systems/quantum_dots/two_dim/coulomb_elements.py: coulomb_ho", "quantum_systems/quantum_dots/two_dim/two_dim_helper.py: get_double_well_one_body_elements", "quantum_systems/quantum_dots/one_dim/one_dim_qd.py: ODQD.setup_basis, ODHO.setup_basis", "quantum_systems/general_orbital_system.py: construct_fock_matrix"]}
{"id": "C101", "title": "The doubled Hamiltonian conserves spin", "statement": "After change_to_general_orbital_basis the one-body elements, every component of the dipole moment and the two-body elements (anti-symmetrised or not) commute with the matrices spin_x, spin_y and spin_z, products being taken with the inverse of the overlap matrix; in an orthonormal basis the matrices commute as they stand. Fock matrices of the doubled basis have no elements between spin-up and spin-down orbitals whatever is occupied, and those of closed-shell determinants commute with all three components of the spin.", "quantifier": "all spatial basis sets of any size, all spin bases a, b (also non-orthogonal), both values of anti_symmetrize, all invertible overlap matrices, all numbers of particles", "why_tests_cant": "A commutation relation between arrays of any size for a continuum of spin bases and overlap matrices.", "anchors": ["quantum_systems/basis_set.py: BasisSet.change_to_general_orbital_basis, add_spin_one_body, add_spin_two_body", "quantum_systems/general_orbital_system.py: construct_fock_matrix"]}
{"id": "C102", "title": "The choice of the spin basis", "statement": "Two orthonormal spin bases (a, b) give basis sets that differ only in the stored spinors, Pauli matrices and spin matrices: h, s, u, dipole, the functions and all flags are the same arrays. spin_x, spin_y, spin_z for the two choices are related by the 2x2 change of basis between the spinors, spin_2 is the same matrix, and spin_2_tb is (2 times the exchange of the spins minus one)/4 times the product of the overlaps for every choice.", "quantifier": "all spatial basis sets, all pairs of orthonormal spinors, both values of anti_symmetrize", "why_tests_cant": "The spin bases form a continuum; the tests use the default a = [1, 0], b = [0, 1].", "anchors": ["quantum_systems/basis_set.py: BasisSet.change_to_general_orbital_basis", "quantum_systems/basis_set.py: BasisSet.setup_pauli_matrices, setup_spin_squared_operator"]}
{"id": "C103", "title": "Dipole elements of the two-dimensional oscillators in closed form", "statement": "The dipole elements that construct_dipole_moment obtains by symbolic integration are, for |m_p - m_q| = 1, half the oscillator length 1/sqrt(m omega) times sqrt(n+|m|+1) (n kept while |m| grows by one) or -sqrt(n) (n lowered while |m| grows by one) or zero, times 1 for x and (m_q - m_p) i for y; with magnetic field the frequency is sqrt(omega_0^2 + omega_c^2/4). Transitions are between neighbouring shells only, so the energies of the two orbitals differ by omega.", "quantifier": "all numbers of orbitals, grids, masses and frequencies > 0, all magnetic fields, both components, all pairs of orbitals; also the double well", "why_tests_cant": "Improper integrals of Laguerre polynomials of all orders; the tests compare with stored tables of a few orbitals.", "anchors": ["quantum_systems/quantum_dots/two_dim/two_dim_ho.py: TwoDimensionalHarmonicOscillator.construct_dipole_moment, TwoDimHarmonicOscB.setup_basis", "quantum_systems/quantum_dots/two_dim/two_dim_helper.py: radial_integral, spf_norm, spf_radial_function, theta_1_integral, theta_2_integral"]}
{"id": "C104", "title": "Thomas-Reiche-Kuhn sum rule", "statement": "For every orbital p whose dipole-coupled neighbours are in the basis, the sum over q of (h[q,q] - h[p,p]) d[k,p,q] d[k,q,p] equals 1/(2 mass), for the two-dimensional oscillator (p not in the last shell), the one with magnetic field, and ODHO (unit mass, p not the last orbital).", "quantifier": "all sizes, frequencies, masses > 0, magnetic fields (frequency and field not both zero), both components k, all such p", "why_tests_cant": "A relation between one-body and dipole elements for all orbitals of bases of any size.", "anchors": ["quantum_systems/quantum_dots/two_dim/two_dim_ho.py: TwoDimensionalHarmonicOscillator.setup_basis, TwoDimHarmonicOscB.setup_basis", "quantum_systems/quantum_dots/one_dim/one_dim_qd.py: ODHO.setup_basis"]}
{"id": "C105", "title": "Integrals and bounds of the particle density", "statement": "The basis sets of all systems with single-particle functions describe functions on a space with an integral: spf and bra_spf hold their values at the grid points, s their overlaps and the dipole moment the matrix elements of the position (the space is the line for ODHO, the plane for the two-dimensional systems, the grid itself for ODQD and ODSincDVR). change_basis keeps this relation for the transformed functions. compute_particle_density(rho) then gives the values at the grid points of a function whose integral is the sum of rho[q,p] s[p,q] (the number of particles) and whose integral against the position is the sum of rho[q,p] d[k,p,q] (the mean dipole moment). With conjugate dual functions and positive rho the density is real and non-negative at every point, and at most the sum of the squares of the functions if rho <= 1.", "quantifier": "all constructors except the random one, all parameters (positive frequency and mass for the oscillators), all successful changes of basis (also rectangular and with independent C_tilde), all density matrices and grid points", "why_tests_cant": "Quantifies over all density matrices, all transformations and, for the oscillators, over improper integrals; the tests compare one trapezoidal sum.", "anchors": ["quantum_systems/system_helper.py: compute_particle_density", "quantum_systems/basis_set.py: BasisSet.compute_particle_density, change_basis", "quantum_systems/quantum_dots/one_dim/one_dim_qd.py: ODQD.setup_basis, ODHO.setup_basis", "quantum_systems/quantum_dots/two_dim/two_dim_ho.py: setup_basis", "quantum_systems/sinc_dvr/one_dim/sinc_dvr.py: ODSincDVR.setup_basis"]}
{"id": "C106", "title": "Reference energies and Fock matrices are many-body matrix elements", "statement": "With N-particle wave functions over the basis and the Hamilton operator sum_i h(i) + 1/2 sum_{i != j} u(i,j) in first quantisation: compute_reference_energy of a general system with anti-symmetrised elements is the expectation value of the Hamilton operator of the plain elements in the Slater determinant of the first n orbitals; of a spatial system it is the expectation value in the determinant of n doubly occupied orbitals, and the same for the general system made from it. construct_fock_matrix between a virtual orbital a and an occupied orbital i is the matrix element between the determinant with i replaced by a and the reference determinant (zero for replacements that flip the spin). So the virtual-occupied block of the Fock matrix vanishes if and only if no such coupling exists, a lower bound of the energy of antisymmetric states is a lower bound of the reference energy, and on antisymmetric functions the stored anti-symmetrised elements with prefactor 1/4 make the same operator.", "quantifier": "all systems of both classes, all numbers of particles and orbitals, all elements, all replacements of one orbital", "why_tests_cant": "Compares closed formulas with sums over N! permutations and l^N index tuples for all N and l; the tests evaluate the same formulas again.", "anchors": ["quantum_systems/general_orbital_system.py: GeneralOrbitalSystem.compute_reference_energy, construct_fock_matrix", "quantum_systems/spatial_orbital_system.py: SpatialOrbitalSystem.compute_reference_energy, construct_fock_matrix, construct_general_orbital_system", "quantum_systems/basis_set.py: BasisSet.anti_symmetrize_u, change_to_general_orbital_basis"]}
{"id": "C107", "title": "change_basis represents the Hamilton operator of any number of particles", "statement": "After a successful change_basis with C_tilde C = 1 the new elements make, for every number N of particles and every N-particle wave function, the Hamilton operator of the old elements between products of the new functions. With orthonormal columns and no C_tilde all inner products and matrix elements agree; with a square C wave functions are stationary with energy E in the new basis exactly if they are in the old one; with fewer functions lower bounds of the energy stay lower bounds. With orthonormal columns the reference energy after change_basis is the expectation value of the old Hamilton operator in the determinant of the first n columns of C (general systems), or of the first n columns each with both spins (spatial systems).", "quantifier": "all basis sets, all sizes l and n (also n < l), all C and C_tilde with C_tilde C = 1, all N, all wave functions", "why_tests_cant": "Statement about operators on l^N-dimensional spaces for all N, l and all coefficient matrices.", "anchors": ["quantum_systems/basis_set.py: BasisSet.change_basis, transform_one_body_elements, transform_two_body_elements", "quantum_systems/system.py: QuantumSystem.change_basis", "quantum_systems/general_orbital_system.py: compute_reference_energy", "quantum_systems/spatial_orbital_system.py: compute_reference_energy"]}
{"id": "C108", "title": "The stored spin arrays make the total spin of any number of particles", "statement": "After the spin doubling of an orthonormal basis with an orthonormal spin basis: for every number N of particles and every N-particle wave function, the operators sum_i S_k(i) made from spin_x, spin_y, spin_z obey the algebra of angular momenta and commute with the operators made from h and u (plain or anti-symmetrised); spin_2 + spin_2_tb makes the square of the total spin (with half of spin_2_tb on antisymmetric functions when it is anti-symmetrised). The determinant of the first n orbitals is an eigenfunction of the square of the total spin with eigenvalue 0 for even n, where every component gives 0, and 3/4 for odd n; in the standard spin basis its z component is 0 or 1/2.", "quantifier": "all well-formed bases with identity overlap (not yet anti-symmetrised, for the square of the spin), all orthonormal spin bases, both values of anti_symmetrize, all numbers of particles, all wave functions over the spin orbitals", "why_tests_cant": "A statement about operators on l^N dimensional spaces for all N; the tests compare the stored matrices with the same einsum expressions.", "anchors": ["quantum_systems/basis_set.py: BasisSet.change_to_general_orbital_basis", "quantum_systems/basis_set.py: BasisSet.setup_pauli_matrices, setup_spin_squared_operator, anti_symmetrize_two_body_elements"]}
{"id": "C109", "title": "The parallel loop over the Coulomb elements is deterministic", "statement": "_get_coulomb_elements is compiled with parallel=True, so the iterations over p run in several threads that share the array u. For every number of threads, every distribution of the iterations over them, arbitrary initial values of the private variables and every interleaving of the steps: no step raises and every unfinished thread can always go on, every execution ends after the same number of steps num*(num*(num*(2*num+2)+2)+2), two threads never work on the same iteration, every entry is zero or final at all times, and the array at the end is the one of the sequential loop.", "quantifier": "all num_orbitals, all numbers of threads and distributions of the iterations, all initial private variables, all interleavings and all prefixes of executions", "why_tests_cant": "The tests see one schedule per run on one machine with a few orbitals.", "anchors": ["quantum_systems/quantum_dots/two_dim/two_dim_helper.py: _get_coulomb_elements", "quantum_systems/quantum_dots/two_dim/two_dim_helper.py: get_indices_nm"]}
{"id": "C110", "title": "Rounding errors of basis changes, energies and Fock matrices are bounded", "statement": "In floating-point arithmetic with relative error u per operation and with the additions of every contraction done in any order and grouping (at most d additions per entry): an entry of transform_one_body_elements differs from the exact one by at most ((1+u)^(2(d+1))-1) times the sum of the absolute values of its terms, of transform_two_body_elements with exponent 4(d+1), compute_reference_energy with exponent 2d+3, an entry of construct_fock_matrix with d+3, and the energy computed after a computed basis change with 6d+7. Hermitian elements stay Hermitian up to twice the bound; anti-symmetrised elements are exactly anti-symmetric if the rounding is odd.", "quantifier": "all arrays and sizes, all unit roundoffs u >= 0, all orders and groupings of the additions and all rounding errors that the standard model allows, both kinds of systems", "why_tests_cant": "The tests compare two floating-point results with allclose on a few arrays; the bound is for every summation order of every BLAS and every rounding.", "anchors": ["quantum_systems/basis_set.py: BasisSet.transform_one_body_elements, transform_two_body_elements, anti_symmetrize_u", "quantum_systems/general_orbital_system.py: GeneralOrbitalSystem.compute_reference_energy, construct_fock_matrix", "quantum_systems/spatial_orbital_system.py: SpatialOrbitalSystem.compute_reference_energy, construct_fock_matrix"]}
{"id": "C111", "title": "Machine arithmetic does not change the orbital indices", "statement": "get_indices_nm, compiled by numba to 64-bit integers that wrap around and to binary64 floats with any correct rounding (the number 1e-8 is rounded too), returns exactly the quantum numbers that unbounded integers and rational numbers give, for all indices below 2^51; its loop ends. get_index_p with 64-bit integers agrees with unbounded integers for all quantum numbers in the first 2^31 shells.", "quantifier": "all p < 2^51, all n >= 0 and m with 2n+|m|+1 <= 2^31, all monotone rounding functions that keep representable numbers", "why_tests_cant": "The tests look at a few shells; overflow and rounding appear only far beyond.", "anchors": ["quantum_systems/quantum_dots/two_dim/two_dim_helper.py: get_indices_nm, get_index_p"]}
{"id": "C112", "title": "Sinc-DVR overlap and kinetic energy are exact integrals over the whole line", "statement": "The overlap s of ODSincDVR is the integral of products of its sinc functions over the whole line, and h[p,q] is half the integral of the product of their derivatives (equally: the integral of function p times -1/2 the second derivative of function q) plus V at the grid point if p = q. For every linear combination f with coefficients c the square integral is sum |c|^2, and sum conj(c_p) h[p,q] c_q is the kinetic energy of f on the line plus the potential energy summed over the grid with weight dx. For functions without wave numbers above pi/dx the coefficient of a sinc function is sqrt(dx) times the value at the grid point. So only the potential and the interaction are approximated.", "quantifier": "all l >= 2, grid lengths L > 0, potentials V, complex coefficients c, band-limited functions with continuous amplitude", "why_tests_cant": "The integrals run over the whole real line and decay only like 1/x^2; a test can only compare a truncated quadrature with a tolerance, for a few l.", "anchors": ["quantum_systems/sinc_dvr/one_dim/sinc_dvr.py:99-124", "quantum_systems/sinc_dvr/one_dim/sinc_dvr.py:146-160"]}
{"id": "C113", "title": "Two-body elements of the one-dimensional oscillator converge to the exact Coulomb integrals", "statement": "For fixed box length L, the element u[p,q,r,s] of ODHO differs from the integral over the box of psi_p(x) psi_q(y) alpha / sqrt((x-y)^2 + a^2) psi_r(x) psi_s(y), with the exact orthonormal oscillator functions psi, by at most a constant times the square of the grid spacing; the constant does not depend on the number of grid points. With a long enough box and then enough grid points the element is as close as desired to the integral over the whole plane, which exists.", "quantifier": "all omega > 0, a != 0, alpha, l, L > 0, numbers of grid points, p, q, r, s < l, tolerances", "why_tests_cant": "A test compares a finite number of grids with another quadrature; neither the order for all grids nor the limit can be observed.", "anchors": ["quantum_systems/quantum_dots/one_dim/one_dim_qd.py: ODHO.setup_basis, _trapz, _compute_inner_integral, _compute_orbital_integrals"]}
{"id": "C114", "title": "Energies of one-dimensional quantum dots are accurate to second order in the grid spacing", "statement": "Let psi be a smooth solution of -1/2 psi'' + V psi = E psi on [-L, L] that vanishes at both ends and not everywhere. Then on fine grids some level p of ODQD (the same for every l > p) has |h[p,p] - E| <= C dx^2. If E_0 < ... < E_k are such energies, then h[j,j] <= E_j + C dx^2 for all j <= k. If psi is positive between the ends, then |h[0,0] - E| <= C dx^2 for the lowest level.", "quantifier": "all potentials V (continuous for the lowest level), L > 0, smooth solutions, grids beyond some number of points, l, and all other arguments", "why_tests_cant": "The bound is uniform over infinitely many grids and over all potentials with smooth solutions, for which no closed forms exist.", "anchors": ["quantum_systems/quantum_dots/one_dim/one_dim_qd.py: ODQD.setup_basis"]}
{"id": "C115", "title": "Energies of one-dimensional quantum dots converge to all energies of the box", "statement": "Let V be continuous on [-L, L]. The energies for which -1/2 psi'' + V psi = E psi has a solution that vanishes at both walls and not everywhere form a strictly increasing sequence E_0 < E_1 < ..., and for every k the diagonal element h[k,k] of ODQD with more than k functions tends to E_k when the number of grid points tends to infinity, uniformly in all other arguments. Hence no energy is missed, none is spurious and the order is right. Without a potential the limit is (k+1)^2 pi^2 / (8 L^2). If the k-th energy belongs to a function with four continuous derivatives, the difference is at most a constant times the square of the grid spacing.", "quantifier": "all continuous potentials (in particular those of the package, except a hard wall inside the box and an atomic potential without softening), L > 0, levels k, tolerances, grids beyond some number of points, l and all other arguments", "why_tests_cant": "Convergence is a statement about infinitely many grids; a missed or a spurious level can appear at any level and for any potential, and exact energies are known for very few potentials.", "anchors": ["quantum_systems/quantum_dots/one_dim/one_dim_qd.py: ODQD.setup_basis", "quantum_systems/quantum_dots/one_dim/one_dim_potentials.py"]}
{"id": "C116", "title": "Functions, dipole and two-body elements of one-dimensional quantum dots converge", "statement": "Let V be continuous on [-L, L]. There are real orthonormal states psi_k of the box, one for each of its energies in increasing order, and for every number of grid points a phase for every function, such that when the grid is refined the single-particle functions spf[k] of ODQD tend uniformly on the grid to the phase times psi_k, dipole_moment[0,p,q] tends to the integral of psi_p (x + beta x^2) psi_q and u[p,q,r,s] tends to the double integral of psi_p(x) psi_q(y) alpha / sqrt((x-y)^2 + a^2) psi_r(x) psi_s(y), each with the phases of its functions. The diagonal dipole elements and the direct and exchange integrals converge without phases.", "quantifier": "all continuous potentials, L > 0, functions p, q, r, s, alpha, beta, a != 0, tolerances, grids beyond some number of points, l and all other arguments", "why_tests_cant": "Convergence speaks about infinitely many grids and all potentials; the limiting functions have no closed form, so a test has nothing to compare with.", "anchors": ["quantum_systems/quantum_dots/one_dim/one_dim_qd.py: ODQD.setup_basis, ODQD.construct_dipole_moment, _compute_inner_integral, _compute_orbital_integrals, _shielded_coulomb"]}
{"id": "C117", "title": "The k-th function of a one-dimensional quantum dot has exactly k nodes", "statement": "For every potential and every grid, the k-th single-particle function of ODQD is a number of modulus one times a real function with exactly k nodes (inner grid points where it vanishes, or sign changes between neighbouring points). In particular the lowest function has, up to a phase, positive values at all inner grid points. In a symmetric potential the p-th function has parity (-1)^p, so that dipole elements (beta = 0) with p + q even and two-body elements with p + q + r + s odd vanish.", "quantifier": "all potentials (not necessarily continuous), L > 0, numbers of grid points, l <= num_grid_points - 2, k < l and all other arguments (a != 0 for the parities)", "why_tests_cant": "The statement holds for every potential and every grid, including coarse ones; near-degenerate levels of deep double wells, where wrong order or mixing would show, are numerically the hardest to test.", "anchors": ["quantum_systems/quantum_dots/one_dim/one_dim_qd.py: ODQD.setup_basis"]}
{"id": "C118", "title": "The energies of ODQD with HOPotential tend to those of ODHO", "statement": "For ODQD with HOPotential(omega), whatever the accuracy eps, every box that is large enough has, on every grid that is fine enough, a k-th energy h[k,k] within eps of omega (k + 1/2), which is the energy held by ODHO with the same frequency. In every box the energies in the limit of fine grids lie at or above omega (k + 1/2).", "quantifier": "all omega > 0, k, accuracies, boxes L >= L0, grids num >= N(L), l <= num_grid_points - 2 and all other arguments", "why_tests_cant": "Two limits are involved, the size of the box and the grid spacing; a test sees finitely many boxes and grids and cannot tell a small bias from slow convergence.", "anchors": ["quantum_systems/quantum_dots/one_dim/one_dim_qd.py: ODQD.setup_basis", "quantum_systems/quantum_dots/one_dim/one_dim_potentials.py: HOPotential", "quantum_systems/quantum_dots/one_dim/one_dim_qd.py: ODHO"]}
{"id": "C119", "title": "ODQD with HOPotential and ODHO agree in all matrix elements in the limit", "statement": "For ODQD with HOPotential(omega) and beta = 0, and ODHO with the frequency omega on the same grid, whatever the accuracy eps, in every box that is large enough and on every grid that is fine enough there is a phase for every function such that for the first k functions: the elements of h differ by at most eps, the functions differ by at most eps in the mean square, the dipole elements differ by at most eps and the two-body elements by at most eps alpha/a, after multiplication with the phases. In particular the moduli of the dipole elements and the repulsion and exchange elements u[p,q,p,q] and u[p,q,q,p] agree.", "quantifier": "all omega > 0, k, accuracies, boxes L >= L0, grids num >= N(L), k <= l <= num_grid_points - 2, a != 0, alpha and all other arguments", "why_tests_cant": "The two classes use different algorithms (diagonalization on a grid; closed forms) whose results agree only in a double limit and up to arbitrary phases; no test with finitely many grids can establish it.", "anchors": ["quantum_systems/quantum_dots/one_dim/one_dim_qd.py: ODQD.setup_basis", "quantum_systems/quantum_dots/one_dim/one_dim_qd.py: ODHO.setup_basis", "quantum_systems/quantum_dots/one_dim/one_dim_potentials.py: HOPotential"]}
{"id": "C120", "title": "The energies of N particles: number, existence, change of basis, truncation, perturbation", "statement": "Hermitian stored elements h and u (between l orbitals, or between the 2l spin orbitals of a spatial basis set) have exactly binomial(L, N) energies of N fermions, where L is the number of orbitals, and the elements determine them. A successful change_basis with a unitary coefficient matrix keeps all of them for every N. A successful change_basis to fewer orthonormal functions moves the k-th energy up (or leaves it), for every k and N. Errors eps of all elements of h and delta of all elements of u change every energy by at most N L eps + N (N-1)/2 L^2 delta. The reference energy returned by SpatialOrbitalSystem and by GeneralOrbitalSystem with anti-symmetrised elements lies between the lowest and the highest energy.", "quantifier": "all numbers of particles N, all numbers of orbitals, all Hermitian elements, all coefficient matrices with orthonormal columns, all successful change_basis calls, all systems", "why_tests_cant": "The statement is about the spectrum of a matrix of binomial size for every N; a test would diagonalize a few small cases and cannot see the bound in the error, which must hold for every element array.", "anchors": ["quantum_systems/basis_set.py: BasisSet.change_basis", "quantum_systems/system.py: QuantumSystem.change_basis", "quantum_systems/spatial_orbital_system.py: compute_reference_energy", "quantum_systems/general_orbital_system.py: compute_reference_energy"]}
{"id": "C121", "title": "The energies of N interacting electrons in one-dimensional dots converge", "statement": "For ODQD with a continuous potential, l orbitals and N electrons that interact by the shielded Coulomb interaction, all binomial(2l, N) energies that follow from the stored h and u tend, when the number of grid points grows, to those that follow from the first l functions of the box: from the exact energies of the box and the exact double integrals. For ODHO, and for ODQD with HOPotential, they tend to those that follow from the first l oscillator functions on the whole line when the box and the number of grid points grow; in particular the energies obtained with ODQD and HOPotential and with ODHO agree in that limit.", "quantifier": "all l, N, accuracies, continuous potentials, frequencies omega > 0, a != 0, alpha and all other arguments, all grids with at least N0 points and all boxes with at least L0 half-width", "why_tests_cant": "The statement is about a limit, for every number of electrons; the functions the code obtains have arbitrary phases, so the elements themselves do not converge and only the energies do.", "anchors": ["quantum_systems/quantum_dots/one_dim/one_dim_qd.py: ODQD.setup_basis", "quantum_systems/quantum_dots/one_dim/one_dim_qd.py: ODHO.setup_basis", "quantum_systems/quantum_dots/one_dim/one_dim_qd.py: _compute_inner_integral", "quantum_systems/quantum_dots/one_dim/one_dim_potentials.py: HOPotential"]}
{"id": "C122", "title": "Repulsion raises the energies of N particles", "statement": "If the difference of two stored interactions is a repulsion (a positive operator on pairs), every energy of every number of particles is at least as large with the stronger one. With a repulsive interaction and orthonormal functions every energy of N particles is at least N times the lower bound of the one-body part, also after any sequence of basis changes, spin doublings, anti-symmetrisations, casts and module changes; if h is diagonal and ascending every energy is at least the sum of the N lowest (spin) orbital energies, and the reference energy of a spatial system lies above the lowest energy, with equality without interaction. For ODQD and ODHO all energies of N electrons grow with alpha and with decreasing shielding a; for ODHO, ODQD and TwoDimensionalHarmonicOscillator they are at least the sum of the lowest orbital energies.", "quantifier": "all numbers of particles N, all sizes, all repulsive interactions, all alpha' >= alpha >= 0 and |a| >= |a'| > 0, all grids, all sequences of operations", "why_tests_cant": "Inequalities between all eigenvalues of matrices of binomial size, for all N and all parameters; a test compares a few numbers and cannot exclude a crossing elsewhere.", "anchors": ["quantum_systems/quantum_dots/one_dim/one_dim_qd.py: ODQD.setup_basis", "quantum_systems/quantum_dots/one_dim/one_dim_qd.py: ODHO.setup_basis", "quantum_systems/quantum_dots/two_dim/two_dim_ho.py: TwoDimensionalHarmonicOscillator.setup_basis", "quantum_systems/spatial_orbital_system.py: compute_reference_energy", "quantum_systems/basis_set.py: BasisSet"]}
{"id": "C123", "title": "Larger basis sets contain smaller ones and lower the energies", "statement": "The l functions of ODHO, of ODQD on one grid, of TwoDimensionalHarmonicOscillator, of TwoDimensionalDoubleWell and of TwoDimHarmonicOscB with a confinement (omega != 0) are the first l functions of the basis set with more functions and otherwise the same parameters: every element of h, s, u and dipole_moment and every value of spf with indices below l is the same. No energy of any number of electrons goes up when functions are added, and for ODHO, TwoDimensionalHarmonicOscillator, TwoDimensionalDoubleWell and TwoDimHarmonicOscB with a repulsive interaction every energy of N electrons tends to a limit as the number of functions grows; the limit is not below the sum of the lowest one-body energies (N times the lowest one in a magnetic field, N times the bound of C92 for the double well) and not above the energy for any number of functions. Without a confinement, for omega_c < 0, the first state of TwoDimHarmonicOscB is m = -l - 5, so that basis sets with different numbers of functions are not parts of each other.", "quantifier": "all numbers of functions l <= l', all parameters, all numbers of electrons, all levels", "why_tests_cant": "The energies are eigenvalues of matrices of dimension binomial(2 l, N); a test compares a few sizes, and the limit is not reached by any.", "anchors": ["quantum_systems/quantum_dots/one_dim/one_dim_qd.py: ODQD.setup_basis, ODHO.setup_basis", "quantum_systems/quantum_dots/two_dim/two_dim_ho.py: TwoDimensionalHarmonicOscillator.setup_basis, TwoDimensionalDoubleWell.setup_basis, TwoDimHarmonicOscB.setup_basis", "quantum_systems/quantum_dots/two_dim/two_dim_helper.py: construct_dataframe, get_coulomb_elements, get_coulomb_elements_B"]}
{"id": "C124", "title": "The oscillator functions are normalised in double precision", "statement": "For every number of functions l, the normalisation of every function of ODHO as computed in double precision is close to the exact one. (False: 2 ** n * factorial(n) exceeds the largest float from n = 151 on, so that with l >= 152 the functions 151, 152, ... are zero or NaN everywhere, and so are their norms, all their Coulomb elements and the dipole elements from the one between 150 and 151 on, without any error being raised; with l >= 1025 the constructor raises OverflowError. Up to function 150 the normalisation is accurate to 2^-36, and the dipole elements are accurate to 2^-29 for 1/16 <= omega <= 2^200. spf_norm of the two-dimensional oscillator is accurate while n + |m| <= 170, then zero, and NaN for n >= 171.)", "quantifier": "all roundings and factorials with the properties of double precision, all functions n, all frequencies in the stated ranges, all grids", "why_tests_cant": "The tests use at most 20 functions and compare with stored results; the first wrong function is the 152nd. A test shows neither which n are affected nor that every n up to 150 is accurate for all frequencies.", "anchors": ["quantum_systems/quantum_dots/one_dim/one_dim_qd.py: ODHO.normalization, ODHO.ho_function, ODHO.construct_dipole_moment, _trapz, _compute_inner_integral, _compute_orbital_integrals", "quantum_systems/quantum_dots/two_dim/two_dim_helper.py: spf_norm"]}
{"id": "C125", "title": "Total angular momentum, parity and spin of N electrons", "statement": "If stored elements conserve a quantum number of the orbitals, the Hamiltonian of N particles conserves its total. The states of N electrons can then be chosen with a total quantum number and a number of electrons with each spin; the number of states with given totals is the number of choices of N spin orbitals with these totals, the elements determine which energies occur how often with which totals, a state whose energy occurs once always has definite totals, exchanging the two spins does not change the energies. This holds with the total angular momentum for TwoDimensionalHarmonicOscillator and TwoDimHarmonicOscB, with the parity for TwoDimensionalDoubleWell, ODHO and ODQD in a symmetric well. The stored dipole moments connect only states of N electrons with equal spins whose angular momenta differ by one or whose parities are opposite. With complete shells the energies of TwoDimensionalHarmonicOscillator with total angular momentum M and -M agree.", "quantifier": "all l, N, energies, totals, grids and parameters (positive omega and mass for the two-dimensional dipole rules, a != 0 in one dimension, beta = 0 for the dipole rule of ODQD), all symmetric potentials, every eigensolver that fulfils its contract", "why_tests_cant": "Binomial(2l, N) states for every l and N; degenerate states need not have totals and must be recombined.", "anchors": ["quantum_systems/quantum_dots/two_dim/two_dim_ho.py: TwoDimensionalHarmonicOscillator, TwoDimensionalDoubleWell, TwoDimHarmonicOscB", "quantum_systems/quantum_dots/one_dim/one_dim_qd.py: ODQD, ODHO", "quantum_systems/quantum_dots/two_dim/coulomb_elements.py: coulomb_ho"]}
{"id": "C126", "title": "Rounding errors of the two-dimensional interaction elements", "statement": "Every floating-point result of coulomb_ho with relative errors of at most u in log, lgamma, exp, products and sums, in whatever order the compiler (fastmath) adds the logarithms and the terms, differs from the exact element by at most an explicit relative error times the sum of the absolute values of the terms of the formula; the relative error goes to zero with u. Elements forbidden by angular momentum are exactly zero, and the bound holds for every entry of a computed table. The bound cannot be replaced by a bound on the error of the elements: for every u > 0 one rounding of one term is enough to change some element by more than any given number, in double precision by more than 100 for the orbital with ten nodes and no angular momentum.", "quantifier": "all quantum numbers, numbers of orbitals, error bounds u, orders and groupings of the sums", "why_tests_cant": "The order of the sums depends on compiler and processor; the cancellation grows exponentially with the number of nodes and is invisible in the small bases of the tests.", "anchors": ["quantum_systems/quantum_dots/two_dim/coulomb_elements.py: coulomb_ho", "quantum_systems/quantum_dots/two_dim/two_dim_helper.py: _get_coulomb_elements"]}
{"id": "C127", "title": "The time evolution of N electrons with h_t and u_t", "statement": "For a system with Hermitian elements and a LaserField (callable pulse or polarisation), AdiabaticSwitching or CustomOneBodyOperator (Hermitian matrix) with real continuous functions of time, the arrays that h_t and u_t return, whatever else is read from the system in between, define the motion of any number of electrons: the Schrödinger equation has exactly one solution for all times from every wave function at every time, it conserves inner products, the antisymmetry and the numbers of electrons with each spin. The energy changes at the rate of the derivative of the pulse times the dipole moment (of the switching function times the interaction energy), the energy without the field changes by minus the pulse times the velocity of the dipole moment, and after the pulse the populations of the stationary states are constant. With adiabatic switching every quantum number of the basis set is conserved, in the two-dimensional dot the total angular momentum. A change of basis does not change the motion.", "quantifier": "all systems, numbers of electrons, real continuous pulses, polarisations and switching functions, interleaved readings, initial states and times", "why_tests_cant": "Tests compare h_t at a few times; existence and conservation for all times and pulses are statements about a differential equation.", "anchors": ["quantum_systems/time_evolution_operators/operator.py: LaserField.h_t, AdiabaticSwitching.u_t, CustomOneBodyOperator.h_t", "quantum_systems/system.py: QuantumSystem.h_t, QuantumSystem.u_t"]}
{"id": "C128", "title": "Adiabatic switching leads to the interacting states", "statement": "For a system with Hermitian elements and an AdiabaticSwitching operator whose function is F(t / T) with F(0) = 0, F(1) = 1 and F twice continuously differentiable on [0, 1], electrons that start in the k-th state without interaction and evolve with the arrays that h_t and u_t return (whatever is read from the system in between) are, at the time T, in the k-th state of the interacting electrons up to a probability C / T, where C depends on the elements and on F only, provided that the k-th energy is not degenerate for any F(s) u in between. An explicit bound in terms of the gap, the elements and the derivatives of F holds. For two electrons in TwoDimensionalHarmonicOscillator with omega > pi / 2 and F between 0 and 1 the condition is fulfilled for the lowest level: all other energies remain at least omega - sqrt(pi omega / 2) higher, and the electrons that start in the determinant of the lowest orbital end in the interacting ground state.", "quantifier": "all systems, numbers of electrons, levels, switching functions, switching times and interleaved readings", "why_tests_cant": "The statement is about the solutions of a differential equation in the limit of long switching times for all systems; a test would have to integrate the equation for every T.", "anchors": ["quantum_systems/time_evolution_operators/operator.py: AdiabaticSwitching.u_t", "quantum_systems/system.py: QuantumSystem.h_t, QuantumSystem.u_t", "quantum_systems/quantum_dots/two_dim/two_dim_ho.py: TwoDimensionalHarmonicOscillator.setup_basis_set"]}
{"id": "C129", "title": "Errors of the elements change the motion at most linearly in time", "statement": "If the Hermitian elements of two systems differ by at most eps (h), kappa (dipole moment) and delta (u), and both are driven by the same laser field of at most F, then the wave functions of N electrons that evolve with the arrays that h_t and u_t of the systems return (whatever is read in between) move apart by at most 2 N l (eps + dim F kappa) + 2 N (N - 1) l^2 delta per unit of time; probabilities and mean values of one-body operators are changed by at most a multiple of that distance. For ODHO in a long enough box with a fine enough grid, electrons driven by any laser field therefore move as close as desired, for as long as desired, to those with the exact energies, the exact elements of the position and the exact Coulomb integrals of the oscillator functions on the whole line, and how long and fine the grid has to be does not depend on the field or the state.", "quantifier": "all systems, numbers of electrons, laser fields, times, initial wave functions, box lengths and grids", "why_tests_cant": "The statement is about solutions of a differential equation for all fields, states and times and about limits of box and grid; a test compares a few numbers of one grid.", "anchors": ["quantum_systems/time_evolution_operators/operator.py: LaserField.h_t", "quantum_systems/system.py: QuantumSystem.h_t, QuantumSystem.u_t", "quantum_systems/quantum_dots/one_dim/one_dim_qd.py: ODHO.setup_basis, _compute_inner_integral, _compute_orbital_integrals"]}
{"id": "C130", "title": "Rounding errors of the two-body and dipole elements of one-dimensional dots are bounded", "statement": "With floating-point operations of relative error at most u, whatever the order of the additions, every result of the loops for the two-body elements of ODQD on the rounded grid of num points in [-L, L] differs from the exact element on the exact grid by at most ((1+u)^(2d+19) (1 + 6 L/|a| ((1+u)^4-1)) (1 + 3 (num-1) ((1+u)^4-1))^2 - 1) |alpha|/|a| times the norms of the four functions, where d bounds the number of additions that one term passes through; the dipole elements have a similar bound times L. The computed elements have the exchange and the Hermitian symmetry up to twice the bound, for the normalised functions of an ODQD object the norms are one, both errors go to zero with u, and in double precision with up to 2001 points and L at most 100 |a| the relative error is at most 1e-10.", "quantifier": "all single-particle functions, grids, box lengths, strengths and screening lengths, rounding errors of all operations and orders of the additions", "why_tests_cant": "A test sees the rounding errors of one machine, one order of additions and a few grids, and has no exact values to compare with.", "anchors": ["quantum_systems/quantum_dots/one_dim/one_dim_qd.py: _trapz, _shielded_coulomb, _compute_inner_integral, _compute_orbital_integrals, ODQD.setup_basis"]}
{"id": "C131", "title": "Rounding errors of the energies of one-dimensional dots: finer grids get worse in the end", "statement": "Let the grid, the spacing and the entries of the finite-difference matrix of ODQD be rounded with relative errors of at most u (72 num u <= 1), let the values of the potential be wrong by at most nu, and let numpy.linalg.eigh return the eigenvalues of a matrix that differs by at most eta from the one it is given. Then every computed energy differs from the exact diagonal element of h by at most 72 num u (h[p,p] + B) + 18 u/dx^2 + u W + 2 nu + eta, where -B and W bound the potential; for HOPotential nu is at most 50 u omega^2 L^2. If eta and nu have the usual size, the k-th computed energy differs from the k-th energy of the Schroedinger equation in the box by at most C (dx^2 + u/dx^2); with a spacing of the order of the fourth root of u this is of the order of the square root of u. On grids with more than about 2/u points the first two points may be rounded to the same number, and the spacing that the code divides by is zero.", "quantifier": "all potentials, grids, box lengths, levels, rounding errors of all operations and backward errors of eigh", "why_tests_cant": "The exact energies are not available to a test, and the worst case over rounding errors and the trade-off between discretisation and rounding are statements about all grids and precisions.", "anchors": ["quantum_systems/quantum_dots/one_dim/one_dim_qd.py: ODQD.setup_basis", "quantum_systems/quantum_dots/one_dim/one_dim_potentials.py: HOPotential.__call__"]}
{"id": "C132", "title": "The origin of the dipole integrals of molecules", "statement": "construct_pyscf_system_rhf takes as origin of the dipole integrals the one point about which the nuclei have no dipole moment. The stored dipole moment is that of the RHF orbitals about this point; it does not change when the molecule is moved; the dipole moment of a neutral molecule (nuclei and electrons) does not depend on the origin and is, about this point, that of the electrons alone. In a laser field, systems with the same elements and dipole moments about different points have the same motion of any number of electrons up to a phase, so that no probability and no mean value depends on the origin.", "quantifier": "all molecules with a total nuclear charge that is not zero, orthonormal real RHF orbitals, origins, laser pulses, polarisations, numbers of electrons, initial states and times", "why_tests_cant": "The independence of the origin is a statement about all wave functions, pulses and times; a test can only compare single numbers of single molecules.", "anchors": ["quantum_systems/custom_system.py: construct_pyscf_system_rhf", "quantum_systems/time_evolution_operators/operator.py: LaserField.h_t"]}
{"id": "C133", "title": "Results do not depend on which eigenvectors the solver returns", "statement": "Two results of np.linalg.eigh for the same matrix have the same eigenvalues and eigenvectors that differ by a unitary matrix which mixes only equal eigenvalues. ODQD objects set up with two solvers have the same h and s; their functions differ by phases, dipole moments and Coulomb elements accordingly (so that their absolute values agree; grid, array module and flags agree); this survives spin doubling; reference energies, the energies of any number of electrons and, up to the phases, Fock matrices agree. After change_basis to the lowest eigenvectors of any matrix the reference energy does not depend on the choice if the last occupied and the first empty eigenvalue differ; if they agree it can depend on the choice.", "quantifier": "all solvers that keep the promise of eigh, all potentials, grids, basis sizes and interactions of one-dimensional dots, all systems of both classes and all matrices with a gap for the basis change", "why_tests_cant": "A test runs one LAPACK version, whose choice of phases it never sees changed; the tests compare absolute values without a reason why this suffices.", "anchors": ["quantum_systems/quantum_dots/one_dim/one_dim_qd.py: ODQD.setup_basis", "quantum_systems/system.py: change_basis", "tests/test_two_dim_dw.py"]}
{"id": "C134", "title": "Energies in a field: concave, never above the first-order shift, lowered in symmetric wells", "statement": "With a LaserField or a CustomOneBodyOperator set, the sum of the m lowest energies of N electrons (m = 1: the lowest energy) with the arrays that h_t and u_t return is a concave function of the instantaneous forces; the lowest energy never lies above the lowest energy at another force plus the change of the force times the mean dipole moment there, and where it is differentiable its derivative is that mean value (Hellmann-Feynman); no energy changes by more than N L sum |dF_k| max|d_k|. In wells with a parity (both oscillators, also in a magnetic field, the double well, symmetric one-dimensional dots with beta = 0) opposite fields give the same energies and a stronger field lowers the sum of the m lowest energies, so every field lowers the lowest energy. With AdiabaticSwitching and a repulsive interaction that sum is concave in the switching value and every energy grows with it.", "quantifier": "all systems with well-formed basis sets, all numbers of electrons, all callable pulses and polarisations with real values, all times and all readings of the system in between; all parameters of the named wells", "why_tests_cant": "Inequalities between exact many-electron energies for a continuum of fields; no test diagonalises the Hamiltonian of N electrons.", "anchors": ["quantum_systems/time_evolution_operators/operator.py: LaserField.h_t, AdiabaticSwitching.u_t, CustomOneBodyOperator.h_t", "quantum_systems/system.py: h_t, u_t", "quantum_systems/quantum_dots/two_dim/two_dim_ho.py", "quantum_systems/quantum_dots/one_dim/one_dim_qd.py"]}
{"id": "C135", "title": "The energy per electron does not decrease with the number of electrons", "statement": "For a basis set with a repulsive interaction the lowest energy of n electrons satisfies E_n / n <= E_K / K for n <= K; two groups of electrons together have at least the sum of their lowest energies; another electron costs at least the lower bound of the one-body part (omega / 2 in ODHO, omega in the two-dimensional oscillator). Per electron, compute_reference_energy is at least the lowest energy per electron of any smaller number of electrons. Whatever the interaction, K (K - 1) E_n((n - 1)/(K - 1) h, u) <= n (n - 1) E_K(h, u).", "quantifier": "all basis sets of the package with a repulsive interaction (all dots with alpha >= 0, also after changes of basis, spin doubling and anti-symmetrisation), all numbers of electrons, spatial and general systems", "why_tests_cant": "Relates exact energies of different numbers of electrons in every basis set; the tests look at one reference energy at a time.", "anchors": ["quantum_systems/spatial_orbital_system.py: compute_reference_energy", "quantum_systems/general_orbital_system.py: compute_reference_energy", "quantum_systems/quantum_dots/two_dim/two_dim_ho.py", "quantum_systems/quantum_dots/one_dim/one_dim_qd.py"]}
{"id": "C136", "title": "Weak pulses leave the electrons in their states", "statement": "With a LaserField or a CustomOneBodyOperator with real values, electrons leave a state of given energy up to the time b at most with the probability (N L sum_k delta_k int_a^b |F_k|)^2, of second order in the integrated forces F_k, where delta_k bounds the elements of the driven operator; and their wave function differs from that without the forces at most by N L sum_k delta_k int_a^b |F_k|.", "quantifier": "all systems with Hermitian arrays, all numbers of electrons, all continuous real pulses and polarizations, all times, whatever is read from the system in between, spin orbitals and general systems", "why_tests_cant": "A bound for every pulse, every initial state of given energy and every number of electrons; a run shows one pulse.", "anchors": ["quantum_systems/time_evolution_operators/operator.py: LaserField, CustomOneBodyOperator", "quantum_systems/system.py: h_t, u_t"]}
{"id": "C137", "title": "Electrons follow slow pulses", "statement": "With a LaserField with the real field F_k(t / T), twice continuously differentiable, electrons that start with the i-th energy in the field F_k(0) have the i-th energy in the field F_k(1) at the time T up to a probability C / T, if this energy is not degenerate in the fields in between; C depends on the elements and on F only, with an explicit bound. The energy is not degenerate in fields with 2 N L sum |F_k| delta_k below its distance from the others without field; then the electrons return to their state if the field ends with zero. Two electrons in a two-dimensional oscillator with omega > pi / 2 return to their ground state after every slow pulse of sufficiently small field strength.", "quantifier": "all systems with Hermitian arrays and a dipole moment, all numbers of electrons, all levels, all twice continuously differentiable fields, all durations T > 0, whatever is read from the system in between", "why_tests_cant": "A limit of long times, for every pulse shape and every level.", "anchors": ["quantum_systems/time_evolution_operators/operator.py: LaserField, CustomOneBodyOperator", "quantum_systems/quantum_dots/two_dim/two_dim_ho.py", "quantum_systems/system.py: h_t, u_t"]}
{"id": "C138", "title": "The same system in another unit of length", "statement": "With lengths multiplied by c > 0 (grid length, shielding, barrier), frequencies by 1/c^2, the strength of the shielded interaction by 1/c and the potential V(x) replaced by V(x/c)/c^2, ODHO, ODQD and ODSincDVR return one-body and two-body elements multiplied by 1/c^2, dipole elements and grid multiplied by c and functions divided by the square root of c; for ODQD up to the phases that the solver chooses. TwoDimensionalHarmonicOscillator and TwoDimensionalDoubleWell, whose interaction has no strength to convert, return one-body elements times 1/c^2, two-body elements times 1/c, dipole elements times c and functions times 1/c. The relation survives change_basis and the spin doubling; reference energies, Fock matrices and the energies of N electrons are multiplied like the elements, particle densities by 1/c^dim, and electrons in a LaserField move in the same way at times multiplied by c^2 in a field multiplied by 1/c^3. Six of the potential classes can be converted in this way; the smooth double well and the hard wall cannot.", "quantifier": "all factors c > 0, all numbers of functions and grid points, all parameters, all potentials, every solver that does what eigh promises, all coefficients of a change of basis, all numbers of electrons, all pulses", "why_tests_cant": "A wrong power of a length or of a frequency anywhere breaks it for every c, but is hidden at the values 1 that tests use; a test fixes finitely many c and parameters.", "anchors": ["quantum_systems/quantum_dots/one_dim/one_dim_qd.py: ODHO, ODQD", "quantum_systems/sinc_dvr/one_dim/sinc_dvr.py: ODSincDVR", "quantum_systems/quantum_dots/one_dim/one_dim_potentials.py", "quantum_systems/quantum_dots/two_dim/two_dim_ho.py"]}
{"id": "C139", "title": "The energies of a two-dimensional dot as a function of its frequency", "statement": "Every energy of N electrons with the elements of TwoDimensionalHarmonicOscillator does not decrease with omega; divided by omega it does not increase, never falls below the same energy without interaction and exceeds it by at most a constant over the square root of omega, so that the lowest one tends to the sum of the N lowest shell energies (two electrons per orbital); divided by the square root of omega it does not decrease, and for small omega it tends to the energy of the repulsion alone. The sum of the lowest m energies over omega is concave in 1/sqrt(omega). For any basis set with non-negative one-body part and interaction, making all lengths c >= 1 times as long divides every energy by a number between c and c^2; TwoDimensionalDoubleWell with mass >= 1 is such a basis set.", "quantifier": "all numbers of orbitals and electrons, all frequencies, masses and grids, all energies", "why_tests_cant": "Two-sided bounds for every frequency and limits for frequencies to infinity and to zero; needs diagonalisation of the N-electron problem for every basis size.", "anchors": ["quantum_systems/quantum_dots/two_dim/two_dim_ho.py: TwoDimensionalHarmonicOscillator.setup_basis", "quantum_systems/quantum_dots/two_dim/coulomb_elements.py: get_coulomb_elements", "quantum_systems/quantum_dots/two_dim/two_dim_helper.py: get_shell_energy"]}
{"id": "C140", "title": "Defining the missing name does not repair TwoDimSmoothDoubleWell", "statement": "TwoDimSmoothDoubleWell.setup_basis raises AttributeError on every object of the class. Called by the constructor of the base class it stops at self.a, which __init__ assigns only afterwards, with the elements of the plain oscillator in place; hence the constructor raises even if the module defines the name l that __init__ misses. On an object that has a, b and l_dw it stops at the call of change_basis_two_body_elements, a method that no class has, after h and s have been replaced by l_dw x l_dw matrices while l, u, dipole_moment and spf still belong to the oscillator basis, so that the object has no consistent size if l_dw differs from l.", "quantifier": "all objects of the class with or without each of the attributes, all sizes and parameters, all global names of the module, all eigenvalue solvers, whatever the lines after the failing call do", "why_tests_cant": "The class has no tests because it cannot be constructed; which statement fails next, and what state it leaves, depends on attributes and sizes that no test reaches.", "anchors": ["quantum_systems/quantum_dots/two_dim/two_dim_ho.py: TwoDimSmoothDoubleWell.__init__, TwoDimSmoothDoubleWell.setup_basis", "quantum_systems/basis_set.py: BasisSet"]}
{"id": "C141", "title": "Which array objects a basis set shares, and what a write into one of them changes", "statement": "With arrays as mutable objects: every method of BasisSet returns or raises, and shows the values, exactly as with immutable values, and never changes an array object that existed before the call; so over any history an array changes only if the caller writes into it. After change_basis has returned, h, u, s, dipole_moment, spf, bra_spf and spin_2_tb are no longer arrays that existed before, whereas the one-body spin matrices, the Pauli matrices and the grid still are. After the spin doubling all eleven arrays are new. copy_basis shares no array with the original or the caller. The setter of h keeps the caller's array; change_module within one module keeps every array; bra_spf of real single-particle functions is the very array spf (a write into one shows in both), of complex ones a separate array.", "quantifier": "all heaps of arrays and all ways attributes may share them, all basis sets whether consistent or not, all histories of method calls (returning or raising), new arrays and writes by the caller", "why_tests_cant": "Aliasing shows only when somebody writes in place afterwards, in an order no test enumerates; values compared right after a call cannot distinguish a shared array from a copy.", "anchors": ["quantum_systems/basis_set.py: BasisSet (all setters, bra_spf, change_module, cast_to_complex, change_basis, anti_symmetrize_two_body_elements, change_to_general_orbital_basis, copy_basis)", "quantum_systems/sinc_dvr/one_dim/sinc_dvr.py: ODSincDVR._anti_symmetrize_u"]}
{"id": "C142", "title": "Which array objects h_t and u_t return, and a time loop over construct_fock_matrix with one buffer", "statement": "On array objects, system.h_t(t) and system.u_t(t) have the same outcome and contents as on array values and change no existing array, basis set or system. h_t returns the array object of the basis set itself if has_one_body_time_evolution_operator is False, so that a write into it is seen in system.h, and a new array otherwise, so that a write into it is seen in no basis set; likewise u_t with has_two_body_time_evolution_operator. The loop f = system.construct_fock_matrix(system.h_t(t), system.u_t(t), f) over any list of times, with one recycled buffer to which no basis set refers (or none at first), ends with the Fock matrix of the last time in the buffer and leaves the basis sets and all other arrays as they were. Passing the array that h_t returned as the buffer loses the one-body part of the result, and overwrites system.h exactly if there is no one-body operator.", "quantifier": "all systems, sizes, kinds of operator, weights, pulses and switching functions, times and lists of times; all contents of the arrays and of the buffer; for which array is returned: operators that were given this system by set_time_evolution_operator", "why_tests_cant": "A test compares values, and the value returned is right in either case; whether it is the live array depends on the operator, and damage shows only after a write. A loop that recycles the buffer can be run for some lists of times only.", "anchors": ["quantum_systems/system.py:127-151", "quantum_systems/time_evolution_operators/operator.py:42-144", "quantum_systems/general_orbital_system.py:98-138", "quantum_systems/spatial_orbital_system.py:131-171"]}
{"id": "C143", "title": "Total spin of the states of N electrons: multiplets and their number", "statement": "After change_to_general_orbital_basis on an orthonormal basis set with Hermitian elements, the states of N electrons can be chosen, for every N, as common eigenstates of the operators made from the stored arrays: the Hamiltonian (h, u), the square of the total spin (spin_2, spin_2_tb) and its component (spin_z), together with any total quantum number that h and u conserve. The eigenvalues of the square are S(S+1), where S differs from N/2 by a whole number and is at most N/2 and at most l - N/2; the components are -S, ..., S, each equally often for each energy. The number of states with given S and given total quantum number follows from counting choices of spin orbitals; without quantum number there are C(l,j) C(l,N-j) - C(l,j-1) C(l,N-j+1) multiplets with S = N/2 - j. Every energy occurs with the smallest component, 0 or 1/2. How often an energy occurs with which totals is determined by the arrays. The energies are those of the N electrons of the spatial basis set. The quantum number is the angular momentum for TwoDimensionalHarmonicOscillator and TwoDimHarmonicOscB and the parity for TwoDimensionalDoubleWell and ODHO.", "quantifier": "all well-formed basis sets with identity overlap, not anti-symmetrised, with Hermitian h and u; all orthonormal spin bases; both values of anti_symmetrize; all l and N; all parameters of the named classes (a != 0 in one dimension, at least two grid points)", "why_tests_cant": "Binomial(2l, N) states for every l and N; the tests compare the spin arrays with the einsum expressions that make them, and a wrong factor between spin_2 and spin_2_tb would show only in the eigenvalues for two and more electrons.", "anchors": ["quantum_systems/basis_set.py: BasisSet.change_to_general_orbital_basis", "quantum_systems/basis_set.py: BasisSet.setup_pauli_matrices, setup_spin_squared_operator, add_spin_one_body, add_spin_two_body, anti_symmetrize_two_body_elements"]}
{"id": "C144", "title": "Total spin of electrons in pulses", "statement": "A system whose time evolution operator does not act on the spins conserves the total spin of its electrons. Let a GeneralOrbitalSystem hold the arrays that change_to_general_orbital_basis makes from an orthonormal basis set with Hermitian elements (and exchange symmetric u), with any orthonormal spin basis and with anti-symmetrised elements or not. With the arrays that h_t and u_t return for a LaserField (with a callable pulse or polarisation), an AdiabaticSwitching or a CustomOneBodyOperator whose matrix does not act on the spins, N electrons move unitarily for every N, and for spin_x, spin_y, spin_z and the square of the spin (spin_2 and spin_2_tb): the matrix elements between any two solutions of the Schroedinger equation do not change in time, a state with a definite value keeps it, and the probability to find given values of some of them at the same time does not change. So electrons that start as a singlet never become a triplet. The same holds for electrons in the orbitals of a SpatialOrbitalSystem with any CustomOneBodyOperator.", "quantifier": "all systems and basis sets of the stated kind, all orthonormal spin bases, both values of anti_symmetrize, all real continuous pulses, polarisations and switchings, whatever is read from the system in between, all N, all initial states and all times", "why_tests_cant": "A statement about all solutions of a differential equation for all times and all numbers of electrons; the tests evaluate h_t at single times.", "anchors": ["quantum_systems/time_evolution_operators/operator.py: LaserField.h_t, AdiabaticSwitching.u_t, CustomOneBodyOperator.h_t", "quantum_systems/system.py: QuantumSystem.h_t, u_t", "quantum_systems/basis_set.py: BasisSet.change_to_general_orbital_basis, setup_spin_squared_operator"]}
{"id": "C145", "title": "Energies as functions of the potential", "statement": "A deeper potential has lower energies. If the potential V' is at most c above V at the inner points of the grid, then the k-th energy that ODQD stores in h for V' is at most c above that for V, whatever the other arguments and the eigenvalue solver are; so the energies are ordered like the potentials, shift with a constant, and change by at most the largest change of the potential. The energies of N electrons in ODQD are never below those of the electrons on the inner points of the grid, and equal to them if l = num_grid_points - 2. With all these functions the k-th energy of N electrons for V' is at most N c above that for V with any number of functions, and the sum of the m lowest energies is a concave function of the potential. The same holds for ODSincDVR, and the exact levels of the Schroedinger equation on the box, to which the energies of ODQD converge, are ordered in the same way. Of the potentials of the package, HOPotential and DWPotential are deeper for smaller |omega|, SymmetricDWPotential and AsymmetricDWPotential for smaller coefficients of the even powers, GaussianPotential for larger weights and broader wells, GaussianPotentialHardWall for a wall further out or none, and AtomicPotential for a larger charge and less softening.", "quantifier": "all pairs of potentials, all real c, all grids, numbers of functions and other arguments, all eigenvalue solvers that meet their specification, all N and k, all weights of the combination, all pairs of continuous potentials for the exact levels", "why_tests_cant": "A comparison of the spectra of two Hamiltonians of any size for all pairs of potentials; the tests use a few fixed potentials.", "anchors": ["quantum_systems/quantum_dots/one_dim/one_dim_qd.py: ODQD.setup_basis", "quantum_systems/quantum_dots/one_dim/one_dim_potentials.py: all classes", "quantum_systems/sinc_dvr/one_dim/sinc_dvr.py: ODSincDVR"]}
{"id": "C146", "title": "Oscillator strengths of interacting electrons", "statement": "For every state n of N electrons the sum over all states m of (E_m - E_n) |<m|D|n>|^2, with D the dipole moment that the class stores, obeys the Thomas-Reiche-Kuhn rule as far as the basis allows. ODSincDVR: the sum is the mean value of a one-body operator that contains neither the potential nor the interaction; with beta = 0 it is N/2 minus half the mean value of the operator with the elements (-1)^(p+q), which is never negative, so it is at most N/2. ODQD with all functions of its grid: it is at most N/2 (1 + 2 |beta| L)^2 for every potential and interaction; with beta = 0, alpha >= 0 and a potential of at least v at the inner points it is also at least N/2 - dx^2/2 (E_n - N v), so that it tends to N/2 as long as the energy stays bounded. So no transition from the lowest state has (E_m - E_0) |<m|D|0>|^2 above these bounds.", "quantifier": "all grids of at least 2 (ODSincDVR) or 3 points (ODQD), all box lengths, potentials, alpha, a, beta, all N and all states, all eigenvalue solvers that meet their specification", "why_tests_cant": "An identity about sums over all states of N interacting electrons for every size, potential and interaction; the tests compare single dipole elements.", "anchors": ["quantum_systems/quantum_dots/one_dim/one_dim_qd.py: ODQD.setup_basis, ODQD.construct_dipole_moment", "quantum_systems/sinc_dvr/one_dim/sinc_dvr.py: ODSincDVR.setup_basis, ODSincDVR.construct_dipole_moment"]}
{"id": "C147", "title": "Continuity equation of moving electrons", "statement": "In ODQD with all functions of its grid, for N electrons that move with h_t and u_t of a LaserField with real pulse and polarisation or of an AdiabaticSwitching: compute_particle_density of their density matrix succeeds at every time and vanishes at both ends; at every inner point k its time derivative is -(j_k - j_(k-1)) / dx with j_k = (psi_k* psi_(k+1) - psi_(k+1)* psi_k) / (2 i dx) summed with the density matrix, for every potential, interaction, strength of the interaction and field. The currents are real and vanish at the ends, so the number of electrons between two points changes exactly by what flows through them; the velocity of the dipole moment that the class stores is dx times the sum of the currents (weighted by 1 + beta (x_k + x_(k+1))), and it is at most N (1 + 2 |beta| L) / dx times the norm.", "quantifier": "all grids of at least 3 points, box lengths, potentials, alpha, a, beta, all N, all wave functions and times, all pulses, polarisations and switchings, whatever is read in between, all eigenvalue solvers that meet their specification", "why_tests_cant": "A differential equation for all wave functions of N interacting electrons and all pulses; the tests compare densities of single determinants at one time.", "anchors": ["quantum_systems/system_helper.py: compute_particle_density", "quantum_systems/basis_set.py: BasisSet.compute_particle_density", "quantum_systems/quantum_dots/one_dim/one_dim_qd.py: ODQD.setup_basis, ODQD.construct_dipole_moment", "quantum_systems/time_evolution_operators/operator.py: LaserField.h_t, AdiabaticSwitching.u_t"]}
{"id": "C148", "title": "Systems made of converged RHF orbitals", "statement": "When the RHF calculation has converged, i.e. the real coefficients satisfy C^T S C = 1 and F(D) C = S C diag(eps) with D = 2 C_occ C_occ^T and F = h + sum D ((pq|rs) - (pr|sq)/2), then the system that construct_pyscf_system_rhf returns has: construct_fock_matrix(h, u) is the diagonal matrix of the orbital energies (with add_spin=True and anti-symmetrised elements each orbital energy twice); compute_reference_energy plus the stored nuclear_repulsion_energy is the RHF energy that the solver reports, D (h + F) / 2 + E_nuc, for both kinds of system; the reference energy is the sum of h_ii + eps_i over the occupied orbitals (half the sum over spin orbitals); and the Hamilton operator of the stored elements has that expectation value in the RHF determinant and does not couple it to any determinant with one replaced spin orbital (Brillouin).", "quantifier": "all molecules with an even number of electrons, all basis sizes, all numbers of orbitals from n/2 up (also fewer orbitals than basis functions), all overlaps, integrals, coefficients and orbital energies that satisfy the equations, all worlds the system is created in", "why_tests_cant": "The tests build a few molecules and compare with stored numbers; here the chain of transposition of the integrals, basis change, spin doubling, anti-symmetrisation and the two energy formulas is shown to reproduce the equations of the solver for every molecule.", "anchors": ["quantum_systems/custom_system.py: construct_pyscf_system_rhf", "quantum_systems/spatial_orbital_system.py: compute_reference_energy, construct_fock_matrix, construct_general_orbital_system", "quantum_systems/general_orbital_system.py: compute_reference_energy, construct_fock_matrix", "quantum_systems/basis_set.py: change_basis, change_to_general_orbital_basis, anti_symmetrize_two_body_elements"]}
{"id": "C149", "title": "A static field is a tilted potential", "statement": "A LaserField whose strength at the time t is F acts on a one-dimensional dot like the potential F (x + beta x^2). For ODQD with the potential V and l functions: h_t(t) and u_t(t) are the stored h and u of ODQD(potential = V + F (x + beta x^2), num_grid_points - 2 functions) in l orthonormal combinations of its functions, and spf and the dipole elements are those of the tilted dot in the same combinations; hence the energies of N electrons with h_t and u_t are never below those in the tilted dot, equal to them if all functions of the grid are used, and the electrons then move as in the tilted dot while the field is constant. For ODSincDVR with any number of functions h_t(t) is, entry by entry, the stored h of the object with the tilted potential, and s, u, the dipole elements and the functions are the same arrays.", "quantifier": "all potentials, grids, box sizes, alpha, a, beta, numbers of functions and electrons, eigenvalue solvers (also two different ones), pulses and polarisations (also callables), times and sequences of readings before", "why_tests_cant": "The tests compare stored numbers for a few dots without a field; that the sign and size of the laser term, the dipole elements of the eigenfunctions and the potential on the grid agree with each other for every potential and field strength is a statement about two different objects and an unknown eigenvector matrix.", "anchors": ["quantum_systems/quantum_dots/one_dim/one_dim_qd.py: ODQD.setup_basis, construct_dipole_moment", "quantum_systems/sinc_dvr/one_dim/sinc_dvr.py: ODSincDVR.setup_basis", "quantum_systems/time_evolution_operators/operator.py: LaserField.h_t", "quantum_systems/system.py: h_t, u_t"]}
{"id": "C150", "title": "Reversing the magnetic field", "statement": "TwoDimHarmonicOscB with -omega_c is the mirror image of the object with omega_c, provided no energy level of the infinite spectrum is cut by the number of orbitals: the stored h are equal entry by entry, and after a renumbering of the orbitals (n, m) to (n, -m) the two-body elements and the dipole elements along x are equal, the dipole elements along y have the opposite sign and the functions on the grid are complex conjugates; hence the energies of N interacting electrons are the same in both fields. If a level is cut this fails, because among states of the same energy those with the smallest m are kept: with omega = 4, omega_c = 6 and five orbitals the state (0, -1) is kept, but its mirror image (0, 1) is not for omega_c = -6.", "quantifier": "all numbers of orbitals and electrons, grids, masses, frequencies and fields for which the objects are constructed", "why_tests_cant": "Tests look at a few fields; the statement relates two sorted tables of unbounded length and all entries of arrays whose order depends on the sort, and the failing cases are those with exactly coinciding levels.", "anchors": ["quantum_systems/quantum_dots/two_dim/two_dim_ho.py: TwoDimHarmonicOscB.setup_basis, construct_dipole_moment, setup_spf", "quantum_systems/quantum_dots/two_dim/two_dim_helper.py: construct_dataframe, get_one_body_elements_B, get_coulomb_elements_B", "quantum_systems/quantum_dots/two_dim/coulomb_elements.py: coulomb_ho"]}
{"id": "C151", "title": "Electrons in reversed pulses", "statement": "If N electrons move according to the h_t and u_t of a system with a LaserField, then the complex conjugate of their wave function, taken backwards in time (and with a phase for every function in the case of ODQD), moves according to the h_t and u_t of a system with the same basis set and with the pulse run backwards in time; in the two-dimensional dots the component of the field along y changes its sign, and then this holds in every magnetic field without reversing it. The same holds for AdiabaticSwitching with the switching function run backwards. Hence the probability of a transition equals that of the reversed transition in the reversed pulse. It holds for ODQD (whatever phases the eigenvalue solver returns), ODHO, ODSincDVR, TwoDimensionalHarmonicOscillator, TwoDimensionalDoubleWell and TwoDimHarmonicOscB.", "quantifier": "all numbers of electrons and functions, pulses, polarisations and switching functions, potentials, eigenvalue solvers, solutions of the Schroedinger equation and times", "why_tests_cant": "It is a statement about all solutions of a differential equation with arbitrary time-dependent pulses, and about all entries of arrays of arbitrary size.", "anchors": ["quantum_systems/time_evolution_operators/operator.py: LaserField.h_t, AdiabaticSwitching.u_t", "quantum_systems/quantum_dots/one_dim/one_dim_qd.py: ODQD.setup_basis, ODHO.setup_basis", "quantum_systems/sinc_dvr/one_dim/sinc_dvr.py: ODSincDVR", "quantum_systems/quantum_dots/two_dim/two_dim_ho.py: setup_basis, construct_dipole_moment", "quantum_systems/quantum_dots/two_dim/two_dim_helper.py: theta_1_integral, theta_2_integral"]}
{"id": "C152", "title": "Electrons in rotated, rotating and mirrored fields", "statement": "Take a TwoDimensionalHarmonicOscillator or a TwoDimHarmonicOscB with a LaserField, and a system with the same basis set and the field turned by an angle phi: if N electrons move according to the h_t and u_t of the first, then the wave function with the factor exp(-i phi m) for every electron with angular momentum m moves according to those of the second, and its dipole moment is turned by phi. If phi depends on the time, it moves with the additional term phi'(t) times the angular momentum. Hence in a circularly polarised field of constant strength and frequency omega the mean energy minus omega times the mean angular momentum does not change. In systems whose functions have parities (also TwoDimensionalDoubleWell, ODHO and symmetric ODQD), the mirrored wave function moves in the opposite field and has the opposite dipole moment.", "quantifier": "all numbers of electrons and functions, frequencies, masses, magnetic fields, pulses, polarisations, angles, solutions of the Schroedinger equation and times", "why_tests_cant": "It is a statement about all solutions of a differential equation with arbitrary time-dependent fields; a wrong phase in one component of the dipole moment changes only how it is turned.", "anchors": ["quantum_systems/time_evolution_operators/operator.py: LaserField.h_t", "quantum_systems/quantum_dots/two_dim/two_dim_ho.py: construct_dipole_moment, setup_basis", "quantum_systems/quantum_dots/two_dim/two_dim_helper.py: theta_1_integral, theta_2_integral, get_indices_nm, get_coulomb_elements"]}
{"id": "C153", "title": "Systems that share one basis set object do not affect each other", "statement": "Constructing another system on the basis set object of an existing system, or changing the basis of another system with the same basis set object, does not change anything that the existing system reports (sizes, slices, elements, functions, h_t and u_t, reference energy, densities). This is false for GeneralOrbitalSystem, which doubles and anti-symmetrises the basis set object in place (even when it then raises AssertionError), and for change_basis: the existing system keeps its old sizes and slices with the new elements; a two-electron spatial system then silently reports 2 h_00 without the repulsion. It is true for SpatialOrbitalSystem, and for GeneralOrbitalSystem on a basis set that needs no transformation.", "quantifier": "All worlds of systems, basis sets and operators with valid references, all consistent systems, all particle numbers, spin bases and coefficient matrices.", "why_tests_cant": "The tests construct one system per basis set object; the effect is a silent change of another object's results and depends on the order of constructions and on the number of particles.", "anchors": ["quantum_systems/general_orbital_system.py:39-54", "quantum_systems/spatial_orbital_system.py:40-50", "quantum_systems/system.py:19-27", "quantum_systems/system.py:66-68"]}
{"id": "C154", "title": "Objects keep their identity and references stay valid", "statement": "Start without objects, create basis sets, operators and systems, and call any public methods in any order, on any of the objects, with methods returning or raising. Then every system still has the class and the very basis set object it was constructed with, every operator still has its class, the functions it was given, and (CustomOneBodyOperator) its matrix and the value of its weight at every time, no object disappears, every reference of every object (old, new or copied) leads to an existing object, and no lambda that an operator made of a plain value raises NameError.", "quantifier": "All worlds that arise from the empty one by constructors and method calls (any number, any order, any arguments, successful or not), with operators that are not bound when they are made.", "why_tests_cant": "The statement is an invariant of histories of unbounded length over an unbounded number of objects that share basis sets and operators in cycles, including half-finished calls that raised.", "anchors": ["quantum_systems/system.py:19-27", "quantum_systems/system.py:54-68", "quantum_systems/system.py:121-125", "quantum_systems/system.py:163-186", "quantum_systems/spatial_orbital_system.py:52-104", "quantum_systems/time_evolution_operators/operator.py:29-40", "quantum_systems/time_evolution_operators/operator.py:79-144"]}
{"id": "C155", "title": "Attributes of systems", "statement": "The attributes grid, h, u, s, dipole_moment, spf, bra_spf and nuclear_repulsion_energy of a system, and the spin operators of a GeneralOrbitalSystem, are the current attributes of its basis set object; a SpatialOrbitalSystem has no spin operators (AttributeError), even if its basis set has. Reading attributes of any systems any number of times in any order changes nothing that any system reports, although the first reading of bra_spf stores an array.", "quantifier": "All worlds of systems, basis sets and operators with valid references, all sequences of readings.", "why_tests_cant": "Tests read a few attributes of one system; the claim is about all sequences of readings with shared basis sets and stored dual functions.", "anchors": ["quantum_systems/system.py:83-119", "quantum_systems/general_orbital_system.py:56-74", "quantum_systems/basis_set.py:224-230"]}
{"id": "C156", "title": "Rounding errors of the elements of ODSincDVR", "statement": "In floating-point arithmetic with relative error u per operation, no overflow and no underflow, and 72·l·u ≤ 1, the arrays that ODSincDVR stores are close to the exact ones. With dx = 2L/(l-1): off-diagonal elements of h are wrong by at most 106·l·u/(dx²(p-q)²), diagonal elements by at most 180·l·u/dx² + u·W + 2ν, where W bounds the potential on the grid and ν the error of its computed values; each eigenvalue of the stored h is wrong by at most 604·l·u/dx² + u·W + 2ν (604·l·u/dx² + 101·u·ω²L² for HOPotential, including the rounding of its values); the functions on the grid are wrong by at most 360·l·u/√dx; the interaction and dipole elements are wrong by at most a constant of order u (depending on L, a, alpha, beta). Each energy of N electrons with spin changes by at most 2·l·N times the bound for the diagonal of h plus 2·l²·N(N-1) times the bound for the interaction. The computed h is exactly symmetric and real.", "quantifier": "All u ≥ 0, box sizes L > 0, numbers of points l ≥ 2 with 72·l·u ≤ 1, potentials, parameters alpha, beta and a ≠ 0, both representations of u, and all results that the rounding model allows.", "why_tests_cant": "Tests compare a few elements for a few grids with a tolerance; the claim bounds the error for every grid, potential and way of rounding.", "anchors": ["quantum_systems/sinc_dvr/one_dim/sinc_dvr.py:99-124", "quantum_systems/sinc_dvr/one_dim/sinc_dvr.py:146-175"]}
{"id": "C157", "title": "Electrons between the points of a sinc-DVR grid", "statement": "For N electrons with spin in the basis of ODSincDVR (4d representation) with the spacing dx = 2L/(l-1), compute_particle_density of their density matrix rho succeeds and gives rho[i,i]/dx at point i. While they move with h_t and u_t of a system with a LaserField (callable pulse or polarization, real field) or AdiabaticSwitching (real factor), d/dt rho[i,i] is the sum of the currents J(q,i) = (-1)^(i-q)/(dx²(i-q)²)·i(rho[i,q] - rho[q,i]) from all other points q; J is real and J(i,q) = -J(q,i), so what leaves one point arrives at another. The currents contain neither the potential nor the interaction nor the field. The stored dipole moment changes by half the sum of (δ_i - δ_q)·J(q,i) with δ = x + beta·x². For beta = 0 its velocity is a real number v with |v| ≤ N·(π/dx)·Σ|Ψ|²: no potential, interaction or field moves the electrons faster than the largest momentum of the grid.", "quantifier": "All l ≥ 2, L > 0, a, alpha, beta, potentials, numbers of electrons, moving wave functions and times; all real pulses, polarizations and switching functions; whatever else is read from the system in between.", "why_tests_cant": "Tests look at densities of a few states at rest; the claim is a conservation law for every motion.", "anchors": ["quantum_systems/sinc_dvr/one_dim/sinc_dvr.py:99-124", "quantum_systems/sinc_dvr/one_dim/sinc_dvr.py:146-152", "quantum_systems/basis_set.py:429-472"]}
{"id": "C158", "title": "Mirror images of electrons on a sinc-DVR grid", "statement": "For an even potential all arrays that ODSincDVR stores are mirror images of themselves: h[l-1-p,l-1-q] = h[p,q], the same for u in both representations and for the functions on the grid; the linear part of the dipole elements changes its sign, the quadratic part does not. N electrons in the field F of a LaserField (beta = 0, callable pulse or polarization), seen in a mirror, move exactly as the electrons of a system with the field -F, the density that compute_particle_density gives is mirrored, and the dipole moment is the opposite one. With AdiabaticSwitching mirror images move in the same way for every beta, and with a real factor the parity of a wave function and the symmetry of its density are conserved. Opposite fields give the same energies of N electrons, with mirrored states. Without a field every state whose energy occurs only once is even or odd, has a symmetric density and (beta = 0) no dipole moment. With beta = 0 and a real field the sum of the m lowest energies with the arrays h_t and u_t at one time is not higher than at a time with a weaker field.", "quantifier": "All l ≥ 2 (odd and even), L > 0, a, alpha, beta, even potentials, numbers of electrons, wave functions and times, all fields and switching functions, whatever else is read from the systems in between.", "why_tests_cant": "Tests look at single elements of one grid; the claim relates all motions in a field to all motions in the opposite field.", "anchors": ["quantum_systems/sinc_dvr/one_dim/sinc_dvr.py:99-124", "quantum_systems/sinc_dvr/one_dim/sinc_dvr.py:146-175", "quantum_systems/basis_set.py:429-472"]}
