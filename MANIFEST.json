{
 "claims": [
  {
   "property": "C01",
   "status": "proved",
   "theorems": [
    "Gftool.Props.fermi_fct_eq",
    "Gftool.Props.fermi_fct_complex_eq",
    "Gftool.Props.fermi_fct_complex_real",
    "Gftool.Props.fermi_fct_mem_Ioo",
    "Gftool.Props.fermi_fct_strictAnti",
    "Gftool.Props.fermi_fct_neg",
    "Gftool.Props.fermi_fct_zero"
   ],
   "note": "Exact arithmetic."
  },
  {
   "property": "C02",
   "status": "proved",
   "theorems": [
    "Gftool.Props.fermi_fct_inv_fermi_fct",
    "Gftool.Props.fermi_fct_fermi_fct_inv",
    "Gftool.Props.fermi_fct_bijOn"
   ],
   "note": ""
  },
  {
   "property": "C03",
   "status": "proved",
   "theorems": [
    "Gftool.Props.fermi_fct_d1_hasDerivAt",
    "Gftool.Props.fermi_fct_d1_even",
    "Gftool.Props.fermi_fct_d1_mem"
   ],
   "note": ""
  },
  {
   "property": "C04",
   "status": "proved",
   "theorems": [
    "Gftool.Props.bose_fct_eq",
    "Gftool.Props.bose_fct_pos",
    "Gftool.Props.bose_fct_strictAntiOn",
    "Gftool.Props.bose_fct_neg",
    "Gftool.Props.bose_fct_int_wrong",
    "Gftool.Props.bose_fct_strictAnti_prod"
   ],
   "note": "bose_fct_int_wrong proves that the integer-dtype path violates the formula."
  },
  {
   "property": "C05",
   "status": "proved",
   "theorems": [
    "Gftool.Props.matsubara_iff",
    "Gftool.Props.matsubara_b_iff",
    "Gftool.Props.matsubara_structure",
    "Gftool.Props.fermi_pole_iff_matsubara"
   ],
   "note": ""
  },
  {
   "property": "C06",
   "status": "proved",
   "theorems": [
    "Gftool.Props.pade_eig_ne_zero",
    "Gftool.Props.pade_eig_neg",
    "Gftool.Props.pade_eig_real",
    "Gftool.Props.pade_freq_imag",
    "Gftool.Props.pade_eig_injective",
    "Gftool.Props.pade_partner",
    "Gftool.Props.pade_fermi_expansion",
    "Gftool.Props.pade_frequencies_fermi"
   ],
   "note": "Contract: exact eigendecomposition from LAPACK."
  },
  {
   "property": "C07",
   "status": "proved",
   "theorems": [
    "Gftool.Props.pole_gf_d1_hasDerivAt",
    "Gftool.Props.pole_gf_z_conj",
    "Gftool.Props.pole_gf_tail"
   ],
   "note": ""
  },
  {
   "property": "C08",
   "status": "proved",
   "theorems": [
    "Gftool.Props.pole_gf_z_im_nonpos",
    "Gftool.Props.pole_gf_z_im_neg"
   ],
   "note": ""
  },
  {
   "property": "C09",
   "status": "partial",
   "theorems": [
    "Gftool.Props.pole_gf_tau_eq",
    "Gftool.Props.pole_gf_tau_jump",
    "Gftool.Props.pole_gf_tau_beta_occ",
    "Gftool.Props.pole_gf_tau_nonpos",
    "Gftool.Props.pole_gf_tau_complex_partial",
    "Gftool.Props.pole_gf_tau_imag_pole_wrong"
   ],
   "note": "Complete for real poles. For non-zero purely imaginary poles the code violates the closed form (pole_gf_tau_imag_pole_wrong)."
  },
  {
   "property": "C10",
   "status": "proved",
   "theorems": [
    "Gftool.Props.pole_gf_tau_fourier"
   ],
   "note": ""
  },
  {
   "property": "C11",
   "status": "proved",
   "theorems": [
    "Gftool.Props.pole_gf_ret_eq_gr_sub_le",
    "Gftool.Props.pole_gf_ret_neg",
    "Gftool.Props.pole_gf_ret_zero",
    "Gftool.Props.pole_gf_ret_norm_le",
    "Gftool.Props.pole_gf_le_zero_occ",
    "Gftool.Props.pole_gf_kms",
    "Gftool.Props.pole_gf_ret_laplace"
   ],
   "note": ""
  },
  {
   "property": "C12",
   "status": "proved",
   "theorems": [
    "Gftool.Props.chebyshev_strictMono",
    "Gftool.Props.chebyshev_abs_lt_one",
    "Gftool.Props.auto_width_pos",
    "Gftool.Props.gf_from_moments_correct",
    "Gftool.Props.gf_from_moments_zero_width",
    "Gftool.Props.gf_from_moments_auto_width",
    "Gftool.Props.gf_from_moments_empty",
    "Gftool.Props.gf_from_moments_unique",
    "Gftool.Props.gf_from_moments_zero"
   ],
   "note": ""
  },
  {
   "property": "C13",
   "status": "partial",
   "theorems": [
    "Gftool.Props.gf_from_z_correct",
    "Gftool.Props.gf_from_z_overconstrained",
    "Gftool.Props.gf_from_tau_moments",
    "Gftool.Props.gf_from_tau_occ_partial",
    "Gftool.Props.gf_from_tau_occ_one_moment",
    "Gftool.Props.gf_from_tau_occ_no_moments",
    "Gftool.Props.gf_from_tau_occ_spurious_error",
    "Gftool.Props.gf_from_tau_overconstrained",
    "Gftool.Props.gf_from_tau_occ_one_moment_optimal",
    "Gftool.Props.gf_from_tau_occ_not_optimal"
   ],
   "note": "With a requested occupation and no or too many moments the code raises on solvable problems, and with two or more moments the fit is not optimal because the occupation row is repeated (proved as violations). With one moment it is exact and optimal."
  },
  {
   "property": "C15",
   "status": "partial",
   "theorems": [
    "Gftool.Props.lstsq_ec_optimal",
    "Gftool.Props.lstsq_ec_constraint",
    "Gftool.Props.lstsq_ec_unconstrained",
    "Gftool.Props.lstsq_ec_empty",
    "Gftool.Props.lstsq_ec_error_iff",
    "Gftool.Props.lstsq_ec_contradiction_accepted",
    "Gftool.Props.lstsq_ec_singular_not_optimal",
    "Gftool.Props.lstsq_ec_min_norm",
    "Gftool.Props.lstsq_ec_unique",
    "Gftool.Props.lstsq_ec_ext_independent",
    "Gftool.Props.lstsq_ec_congr",
    "Gftool.Props.lstsq_ec_closest"
   ],
   "note": "Complete for constraint matrices of full rank; for rank-deficient ones optimality and detection of contradictions are violated (proved)."
  },
  {
   "property": "C16",
   "status": "partial",
   "theorems": [
    "Gftool.Props.orth_compl_error_iff",
    "Gftool.Props.orth_compl_orthonormal",
    "Gftool.Props.orth_compl_spans_partial",
    "Gftool.Props.orth_compl_not_span"
   ],
   "note": "Spanning needs full column rank; counterexample proved otherwise."
  },
  {
   "property": "C14",
   "status": "proved",
   "theorems": [
    "Gftool.Props.zeropole_reciprocal",
    "Gftool.Props.zeropole_zero",
    "Gftool.Props.zeropole_to_ratpol"
   ],
   "note": ""
  },
  {
   "property": "C17",
   "status": "proved",
   "theorems": [
    "Gftool.Props.reconstruct_default",
    "Gftool.Props.reconstruct_mul",
    "Gftool.Props.reconstruct_add",
    "Gftool.Props.reconstruct_one",
    "Gftool.Props.reconstruct_pow",
    "Gftool.Props.reconstruct_inv",
    "Gftool.Props.reconstruct_resolvent",
    "Gftool.Props.reconstruct_diag",
    "Gftool.Props.reconstruct_exp",
    "Gftool.Props.construct_gf_eq",
    "Gftool.Props.kind_dispatch"
   ],
   "note": ""
  },
  {
   "property": "C18",
   "status": "proved",
   "theorems": [
    "Gftool.Props.decompose_mat_correct",
    "Gftool.Props.decompose_her_correct",
    "Gftool.Props.decompose_her_close",
    "Gftool.Props.decompose_her_error_iff",
    "Gftool.Props.decompose_her_structure",
    "Gftool.Props.decompose_sym_correct",
    "Gftool.Props.decompose_sym_orthogonal",
    "Gftool.Props.decompose_her_tolerance",
    "Gftool.Props.decompose_sym_tolerance"
   ],
   "note": "relative to the contract EigExt of numpy.linalg.eig/eigh (shown satisfiable)"
  },
  {
   "property": "C19",
   "status": "partial",
   "theorems": [
    "Gftool.Props.gf_2x2_resolvent",
    "Gftool.Props.gf_2x2_hilbert",
    "Gftool.Props.gf_2x2_degenerate_fails"
   ],
   "note": "proved whenever the square root is non-zero; the degenerate case eps0 = eps1, hopping = 0 divides by zero in the code (proved as gf_2x2_degenerate_fails)"
  },
  {
   "property": "C20",
   "status": "proved",
   "theorems": [
    "Gftool.Props.siam_hamiltonian_entries",
    "Gftool.Props.siam_hamiltonian_hermitian",
    "Gftool.Props.siam_resolvent",
    "Gftool.Props.siam_resolvent_complex",
    "Gftool.Props.siam_hamiltonian_int_wrong"
   ],
   "note": "for complex-dtype hopping; integer-dtype hopping truncates the energies (siam_hamiltonian_int_wrong)"
  },
  {
   "property": "C21",
   "status": "proved",
   "theorems": [
    "Gftool.Props.siam_ret_eq",
    "Gftool.Props.siam_ret_neg",
    "Gftool.Props.siam_ret_zero",
    "Gftool.Props.siam_ret_norm_le",
    "Gftool.Props.siam_gr_eq",
    "Gftool.Props.siam_le_eq",
    "Gftool.Props.siam_ret_eq_gr_sub_le"
   ],
   "note": "relative to the contract EigExt (shown satisfiable)"
  },
  {
   "property": "C22",
   "status": "proved",
   "theorems": [
    "Gftool.Props.gf_cmpt_dyson",
    "Gftool.Props.self_root_eq_inv",
    "Gftool.Props.self_root_eq_iff_avg",
    "Gftool.Props.self_root_eq_iff_fxdpnt",
    "Gftool.Props.self_fxdpnt_dyson",
    "Gftool.Props.self_root_eq_pure"
   ],
   "note": "CPA root equation vs. averaged component Green's function and Dyson equations."
  },
  {
   "property": "C23",
   "status": "proved",
   "theorems": [
    "Gftool.Props.restrict_physical",
    "Gftool.Props.restrict_unphysical",
    "Gftool.Props.restrict_root_iff",
    "Gftool.Props.restrict_residual",
    "Gftool.Props.beb_restrict_physical",
    "Gftool.Props.beb_restrict_residual",
    "Gftool.Props.beb_restrict_root_iff"
   ],
   "note": "Restricted root equations of CPA and BEB; the in-place change of the argument is part of the model."
  },
  {
   "property": "C24",
   "status": "proved",
   "theorems": [
    "Gftool.Props.solve_root_unrestricted",
    "Gftool.Props.solve_root_restricted",
    "Gftool.Props.solve_root_cpa_condition",
    "Gftool.Props.solve_root_error_iff",
    "Gftool.Props.cpa_split_join",
    "Gftool.Props.cpa_join_error_iff",
    "Gftool.Props.occ_density_ok",
    "Gftool.Props.solve_fxdocc_root_correct",
    "Gftool.Props.fxdocc_pack_unpack",
    "Gftool.Props.solve_fxdocc_root_exact_start"
   ],
   "note": "For every solver meeting the contract HonestSolver / HonestSolverFxdocc (success only with a residual below the tolerance)."
  },
  {
   "property": "C25",
   "status": "proved",
   "theorems": [
    "Gftool.Props.us_mul_suh",
    "Gftool.Props.truncate_correct",
    "Gftool.Props.gf_loc_dec_eq",
    "Gftool.Props.gf_loc_diag",
    "Gftool.Props.gf_loc_dec_lattice",
    "Gftool.Props.gf_loc_z_lattice",
    "Gftool.Props.gf_loc_inv_correct",
    "Gftool.Props.beb_root_iff",
    "Gftool.Props.beb_root_iff_physical",
    "Gftool.Props.beb_solve_root_correct",
    "Gftool.Props.beb_start_physical",
    "Gftool.Props.beb_truncate_error",
    "Gftool.Props.beb_solve_root_zero_frequency"
   ],
   "note": "Lattice average for every density of states; in the upper half-plane all guards hold. Eigenvalue routines and root search enter by contract."
  },
  {
   "property": "C26",
   "status": "proved",
   "theorems": [
    "Gftool.Props.density_iw_eq",
    "Gftool.Props.density_iw_exact",
    "Gftool.Props.density_iw_affine",
    "Gftool.Props.density_iw_tendsto"
   ],
   "note": "Includes the proof of the Matsubara sum (convergence to the Fermi function)."
  },
  {
   "property": "C27",
   "status": "proved",
   "theorems": [
    "Gftool.Props.chem_bracket_sign",
    "Gftool.Props.chem_bracket_error_iff",
    "Gftool.Props.chem_bracket_found",
    "Gftool.Props.chem_bracket_contains",
    "Gftool.Props.chemical_potential_correct"
   ],
   "note": "scipy.optimize.root_scalar enters by the contract HonestRootScalar."
  },
  {
   "property": "C28",
   "status": "proved",
   "theorems": [
    "Gftool.Props.pade_interpolates",
    "Gftool.Props.coefficients_cases"
   ],
   "note": ""
  },
  {
   "property": "C29",
   "status": "proved",
   "theorems": [
    "Gftool.Props.calc_iterator_contFrac",
    "Gftool.Props.calc_iterator_error"
   ],
   "note": ""
  },
  {
   "property": "C30",
   "status": "proved",
   "theorems": [
    "Gftool.Props.kind_gf_select",
    "Gftool.Props.kind_self_select",
    "Gftool.Props.kind_consistent",
    "Gftool.Props.pade_even_tail",
    "Gftool.Props.pade_odd_tail"
   ],
   "note": "n_min coefficients themselves are never selected (the documentation says inclusive)."
  },
  {
   "property": "C31",
   "status": "proved",
   "theorems": [
    "Gftool.Props.apply_filter_sequential",
    "Gftool.Props.apply_filter_conjunction",
    "Gftool.Props.filter_neg_imag_iff",
    "Gftool.Props.averager_error_iff",
    "Gftool.Props.averager_mean",
    "Gftool.Props.avgStat_perm",
    "Gftool.Props.averager_perm",
    "Gftool.Props.filter_neg_imag_num_spec",
    "Gftool.Props.filter_neg_imag_num_rel_fails",
    "Gftool.Props.filter_high_variance_count",
    "Gftool.Props.filter_high_variance_rel_wrong",
    "Gftool.Props.averaged_mean",
    "Gftool.Props.averaged_misses_n_max",
    "Gftool.Props.averaged_2d_index_error",
    "Gftool.Props.mod_averager_id",
    "Gftool.Props.mod_averager_vectorized",
    "Gftool.Props.mod_averager_real_vectorized",
    "Gftool.Props.mod_averager_eq",
    "Gftool.Props.mod_averager_real_eq",
    "Gftool.Props.mod_averager_affine",
    "Gftool.Props.avg_no_neg_imag_mean",
    "Gftool.Props.filter_high_variance_spec",
    "Gftool.Props.filter_high_variance_not_iterative",
    "Gftool.Props.averager_std",
    "Gftool.Props.averager_std_single",
    "Gftool.Props.max_imag_spec",
    "Gftool.Props.filter_neg_imag_num_pades",
    "Gftool.Props.filter_neg_imag_num_empty"
   ],
   "note": "Violations found around the claim are proved: rel_num of FilterNegImagNum, rel_num of FilterHighVariance, the missing last approximant in averaged and the resulting IndexError."
  },
  {
   "property": "C32",
   "status": "proved",
   "theorems": [
    "Gftool.Props.pade_exact_rational",
    "Gftool.Props.pade_too_many_points"
   ],
   "note": "Also proved: with four or more samples of one pole the coefficients are not finite."
  },
  {
   "property": "C33",
   "status": "proved",
   "theorems": [
    "Gftool.Props.nullvec_correct",
    "Gftool.Props.nullvec_lst_correct",
    "Gftool.Props.herm_pade_correct",
    "Gftool.Props.herm_pade_fast_correct",
    "Gftool.Props.herm_pade_error_iff",
    "Gftool.Props.herm_pade_exact",
    "Gftool.Props.pade_lstsq_optimal",
    "Gftool.Props.pade_lstsq_exact",
    "Gftool.Props.pade_lstsq_den_zero"
   ],
   "note": "qr, lstsq (LinalgExt) and solve_toeplitz (ToeplitzExt) enter by contract. pade_lstsq with den_deg = 0 ignores num_deg (proved as violation)."
  },
  {
   "property": "C34",
   "status": "proved",
   "theorems": [
    "Gftool.Props.hermite2_correct",
    "Gftool.Props.hermite2_lstsq_correct",
    "Gftool.Props.eval_branches_correct",
    "Gftool.Props.eval_branches_solve",
    "Gftool.Props.hermite2_eval_closest",
    "Gftool.Props.hermite2_eval_scalar_fails",
    "Gftool.Props.hermite2_from_taylor",
    "Gftool.Props.ret_select_correct",
    "Gftool.Props.hermite2_rational",
    "Gftool.Props.hermite2_quadratic",
    "Gftool.Props.not_square_of_odd",
    "Gftool.Props.hermite2_exact_quadratic",
    "Gftool.Props.hermite2_lstsq_optimal",
    "Gftool.Props.hermite2_lstsq_zero",
    "Gftool.Props.hermite2_from_taylor_lstsq",
    "Gftool.Props.hermite2_ret_eval",
    "Gftool.Props.ret_from_taylor",
    "Gftool.Props.ret_from_taylor_lstsq"
   ],
   "note": "For arrays of evaluation points; a scalar point raises TypeError (proved as violation)."
  },
  {
   "property": "C35",
   "status": "partial",
   "theorems": [
    "Gftool.Props.pader_partial",
    "Gftool.Props.pader_exact_partial",
    "Gftool.Props.pader_returns_partial",
    "Gftool.Props.pader_num_zero_wrong",
    "Gftool.Props.pader_den_zero_fails",
    "Gftool.Props.pader_rho_scale",
    "Gftool.Props.pader_rho_full_iff",
    "Gftool.Props.pader_reduction_partial",
    "Gftool.Props.pader_rational",
    "Gftool.Props.pader_polynomial_fails",
    "Gftool.Props.pader_monomial_fails"
   ],
   "note": "The property is false for den_deg = 0 and for polynomials of degree up to num_deg - den_deg (ValueError), for num_deg = 0 and for series starting with z^num_deg (always the zero function): all proved as violations. Otherwise, if the numerical rank is the rank, pader returns and its quotient is the one of any approximant of the requested degrees, whatever reductions take place."
  },
  {
   "property": "C36",
   "status": "proved",
   "theorems": [
    "Gftool.Props.predict_correct",
    "Gftool.Props.predict_neg",
    "Gftool.Props.predict_exact",
    "Gftool.Props.predict_compose",
    "Gftool.Props.predict_order_silent"
   ],
   "note": "For order > len(x) the code does not always fail but may return a wrong value silently (proved: predict_order_silent)."
  },
  {
   "property": "C37",
   "status": "proved",
   "theorems": [
    "Gftool.Props.companion_charpoly",
    "Gftool.Props.companion_advances",
    "Gftool.Props.predict_companion"
   ],
   "note": ""
  },
  {
   "property": "C38",
   "status": "proved",
   "theorems": [
    "Gftool.Props.predict_stable_values",
    "Gftool.Props.predict_stable_bounded",
    "Gftool.Props.predict_stable_eq_plain"
   ],
   "note": "numpy.linalg.eig enters by contract (EigExt)."
  },
  {
   "property": "C39",
   "status": "proved",
   "theorems": [
    "Gftool.Props.burg_reflection",
    "Gftool.Props.pcoeff_burg_result",
    "Gftool.Props.burg_errors",
    "Gftool.Props.burg_optimal",
    "Gftool.Props.burg_stable",
    "Gftool.Props.burg_marginal",
    "Gftool.Props.pcoeff_burg_stable",
    "Gftool.Props.burg_on_circle"
   ],
   "note": "Also proved: the documented stability (roots of the predictor polynomial)."
  },
  {
   "property": "C40",
   "status": "proved",
   "theorems": [
    "Gftool.Props.pcoeff_covar_min",
    "Gftool.Props.pcoeff_covar_exact",
    "Gftool.Props.pcoeff_covar_recurs",
    "Gftool.Props.pcoeff_covar_continues"
   ],
   "note": "numpy.linalg.lstsq enters by contract (LinalgExt)."
  },
  {
   "property": "C41",
   "status": "proved",
   "theorems": [
    "Gftool.Props.iw2tau_dft_correct",
    "Gftool.Props.iw2tau_dft_empty",
    "Gftool.Props.iw2tau_dft_antiperiodic",
    "Gftool.Props.tau2iw_dft_correct",
    "Gftool.Props.tau2iw_dft_empty",
    "Gftool.Props.tau2iw_dft_iw2tau_dft",
    "Gftool.Props.iw2tau_dft_tau2iw_dft",
    "Gftool.Props.iw2tau_dft_soft_correct",
    "Gftool.Props.soft_extend_spec"
   ],
   "note": "Both round trips, for every N; also the explicit Matsubara sum."
  },
  {
   "property": "C42",
   "status": "partial",
   "theorems": [
    "Gftool.Props.tau2iv_ft_lin_exact",
    "Gftool.Props.tau2iw_ft_lin_exact",
    "Gftool.Props.tau2iw_ft_lin_jump",
    "Gftool.Props.tau2iw_ft_lin_no_jump",
    "Gftool.Props.tau2iw_ft_lin_jump_wrong",
    "Gftool.Props.tau2iv_ft_lin_total",
    "Gftool.Props.tau2iw_ft_lin_total",
    "Gftool.Props.exists_spline",
    "Gftool.Props.tt2z_lin_exact",
    "Gftool.Props.tt2z_lin_error_iff",
    "Gftool.Props.tt2z_lin_zero",
    "Gftool.Props.tt2z_lin_grid_accepted"
   ],
   "note": "Exact for every number of points and frequency; for data with a jump tau2iw_ft_lin integrates the spline on [-beta,beta], the difference to [0,beta] is given exactly (violation). tt2z_lin accepts tiny non-equidistant grids (violation, witness)."
  },
  {
   "property": "C43",
   "status": "proved",
   "theorems": [
    "Gftool.Props.tau2iv_dft_correct",
    "Gftool.Props.tau2iv_dft_no_jump",
    "Gftool.Props.tau2iv_dft_jump_wrong",
    "Gftool.Props.tau2iv_dft_single",
    "Gftool.Props.tau2iv_jump",
    "Gftool.Props.tau2iv_ft_lin_total"
   ],
   "note": "The trapezoidal rule at non-zero frequencies needs periodic data (witness otherwise)."
  },
  {
   "property": "C44",
   "status": "proved",
   "theorems": [
    "Gftool.Props.gf_from_z_recovers",
    "Gftool.Props.gf_from_z_affine",
    "Gftool.Props.gf_from_tau_recovers",
    "Gftool.Props.gf_from_tau_affine",
    "Gftool.Props.iw2tau_exact",
    "Gftool.Props.iw2tau_affine",
    "Gftool.Props.iw2tau_dft_affine",
    "Gftool.Props.iw2tau_dft_soft_affine",
    "Gftool.Props.iw2tau_dft_zero",
    "Gftool.Props.iw2tau_dft_soft_zero",
    "Gftool.Props.tau2iw_dft_affine",
    "Gftool.Props.tau2iw_ft_lin_affine",
    "Gftool.Props.tau2iw_dft_zero",
    "Gftool.Props.tau2iw_ft_lin_zero",
    "Gftool.Props.tau2iw_exact",
    "Gftool.Props.tau2iw_exact_default",
    "Gftool.Props.tau2iw_affine",
    "Gftool.Props.tau2iw_ft_lin_total",
    "Gftool.Props.izp2tau_exact",
    "Gftool.Props.izp2tau_range",
    "Gftool.Props.tau2izp_exact",
    "Gftool.Props.tau2izp_exact_default",
    "Gftool.Props.tau2izp_affine",
    "Gftool.Props.tau2iw_no_moments",
    "Gftool.Props.izp2tau_affine",
    "Gftool.Props.tau2izp_affine_moments",
    "Gftool.Props.gf_from_tau_occ_recovers",
    "Gftool.Props.tau2izp_occ_exact",
    "Gftool.Props.tau2izp_occ_affine"
   ],
   "note": "For every backend with the stated property (proved for all four backends); the spread found by the scalar minimizer is arbitrary and non-zero. tau2izp with occ is covered for the default moments; with two or more moments and occ the fit is not optimal (C13)."
  },
  {
   "property": "C45",
   "status": "proved",
   "theorems": [
    "Gftool.Props.tt2z_trapz_correct",
    "Gftool.Props.tt2z_trapz_exact",
    "Gftool.Props.trapz_weight_correct",
    "Gftool.Props.trapz_weight_exact",
    "Gftool.Props.simps_weight_correct",
    "Gftool.Props.simps_weight_exact",
    "Gftool.Props.simps_weight_even_exact",
    "Gftool.Props.simps_weight_two_wrong",
    "Gftool.Props.tt2z_simps_correct",
    "Gftool.Props.tt2z_simps_exact",
    "Gftool.Props.tt2z_simps_error_iff",
    "Gftool.Props.tt2z_simps_constant_wrong",
    "Gftool.Props.tt2z_correct"
   ],
   "note": "Simpson weights are exact to degree three for an odd number of points, to degree one for an even number of at least four; two points with endpoint are wrong (proved). tt2z_simps gives the last point twice its Simpson weight."
  },
  {
   "property": "C46",
   "status": "proved",
   "theorems": [
    "Gftool.Props.tt2z_lpz_exact",
    "Gftool.Props.tt2z_lpz_exponentials",
    "Gftool.Props.tt2z_lpz_error_iff",
    "Gftool.Props.tt2z_lpz_phase_ignored",
    "Gftool.Props.tt2z_lpz_phase_wrong",
    "Gftool.Props.tt2z_pade_exact",
    "Gftool.Props.tt2z_pade_exponentials",
    "Gftool.Props.tt2z_pade_rejects",
    "Gftool.Props.tt2z_herm2_rejects",
    "Gftool.Props.tt2z_herm2_solves",
    "Gftool.Props.tt2z_herm2_exact",
    "Gftool.Props.tt2z_herm2_exponentials"
   ],
   "note": "For times starting at zero; tt2z_lpz silently loses the phase otherwise (proved). The denominators of the approximants must not vanish at the frequency. lstsq and qr enter by contract."
  },
  {
   "property": "C47",
   "status": "proved",
   "theorems": [
    "Gftool.Props.hubbard_dimer_value_error_iff",
    "Gftool.Props.hubbard_dimer_two_poles",
    "Gftool.Props.hubbard_dimer_particle_hole",
    "Gftool.Props.hubbard_dimer_noninteracting",
    "Gftool.Props.hubbard_dimer_zero_fails",
    "Gftool.Props.fock_car",
    "Gftool.Props.fock_adjoint",
    "Gftool.Props.hubbard_dimer_exact",
    "Gftool.Props.hubbard_dimer_ground"
   ],
   "note": "For t = U = 0 the code divides by zero (proved)."
  },
  {
   "property": "C48",
   "status": "proved",
   "theorems": [
    "Gftool.Props.hubbard_I_atomic",
    "Gftool.Props.hubbard_I_atomic_offaxis",
    "Gftool.Props.hubbard_I_exact"
   ],
   "note": ""
  },
  {
   "property": "C49",
   "status": "partial",
   "theorems": [
    "Gftool.Props.pole_gf_tau_b_eq",
    "Gftool.Props.pole_gf_tau_b_error_iff",
    "Gftool.Props.pole_gf_tau_b_fourier",
    "Gftool.Props.pole_gf_tau_b_zero_pole_accepted"
   ],
   "note": "The formula, the error conditions and the Fourier transform are proved; the documented ValueError for a pole equal to zero is not raised (pole_gf_tau_b_zero_pole_accepted)."
  },
  {
   "property": "C50",
   "status": "proved",
   "theorems": [
    "Gftool.Props.surface_gf_dyson",
    "Gftool.Props.surface_gf_im_neg",
    "Gftool.Props.surface_gf_norm_lt",
    "Gftool.Props.surface_gf_unique",
    "Gftool.Props.surface_gf_tail"
   ],
   "note": ""
  },
  {
   "property": "C51",
   "status": "proved",
   "theorems": [
    "Gftool.Props.bethe_quadratic",
    "Gftool.Props.bethe_norm_lt",
    "Gftool.Props.bethe_norm_le",
    "Gftool.Props.bethe_im_neg",
    "Gftool.Props.bethe_inv_gf",
    "Gftool.Props.bethe_inv_offBand",
    "Gftool.Props.bethe_gf_inv",
    "Gftool.Props.bethe_image",
    "Gftool.Props.bethe_d1",
    "Gftool.Props.bethe_d2",
    "Gftool.Props.bethe_gf_tail"
   ],
   "note": "z = 0 is excluded: the code divides by zero there."
  },
  {
   "property": "C52",
   "status": "proved",
   "theorems": [
    "Gftool.Props.bethe_dos",
    "Gftool.Props.bethe_gf_hilbert",
    "Gftool.Props.bethe_isHilbert",
    "Gftool.Props.onedim_dos",
    "Gftool.Props.onedim_gf_hilbert",
    "Gftool.Props.onedim_isHilbert",
    "Gftool.Props.box_dos",
    "Gftool.Props.box_gf_hilbert",
    "Gftool.Props.box_isHilbert"
   ],
   "note": "For all z off the band, including real z outside of it."
  },
  {
   "property": "C53",
   "status": "proved",
   "theorems": [
    "Gftool.Props.bethez_error_iff",
    "Gftool.Props.bethez_two",
    "Gftool.Props.bethez_cavity",
    "Gftool.Props.bethez_infinite",
    "Gftool.Props.bethez_dos",
    "Gftool.Props.bethez_gf_hilbert",
    "Gftool.Props.bethez_isHilbert",
    "Gftool.Props.bethez_dos_low_weight"
   ],
   "note": "Also proved: for Z >= 2 gf_z is the Hilbert transform of dos; for non-integer 1 < Z < 2 the DOS has weight Z - 1 only."
  },
  {
   "property": "C55",
   "status": "partial",
   "theorems": [
    "Gftool.Props.box_gf_ret_t_causal",
    "Gftool.Props.box_gf_ret_t_fourier",
    "Gftool.Props.box_gf_ret_t_small",
    "Gftool.Props.box_gf_ret_t_center",
    "Gftool.Props.box_gf_ret_t_center_partial",
    "Gftool.Props.box_gf_ret_t_center_wrong",
    "Gftool.Props.bethe_gf_ret_t_causal",
    "Gftool.Props.bethe_gf_ret_t_fourier",
    "Gftool.Props.bethe_gf_ret_t_small",
    "Gftool.Props.bethe_gf_ret_t_center",
    "Gftool.Props.bethe_gf_ret_t_center_partial",
    "Gftool.Props.bethe_gf_ret_t_center_wrong",
    "Gftool.Props.bethe_gf_ret_t_accuracy",
    "Gftool.Props.box_gf_ret_t_accuracy"
   ],
   "note": "The code multiplies by exp(-i center D t), so the claim about center is false unless D = 1."
  },
  {
   "property": "C56",
   "status": "proved",
   "theorems": [
    "Gftool.Props.hilbertPair_conj",
    "Gftool.Props.honeycomb_hilbert",
    "Gftool.Props.honeycomb_dos_symm",
    "Gftool.Props.honeycomb_scaling",
    "Gftool.Props.kagome_hilbert",
    "Gftool.Props.kagome_scaling",
    "Gftool.Props.lieb_hilbert",
    "Gftool.Props.lieb_dos_symm",
    "Gftool.Props.lieb_scaling",
    "Gftool.Props.honeycomb_hilbert_triangular",
    "Gftool.Props.kagome_hilbert_triangular"
   ],
   "note": "Proved for every base lattice whose gf_z is the Hilbert transform of its dos."
  },
  {
   "property": "C54",
   "status": "partial",
   "theorems": [
    "Gftool.Props.bethe_dos_moment",
    "Gftool.Props.bethe_moment_catalan",
    "Gftool.Props.bethe_dos_moment_error_iff",
    "Gftool.Props.bethe_dos_moment_zero_fails",
    "Gftool.Props.onedim_dos_moment",
    "Gftool.Props.onedim_dos_moment_exact",
    "Gftool.Props.onedim_dos_moment_error_iff",
    "Gftool.Props.box_dos_moment",
    "Gftool.Props.square_dos_moment",
    "Gftool.Props.square_moment_dos",
    "Gftool.Props.square_dos_moment_error_iff",
    "Gftool.Props.square_dos_moment_zero_fails",
    "Gftool.Props.triangular_dos_moment",
    "Gftool.Props.triangular_dos_moment_error_iff",
    "Gftool.Props.triangular_dos_moment_zero_fails",
    "Gftool.Props.sc_dos_moment",
    "Gftool.Props.sc_dos_moment_error_iff",
    "Gftool.Props.sc_dos_moment_zero_fails",
    "Gftool.Props.bcc_dos_moment",
    "Gftool.Props.bcc_dos_moment_error_iff",
    "Gftool.Props.bcc_dos_moment_zero_fails",
    "Gftool.Props.fcc_dos_moment",
    "Gftool.Props.fcc_dos_moment_error_iff",
    "Gftool.Props.honeycomb_dos_moment",
    "Gftool.Props.honeycomb_dos_moment_error_iff",
    "Gftool.Props.honeycomb_dos_moment_zero_fails",
    "Gftool.Props.kagome_dos_moment",
    "Gftool.Props.kagome_dos_moment_error_iff",
    "Gftool.Props.lieb_dos_moment",
    "Gftool.Props.lieb_dos_moment_error_iff",
    "Gftool.Props.triangular_moment_dos",
    "Gftool.Props.bcc_moment_dos",
    "Gftool.Props.fcc_moment_dos",
    "Gftool.Props.sc_moment_dos",
    "Gftool.Props.honeycomb_moment_dos",
    "Gftool.Props.kagome_moment_dos",
    "Gftool.Props.lieb_moment_dos",
    "Gftool.Props.box_dos_moment_neg_not_integrable",
    "Gftool.Props.box_dos_moment_neg_wrong"
   ],
   "note": "All tables proved for all orders and half-bandwidths (relative error 5e-15 of the decimal entries). Violated for m=0: bethe, square, triangular, honeycomb, sc and bcc raise NotImplementedError instead of returning 1."
  },
  {
   "property": "C57",
   "status": "partial",
   "theorems": [
    "Gftool.Props.bethe_dos_mp",
    "Gftool.Props.onedim_dos_mp",
    "Gftool.Props.onedim_dos_mp_edge_fails",
    "Gftool.Props.honeycomb_dos_mp",
    "Gftool.Props.kagome_dos_mp",
    "Gftool.Props.lieb_dos_mp",
    "Gftool.Props.lieb_dos_mp_square",
    "Gftool.Props.square_dos_mp",
    "Gftool.Props.triangular_dos_mp",
    "Gftool.Props.triangular_dos_mp_partial",
    "Gftool.Props.triangular_dos_mp_wrong",
    "Gftool.Props.bcc_dos_mp",
    "Gftool.Props.bcc_dos_singular_iff",
    "Gftool.Props.bcc_dos_int",
    "Gftool.Props.bcc_scaling",
    "Gftool.Props.sc_gf_z_mp",
    "Gftool.Props.sc_dos_mp_partial",
    "Gftool.Props.sc_dos_mp_differs",
    "Gftool.Props.sc_dos_even_scaling",
    "Gftool.Props.sc_dos_outside",
    "Gftool.Props.fcc_dos_mp",
    "Gftool.Props.fcc_dos_band",
    "Gftool.Props.fcc_dos_int",
    "Gftool.Props.fcc_scaling",
    "Gftool.Props.np_pi_rounded",
    "Gftool.Props.triangular_dos_mp_rel_error"
   ],
   "note": "onedim.dos_mp raises ZeroDivisionError at the band edges; triangular.dos_mp uses the double np.pi; bcc.dos and fcc.dos raise OverflowError for integer energies; sc.dos_mp is wrong close to the middle of the band. All lattices are covered; the status is partial because of these violations."
  },
  {
   "property": "C60",
   "status": "partial",
   "theorems": [
    "Gftool.Props.density_eq",
    "Gftool.Props.density_exact",
    "Gftool.Props.density_tendsto",
    "Gftool.Props.density_total",
    "Gftool.Props.density_matrix_exact",
    "Gftool.Props.density_matrix_complex_fails",
    "Gftool.Props.density_error_bound",
    "Gftool.Props.density_error2_bound",
    "Gftool.Props.density_accuracy",
    "Gftool.Props.density_error_noisy_negative",
    "Gftool.Props.density_never_warns",
    "Gftool.Props.check_convergence_tendsto",
    "Gftool.Props.check_convergence_matrix_fails",
    "Gftool.Props.check_convergence_matrix_partial"
   ],
   "note": "Value, exactness, convergence and the error bounds are proved. Violated: density(matrix=True) raises TypeError for a complex potential, the noisy error estimate may be negative, the convergence warning can never be issued, and check_convergence(matrix=True) raises unless the number of frequencies equals the matrix size."
  },
  {
   "property": "C58",
   "status": "partial",
   "theorems": [
    "Gftool.Props.number_poles_assert_iff",
    "Gftool.Props.number_poles_assert_fails",
    "Gftool.Props.number_poles_value_error",
    "Gftool.Props.number_poles_sound",
    "Gftool.Props.number_poles_runtime_error",
    "Gftool.Props.number_poles_terminates",
    "Gftool.Props.number_poles_zero_start_diverges",
    "Gftool.Props.poles_null_dim_exact",
    "Gftool.Props.number_poles_exact",
    "Gftool.Props.number_poles_overestimates",
    "Gftool.Props.number_poles_determined_fails"
   ],
   "note": "Termination for every data set (degree 0, -1, -2, start value at least one), bounds of the result and exactness for rational data are proved. Violated: the assertion fails whenever size - degree is even and at most 100; n_poles0 = 0 loops forever; small data sets give one pole too many."
  },
  {
   "property": "C59",
   "status": "partial",
   "theorems": [
    "Gftool.Props.padeapprox_same_function",
    "Gftool.Props.padeapprox_polefct_assert",
    "Gftool.Props.polepade_poles_exact",
    "Gftool.Props.polepade_zeros_exact",
    "Gftool.Props.polepade_zeros_empty_fails",
    "Gftool.Props.asymptotic_exact",
    "Gftool.Props.asymptotic_std",
    "Gftool.Props.asymptotic_weighted_std_wrong",
    "Gftool.Props.residues_ols_exact",
    "Gftool.Props.residues_ols_too_many_moments",
    "Gftool.Props.continuation_exact",
    "Gftool.Props.continuation_single_pole_fails",
    "Gftool.Props.continuation_degree_error",
    "Gftool.Props.npMedian_spec",
    "Gftool.Props.npMedian_odd_data",
    "Gftool.Props.continuation_odd_data_fails",
    "Gftool.Props.continuation_rotate_default",
    "Gftool.Props.pade_approx_moments_tail",
    "Gftool.Props.residues_ols_moments",
    "Gftool.Props.continuation_moments"
   ],
   "note": "The two representations agree and the whole continuation is exact for rational functions whose sampled values have a non-vanishing median. Violated: with weights the reported standard deviation is a variance; functions without zeros (e.g. a single pole) always raise ValueError; data that contain with every value its negative (odd function on a symmetric grid) always raise, as their median vanishes. QR, SVD, least squares and generalised eigenvalues enter by contract (polepadeExt shows that it can be met)."
  },
  {
   "property": "C61",
   "status": "proved",
   "theorems": [
    "Gftool.Props.square_dos",
    "Gftool.Props.square_dos_outside",
    "Gftool.Props.square_dos_symm",
    "Gftool.Props.square_scaling",
    "Gftool.Props.rectangular_dos",
    "Gftool.Props.rectangular_dos_outside",
    "Gftool.Props.rectangular_dos_symm",
    "Gftool.Props.rectangular_scaling",
    "Gftool.Props.rectangular_dos_square",
    "Gftool.Props.triangular_dos",
    "Gftool.Props.triangular_dos_outside",
    "Gftool.Props.triangular_dos_scaling",
    "Gftool.Props.triangular_dos_norm",
    "Gftool.Props.bcc_dos",
    "Gftool.Props.bcc_dos_pos",
    "Gftool.Props.sc_dos",
    "Gftool.Props.sc_dos_fraction",
    "Gftool.Props.sc_dos_pos",
    "Gftool.Props.sc_dos_pos_all",
    "Gftool.Props.sc_hilbert",
    "Gftool.Props.fcc_dos",
    "Gftool.Props.fcc_dos_pos",
    "Gftool.Props.onedim_dos_disp",
    "Gftool.Props.honeycomb_dos",
    "Gftool.Props.kagome_dos",
    "Gftool.Props.lieb_dos",
    "Gftool.Props.sc_dos_mp_three_partial"
   ],
   "note": "All lattices with a dispersion: one-dimensional, square, rectangular, triangular, simple, body-centred and face-centred cubic, and the dispersive bands of honeycomb, kagome and Lieb (rectangular: scale>0, as distributions; the value at the band edge is an approximation in the code). sc.dos: exact outside of the tolerance around the middle of the band, the error of the Taylor expansion used inside is bounded (sc_dos, sc_dos_fraction). sc_dos_mp_three_partial: dos_mp, half-bandwidth 3 only."
  },
  {
   "property": "C62",
   "status": "partial",
   "theorems": [
    "Gftool.Props.square_gf_z",
    "Gftool.Props.square_gf_z_contract",
    "Gftool.Props.square_hilbert",
    "Gftool.Props.square_stress_trafo_dos",
    "Gftool.Props.square_stress_trafo",
    "Gftool.Props.lieb_hilbert_square",
    "Gftool.Props.rectangular_gf_z",
    "Gftool.Props.rectangular_contract",
    "Gftool.Props.rectangular_hilbert",
    "Gftool.Props.rectangular_gf_z_square",
    "Gftool.Props.triangular_gf_z_partial",
    "Gftool.Props.triangular_gf_z_up",
    "Gftool.Props.triangular_gf_z_singular_wrong",
    "Gftool.Props.triangular_gf_z_singular_missed",
    "Gftool.Props.triangular_gf_z_cut_wrong",
    "Gftool.Props.triangular_hilbert",
    "Gftool.Props.bcc_gf_z",
    "Gftool.Props.bcc_hilbert",
    "Gftool.Props.bcc_gf_z_real_retarded",
    "Gftool.Props.bcc_gf_z_real_advanced",
    "Gftool.Props.sc_gf_z",
    "Gftool.Props.sc_gf_z_real_retarded",
    "Gftool.Props.sc_gf_z_real_advanced",
    "Gftool.Props.fcc_gf_z_partial",
    "Gftool.Props.fcc_regular_of_far",
    "Gftool.Props.fcc_gf_z_cut",
    "Gftool.Props.fcc_gf_z_wrong",
    "Gftool.Props.fcc_hilbert_partial",
    "Gftool.Props.fcc_gf_z_real_advanced",
    "Gftool.Props.fcc_gf_z_half_retarded",
    "Gftool.Props.fcc_gf_z_conj",
    "Gftool.Props.onedim_gf_z_disp",
    "Gftool.Props.honeycomb_gf_z_bands",
    "Gftool.Props.kagome_gf_z_bands",
    "Gftool.Props.lieb_gf_z_bands"
   ],
   "note": "Square, rectangular, triangular, simple, body-centred and face-centred cubic lattice, and Lieb, honeycomb, kagome based on them. triangular.gf_z is wrong at z=-1 for half_bandwidth<3/2; triangular.gf_z and fcc.gf_z are wrong exactly on the cut of the elliptic integral (proved)."
  },
  {
   "property": "C63",
   "status": "partial",
   "theorems": [
    "Gftool.Props.masked_coefficients_error_iff",
    "Gftool.Props.masked_coefficients_eliminated",
    "Gftool.Props.masked_coefficients_kept",
    "Gftool.Props.masked_coefficients_regular",
    "Gftool.Props.masked_coefficients_interpolates",
    "Gftool.Props.calc_iterator_zero_coeff",
    "Gftool.Props.masked_coefficients_truncates",
    "Gftool.Props.masked_coefficients_wrong",
    "Gftool.Props.masked_entry_error",
    "Gftool.Props.masked_coefficients_huge_value"
   ],
   "note": "The coefficients of the kept points are right, but used with all points (as documented) the zero coefficients end the continued fraction, so all values behind the first eliminated one are ignored; proved with a witness."
  },
  {
   "property": "C64",
   "status": "partial",
   "theorems": [
    "Gftool.Props.bethez_real_space",
    "Gftool.Props.onedim_real_space",
    "Gftool.Props.rectangular_real_space",
    "Gftool.Props.square_real_space",
    "Gftool.Props.triangular_real_space_partial",
    "Gftool.Props.sc_real_space",
    "Gftool.Props.bcc_real_space",
    "Gftool.Props.fcc_real_space_partial",
    "Gftool.Props.honeycomb_real_space_partial",
    "Gftool.Props.honeycomb_real_space_up",
    "Gftool.Props.kagome_real_space_partial",
    "Gftool.Props.kagome_real_space_up",
    "Gftool.Props.lieb_real_space",
    "Gftool.Props.triangular_hopping_wrong",
    "Gftool.Props.honeycomb_hopping_wrong",
    "Gftool.Props.kagome_hopping_wrong",
    "Gftool.Props.lieb_hopping_wrong"
   ],
   "note": "All eleven lattices. Partial: triangular, honeycomb, kagome and fcc exclude the frequencies for which the parameter of the elliptic integral lies on its cut (C62); the hoppings documented for triangular, honeycomb and kagome are proved to be wrong."
  },
  {
   "property": "C65",
   "status": "partial",
   "theorems": [
    "Gftool.Props.udec_singular_values",
    "Gftool.Props.udec_stack",
    "Gftool.Props.udec_stack_order_wrong",
    "Gftool.Props.udec_stack_swapped",
    "Gftool.Props.udec_unitary",
    "Gftool.Props.dec_unpack",
    "Gftool.Props.dec_getitem",
    "Gftool.Props.decompose_hamiltonian_correct",
    "Gftool.Props.decompose_gf_correct"
   ],
   "note": "The attribute s is wrong for stacks of matrices (proved); everything else is proved."
  },
  {
   "property": "C66",
   "status": "proved",
   "theorems": [
    "Gftool.Props.cpa_well_defined",
    "Gftool.Props.cpa_contraction",
    "Gftool.Props.cpa_exists_unique",
    "Gftool.Props.cpa_iteration_converges",
    "Gftool.Props.solve_root_unique",
    "Gftool.Props.solve_root_independent"
   ],
   "note": "The solver is external with the contract HonestSolver. Advanced frequencies (Im z < 0) are not covered: the restricted equation of the code excludes their solutions."
  },
  {
   "property": "C67",
   "status": "proved",
   "theorems": [
    "Gftool.Props.pade_frequencies_correct",
    "Gftool.Props.pade_frequencies_unique",
    "Gftool.Props.exact_geig_exists",
    "Gftool.Props.pade_fermi_error",
    "Gftool.Props.pade_fermi_tendsto",
    "Gftool.Props.density_izp_error",
    "Gftool.Props.density_izp_tendsto",
    "Gftool.Props.pade_frequencies_tendsto",
    "Gftool.Props.pade_frequencies_strictAnti",
    "Gftool.Props.pade_frequencies_above",
    "Gftool.Props.pade_frequencies_resid_gt_one",
    "Gftool.Props.pade_frequencies_resid_sum",
    "Gftool.Props.pade_frequencies_tail_sum"
   ],
   "note": "The eigenvalue routine is external with the contract ExactGEig."
  },
  {
   "property": "C68",
   "status": "proved",
   "theorems": [
    "Gftool.Props.tau2iw_ft_lin_error",
    "Gftool.Props.tau2iv_ft_lin_error",
    "Gftool.Props.tau2iw_dft_error",
    "Gftool.Props.tau2iv_dft_error",
    "Gftool.Props.tau2iw_ft_lin_pole_error",
    "Gftool.Props.tau2iw_dft_pole_error",
    "Gftool.Props.iw2tau_dft_error",
    "Gftool.Props.iw2tau_dft_error_default",
    "Gftool.Props.iw2tau_dft_soft_error",
    "Gftool.Props.tt2z_lin_error",
    "Gftool.Props.tt2z_trapz_error"
   ],
   "note": "No gap: trapezoidal bound for every increasing grid, linear one for the equidistant grids the code assumes."
  },
  {
   "property": "C69",
   "status": "partial",
   "theorems": [
    "Gftool.Props.gf_z_stack",
    "Gftool.Props.gf_z_stack_mismatch",
    "Gftool.Props.gf_d1_z_stack",
    "Gftool.Props.gf_ret_t_stack",
    "Gftool.Props.gf_tau_stack",
    "Gftool.Props.gf_tau_stack_assert",
    "Gftool.Props.moments_stack",
    "Gftool.Props.hybrid_z_stack",
    "Gftool.Props.siam_gf0_loc_z_stack",
    "Gftool.Props.gf_cmpt_z_stack",
    "Gftool.Props.self_root_eq_stack",
    "Gftool.Props.self_fxdpnt_eq_stack",
    "Gftool.Props.gf_2x2_z_stack",
    "Gftool.Props.gf_2x2_z_stack_fails",
    "Gftool.Props.tt2z_trapz_stack",
    "Gftool.Props.tt2z_lin_stack_partial",
    "Gftool.Props.tt2z_lin_stack_fails",
    "Gftool.Props.gf_from_moments_stack_partial",
    "Gftool.Props.gf_from_moments_width_fails",
    "Gftool.Props.gf_from_moments_width_silent",
    "Gftool.Props.density_iw_stack_partial",
    "Gftool.Props.gf_from_tau_weight_fails",
    "Gftool.Props.gf_from_tau_stack_partial",
    "Gftool.Props.predict_stack",
    "Gftool.Props.predict_stack_fails",
    "Gftool.Props.predict_stable_stack_partial",
    "Gftool.Props.predict_stable_shared_fails",
    "Gftool.Props.predict_stable_shared_silent",
    "Gftool.Props.gf_from_z_stack_partial",
    "Gftool.Props.gf_from_z_weight_fails",
    "Gftool.Props.density_iw_fit_stack_partial",
    "Gftool.Props.density_iw_fit_stacked_frequencies_fail",
    "Gftool.Props.iw2tau_dft_stack",
    "Gftool.Props.iw2tau_dft_soft_stack",
    "Gftool.Props.tau2iv_dft_stack",
    "Gftool.Props.tau2iv_ft_lin_stack",
    "Gftool.Props.tau2iw_dft_stack",
    "Gftool.Props.tau2iw_ft_lin_stack",
    "Gftool.Props.tau2iv_stack",
    "Gftool.Props.iw2tau_stack_partial",
    "Gftool.Props.tau2iw_stack_partial",
    "Gftool.Props.tau2iw_stack_default_partial",
    "Gftool.Props.tt2z_simps_stack",
    "Gftool.Props.tt2z_pade_stack",
    "Gftool.Props.tt2z_herm2_stack",
    "Gftool.Props.pcoeff_covar_stack_partial",
    "Gftool.Props.pcoeff_covar_empty_fails",
    "Gftool.Props.tt2z_lpz_stack_partial",
    "Gftool.Props.tt2z_stack",
    "Gftool.Props.tt2z_stack_sign",
    "Gftool.Props.hamiltonian_matrix_stack",
    "Gftool.Props.siam_local_stack",
    "Gftool.Props.siam_time_stack",
    "Gftool.Props.pcoeff_burg_stack",
    "Gftool.Props.companion_stack_partial",
    "Gftool.Props.companion_empty_fails",
    "Gftool.Props.companion_short_fails",
    "Gftool.Props.predict_stable_no_coefficients",
    "Gftool.Props.predict_stable_scalar_coefficients"
   ],
   "note": "The code violates the property in nine places (negations proved): gf_2x2_z, tt2z_lin with z=0, width of gf_from_moments, weight of gf_from_tau and of gf_from_z, density_iw with n_fit and stacked frequencies, predict, pcoeff_covar on an empty stack, companion for empty or too short coefficients. gf_from_tau for occ=False; gf_from_z for float or automatic width."
  },
  {
   "property": "C70",
   "status": "partial",
   "theorems": [
    "Gftool.Props.coefficients_stack",
    "Gftool.Props.coefficients_stack_mismatch",
    "Gftool.Props.calc_iterator_stack",
    "Gftool.Props.filter_neg_imag_stack",
    "Gftool.Props.filter_neg_imag_num_stack_partial",
    "Gftool.Props.filter_neg_imag_num_stack_fails",
    "Gftool.Props.filter_high_variance_stack_shared",
    "Gftool.Props.filter_high_variance_stack_partial",
    "Gftool.Props.filter_high_variance_stack_fails",
    "Gftool.Props.apply_filter_stack",
    "Gftool.Props.apply_filter_stack_error",
    "Gftool.Props.apply_filter_stack_inconsistent",
    "Gftool.Props.averager_stack",
    "Gftool.Props.averager_nan_stack_fails",
    "Gftool.Props.averager_nan_finite",
    "Gftool.Props.averaged_stack",
    "Gftool.Props.avg_no_neg_imag_stack",
    "Gftool.Props.averager_nan_raises",
    "Gftool.Props.calc_iterator_raises",
    "Gftool.Props.tau_transform_stack_single",
    "Gftool.Props.iw_transform_stack_empty"
   ],
   "note": "Partial because the code violates the property: FilterNegImagNum and FilterHighVariance mix up the functions of a stack unless combined with another filter, and NaNs in rejected approximants only fail for stacks (negations proved). For coefficients, calc_iterator, FilterNegImag, several filters, Averager and averaged the property is proved."
  },
  {
   "property": "C71",
   "status": "partial",
   "theorems": [
    "Gftool.Props.exp_range_models",
    "Gftool.Props.fermi_fct_exp_range",
    "Gftool.Props.fermi_fct_no_overflow",
    "Gftool.Props.bose_fct_exp_range",
    "Gftool.Props.bose_fct_no_overflow",
    "Gftool.Props.bose_fct_exp_range_sharp",
    "Gftool.Props.pole_gf_tau_exp_range",
    "Gftool.Props.pole_gf_tau_complex_exp_range",
    "Gftool.Props.pole_gf_tau_b_exp_range",
    "Gftool.Props.pole_gf_ret_t_exp_range",
    "Gftool.Props.pole_gf_gr_le_t_exp_range",
    "Gftool.Props.lattice_gf_ret_t_exp_range",
    "Gftool.Props.tau2iw_ft_lin_exp_range",
    "Gftool.Props.tt2z_trapz_exp_range",
    "Gftool.Props.tt2z_simps_exp_range",
    "Gftool.Props.tt2z_lin_exp_range_partial",
    "Gftool.Props.tt2z_pade_exp_range",
    "Gftool.Props.tt2z_herm2_exp_range",
    "Gftool.Props.tt2z_lpz_exp_range",
    "Gftool.Props.tt2z_exp_range",
    "Gftool.Props.tt2z_lin_retarded_exp_range",
    "Gftool.Props.tt2z_lin_advanced_overflow"
   ],
   "note": "Partial because tt2z_lin violates it for advanced functions on increasing grids (negation proved)."
  },
  {
   "property": "C72",
   "status": "proved",
   "theorems": [
    "Gftool.Props.cpa_self_exists",
    "Gftool.Props.cpa_self_analytic",
    "Gftool.Props.cpa_gf_causal",
    "Gftool.Props.cpa_self_tail_bound",
    "Gftool.Props.cpa_self_moments",
    "Gftool.Props.toInfinity_imag",
    "Gftool.Props.cpa_self_distribution",
    "Gftool.Props.cpa_self_shift",
    "Gftool.Props.cpa_self_particle_hole",
    "Gftool.Props.cpa_self_pure",
    "Gftool.Props.cpa_self_damped"
   ],
   "note": "solver assumed to report honestly (contract HonestSolver with tolerance zero) for the statement about solve_root; the limits are taken away from the real axis (|z| <= C Im z), which includes the Matsubara axis"
  },
  {
   "property": "C73",
   "status": "proved",
   "theorems": [
    "Gftool.Props.beb_self_exists_unique",
    "Gftool.Props.beb_root_is_self",
    "Gftool.Props.beb_root_unique",
    "Gftool.Props.beb_root_stable",
    "Gftool.Props.beb_solve_root_accurate",
    "Gftool.Props.beb_self_causal",
    "Gftool.Props.beb_self_symmetric",
    "Gftool.Props.beb_self_perm",
    "Gftool.Props.beb_self_shift",
    "Gftool.Props.beb_self_pure",
    "Gftool.Props.beb_self_cpa"
   ],
   "note": "physical roots only: the code restricts only the diagonal of the self-energy, so that the returned matrix has to be checked to be physical (as the documentation says); LinAlgError of the eigendecomposition is the only exception; solver assumed to report honestly; the constants of the stability estimate depend on the problem"
  },
  {
   "property": "C74",
   "status": "proved",
   "theorems": [
    "Gftool.Props.beb_self_fn_exists",
    "Gftool.Props.beb_self_analytic",
    "Gftool.Props.beb_self_bath",
    "Gftool.Props.beb_self_tail",
    "Gftool.Props.beb_self_particle_hole",
    "Gftool.Props.beb_self_gauge"
   ],
   "note": "physical roots, as in C73; the identification with the value of solve_root is for an exact solver (see C73 for tolerances)"
  },
  {
   "property": "C75",
   "status": "proved",
   "theorems": [
    "Gftool.Props.pade_units",
    "Gftool.Props.averaged_units",
    "Gftool.Props.pade_conj",
    "Gftool.Props.pade_real",
    "Gftool.Props.pade_order"
   ],
   "note": "Order of the points: for the approximant built from all points, where both orders can be evaluated (no division by zero). The filter with an absolute threshold needs the threshold in the new units."
  },
  {
   "property": "C76",
   "status": "proved",
   "theorems": [
    "Gftool.Props.tau2iw_dft_linear",
    "Gftool.Props.tau2iw_ft_lin_linear",
    "Gftool.Props.tau2iv_dft_linear",
    "Gftool.Props.tau2iv_ft_lin_linear",
    "Gftool.Props.tau2iv_linear",
    "Gftool.Props.iw2tau_dft_linear",
    "Gftool.Props.iw2tau_dft_soft_linear",
    "Gftool.Props.tt2z_trapz_linear",
    "Gftool.Props.tt2z_simps_linear",
    "Gftool.Props.tt2z_lin_linear",
    "Gftool.Props.lstsq_ec_linear",
    "Gftool.Props.gf_from_moments_linear",
    "Gftool.Props.tau2iw_linear",
    "Gftool.Props.tau2iw_moments_linear",
    "Gftool.Props.iw2tau_linear"
   ],
   "note": "gf_from_moments is linear for a given width (with width=None it is not: gf_from_moments_auto_width_not_linear); all transforms use fixed widths."
  },
  {
   "property": "C77",
   "status": "proved",
   "theorems": [
    "Gftool.Props.predict_linear",
    "Gftool.Props.predict_modulate",
    "Gftool.Props.predict_stable_linear",
    "Gftool.Props.pcoeff_covar_units",
    "Gftool.Props.pcoeff_covar_conj",
    "Gftool.Props.pcoeff_covar_real",
    "Gftool.Props.pcoeff_burg_units",
    "Gftool.Props.pcoeff_burg_conj",
    "Gftool.Props.pcoeff_burg_real",
    "Gftool.Props.pcoeff_burg_reverse",
    "Gftool.Props.tt2z_trapz_energy_shift",
    "Gftool.Props.tt2z_simps_energy_shift",
    "Gftool.Props.tt2z_lpz_units",
    "Gftool.Props.herm_pade_units",
    "Gftool.Props.tt2z_pade_units"
   ],
   "note": "tt2z_lpz on grids starting at time zero (other grids: see C46, the phase is ignored); Pade approximants where they are not 0/0."
  },
  {
   "property": "C78",
   "status": "partial",
   "theorems": [
    "Gftool.Props.statistics_units",
    "Gftool.Props.frequencies_units",
    "Gftool.Props.pole_gf_z_units",
    "Gftool.Props.pole_gf_tau_units",
    "Gftool.Props.pole_gf_t_units",
    "Gftool.Props.pole_moments_units",
    "Gftool.Props.pole_gf_tau_b_units",
    "Gftool.Props.auto_width_units",
    "Gftool.Props.gf_from_moments_units",
    "Gftool.Props.gf_from_z_units",
    "Gftool.Props.gf_from_z_auto_units",
    "Gftool.Props.gf_from_tau_units",
    "Gftool.Props.gf_from_tau_single_units",
    "Gftool.Props.tau2iw_raw_units",
    "Gftool.Props.iw2tau_raw_units",
    "Gftool.Props.tau2iv_raw_units",
    "Gftool.Props.tau2iv_units",
    "Gftool.Props.iw2tau_units_partial",
    "Gftool.Props.tau2iw_units_partial",
    "Gftool.Props.izp_units",
    "Gftool.Props.density_iw_units_partial",
    "Gftool.Props.iw2tau_two_moments_depends_on_unit",
    "Gftool.Props.tau2iw_two_moments_depends_on_unit",
    "Gftool.Props.density_iw_depends_on_unit",
    "Gftool.Props.bethe_gf_units",
    "Gftool.Props.bethe_dos_units",
    "Gftool.Props.bethez_units",
    "Gftool.Props.box_units",
    "Gftool.Props.onedim_units",
    "Gftool.Props.square_scaling",
    "Gftool.Props.rectangular_scaling",
    "Gftool.Props.triangular_dos_scaling",
    "Gftool.Props.honeycomb_scaling",
    "Gftool.Props.kagome_scaling",
    "Gftool.Props.lieb_scaling",
    "Gftool.Props.sc_dos_even_scaling",
    "Gftool.Props.bcc_scaling",
    "Gftool.Props.fcc_scaling",
    "Gftool.Props.toplevel_units",
    "Gftool.Props.siam_z_units",
    "Gftool.Props.siam_t_units",
    "Gftool.Props.density_tail_units",
    "Gftool.Props.tt2z_quad_units",
    "Gftool.Props.tt2z_lin_units_partial",
    "Gftool.Props.equidistant_units",
    "Gftool.Props.tt2z_grid_check_depends_on_unit",
    "Gftool.Props.tt2z_lpz_time_units",
    "Gftool.Props.tt2z_pade_time_units",
    "Gftool.Props.chemical_potential_bracket_units",
    "Gftool.Props.cpa_units",
    "Gftool.Props.cpa_root_units",
    "Gftool.Props.beb_self_units"
   ],
   "note": "Violated by the default pole widths: tau2iw and iw2tau with two or more moments or an additional fit, density_iw whose second moment lies below 0.1 (or with an additional fit and fewer than two moments) use poles at fixed positions in whatever unit is used; the absolute tolerance of the check for equidistant times (tt2z_lin, tt2z_pade, tt2z_lpz) depends on the unit of time as well (negations proved); otherwise the results do not depend on the unit. The parameter center of gf_ret_t (given in units of the half-bandwidth) is treated in C55."
  },
  {
   "property": "C79",
   "status": "partial",
   "theorems": [
    "Gftool.Props.bethe_causal",
    "Gftool.Props.onedim_causal",
    "Gftool.Props.box_causal",
    "Gftool.Props.bethez_causal",
    "Gftool.Props.square_causal",
    "Gftool.Props.rectangular_causal",
    "Gftool.Props.triangular_causal",
    "Gftool.Props.bcc_causal",
    "Gftool.Props.sc_causal",
    "Gftool.Props.fcc_causal_partial",
    "Gftool.Props.fcc_not_analytic",
    "Gftool.Props.honeycomb_causal",
    "Gftool.Props.kagome_causal",
    "Gftool.Props.lieb_causal"
   ],
   "note": "Proved for all lattices but fcc, whose gf_z is wrong on a branch cut and hence not analytic in the lower half-plane (negation fcc_not_analytic); fcc_causal_partial covers all frequencies off the cut. Triangular: the behaviour on the real axis is stated for half-bandwidths of at least 3/2, because the code returns -i*inf at z = -1 for every half-bandwidth, see C62."
  },
  {
   "property": "C80",
   "status": "partial",
   "theorems": [
    "Gftool.Props.filling_monotone",
    "Gftool.Props.filling_exists_unique",
    "Gftool.Props.filling_symmetric",
    "Gftool.Props.density_iw_filling",
    "Gftool.Props.density_iw_filling_moments",
    "Gftool.Props.density_iw_filling_tendsto",
    "Gftool.Props.density_izp_filling",
    "Gftool.Props.density_filling_tendsto",
    "Gftool.Props.density_iw_far",
    "Gftool.Props.chemical_potential_filling_partial",
    "Gftool.Props.chemical_potential_density_iw",
    "Gftool.Props.chemical_potential_fails"
   ],
   "note": "Stated for every density of states with compact support and its Hilbert transform (HilbertPair), which is proved for the lattices under C52, C61 and C62. Violated: the documentation of chemical_potential says that no bracket is found only for completely empty or full systems; the first step is proportional to the deviation of the occupation, so the search also fails for nearly empty ones (chemical_potential_fails). The root search is external with the contract HonestRootScalar."
  },
  {
   "property": "C81",
   "status": "proved",
   "theorems": [
    "Gftool.Props.spectrum_iff",
    "Gftool.Props.spectrum_sum_rule",
    "Gftool.Props.spectrum_limit",
    "Gftool.Props.spectrum_unique",
    "Gftool.Props.dyson_spectrum",
    "Gftool.Props.cpa_spectrum",
    "Gftool.Props.solve_root_spectrum",
    "Gftool.Props.cpa_self_spectrum",
    "Gftool.Props.beb_spectrum",
    "Gftool.Props.occupation_monotone",
    "Gftool.Props.occupation_exists_unique",
    "Gftool.Props.density_iw_occupation",
    "Gftool.Props.cpa_occupation"
   ],
   "note": "The root search is external with the contract HonestSolver (tolerance zero for the statements on grids; deviations for finite tolerance are bounded under C72)."
  },
  {
   "property": "C82",
   "status": "proved",
   "theorems": [
    "Gftool.Props.solve_fxdocc_spectrum",
    "Gftool.Props.solve_fxdocc_converges",
    "Gftool.Props.solve_fxdocc_half_filling"
   ],
   "note": "scipy.optimize.root is external with the contract HonestSolverFxdocc. The convergence theorem speaks about any sequence of successful calls; that such sequences exist is proved at half filling."
  },
  {
   "property": "C83",
   "status": "proved",
   "theorems": [
    "Gftool.Props.cpa_gap",
    "Gftool.Props.cpa_gap_below",
    "Gftool.Props.cpa_spectrum_support",
    "Gftool.Props.solve_root_gap",
    "Gftool.Props.occupation_edges"
   ],
   "note": "The root search is external with the contract HonestSolver at tolerance zero, as for C81. Statements about the lattice are in terms of its spectral distribution, which is the density of states for the lattices of C52, C61 and C62."
  },
  {
   "property": "C84",
   "status": "partial",
   "theorems": [
    "Gftool.Props.fermi_fct_rounding",
    "Gftool.Props.fermi_fct_rounding_abs",
    "Gftool.Props.fermi_fct_d1_rounding",
    "Gftool.Props.fermi_fct_d1_rounding_rel",
    "Gftool.Props.fermi_fct_d1_rounding_lost",
    "Gftool.Props.fermi_fct_inv_rounding",
    "Gftool.Props.bose_fct_rounding",
    "Gftool.Props.matsubara_frequencies_rounding",
    "Gftool.Props.matsubara_frequencies_mono",
    "Gftool.Props.bethe_gf_rounding_lost",
    "Gftool.Props.bethe_gf_rounding_partial",
    "Gftool.Props.pole_gf_rounding",
    "Gftool.Props.pole_gf_rounding_causal",
    "Gftool.Props.matsubara_frequencies_b_rounding",
    "Gftool.Props.bethe_dos_rounding",
    "Gftool.Props.bethe_dos_rounding_inside",
    "Gftool.Props.onedim_dos_rounding",
    "Gftool.Props.dos_rounding_outside",
    "Gftool.Props.single_pole_gf_tau_rounding",
    "Gftool.Props.pole_gf_tau_rounding",
    "Gftool.Props.pole_gf_ret_t_rounding",
    "Gftool.Props.pole_moments_rounding",
    "Gftool.Props.pole_occ_rounding"
   ],
   "note": "Small relative errors fail for fermi_fct_d1 far below the chemical potential and for bethe.gf_z at huge frequencies, where the code returns exactly zero (fermi_fct_d1_rounding_lost, bethe_gf_rounding_lost). Library functions (expit, logit, exp, expm1, complex division, power, square root) are external with error bounds; overflow is not modelled."
  },
  {
   "property": "C85",
   "status": "partial",
   "theorems": [
    "Gftool.Props.bose_fct_memory",
    "Gftool.Props.fermi_fct_memory",
    "Gftool.Props.bethe_dos_memory",
    "Gftool.Props.onedim_dos_memory",
    "Gftool.Props.bethez_dos_memory",
    "Gftool.Props.rectangular_dos_memory",
    "Gftool.Props.triangular_dos_memory",
    "Gftool.Props.bethe_gf_ret_t_memory",
    "Gftool.Props.box_gf_ret_t_memory",
    "Gftool.Props.trapz_weight_memory",
    "Gftool.Props.simps_weight_memory",
    "Gftool.Props.siam_hamiltonian_memory",
    "Gftool.Props.companion_memory",
    "Gftool.Props.coefficients_memory",
    "Gftool.Props.restrict_self_root_eq_memory",
    "Gftool.Props.restrict_self_root_eq_physical",
    "Gftool.Props.restrict_self_root_eq_changes",
    "Gftool.Props.tau2iv_memory",
    "Gftool.Props.tau2iv_changes_cached",
    "Gftool.Props.iw2tau_memory",
    "Gftool.Props.beb_restrict_memory",
    "Gftool.Props.eval_branches_memory",
    "Gftool.Props.square_dos_memory",
    "Gftool.Props.sc_dos_memory",
    "Gftool.Props.bcc_dos_memory",
    "Gftool.Props.fcc_dos_memory",
    "Gftool.Props.fcc_gf_z_memory",
    "Gftool.Props.triangular_gf_z_memory",
    "Gftool.Props.iw2tau_dft_memory",
    "Gftool.Props.tau2iv_dft_memory",
    "Gftool.Props.tau2iv_ft_lin_memory",
    "Gftool.Props.tau2iw_memory",
    "Gftool.Props.tau2iw_changes_cached",
    "Gftool.Props.tau2iw_changes_cached_jump",
    "Gftool.Props.predict_memory",
    "Gftool.Props.predict_stable_memory",
    "Gftool.Props.pcoeff_burg_memory",
    "Gftool.Props.tt2z_lin_memory",
    "Gftool.Props.masked_coefficients_memory"
   ],
   "note": "Violated by cpa.restrict_self_root_eq, which changes its argument, and by the Fourier transforms if the supplied transformation returns an array that the user keeps (negations proved). Broadcasting is not part of the memory model."
  },
  {
   "property": "C86",
   "status": "proved",
   "theorems": [
    "Gftool.Props.tau2iw_dft_noise",
    "Gftool.Props.tau2iw_ft_lin_noise",
    "Gftool.Props.tau2iw_noise",
    "Gftool.Props.tau2iv_dft_noise",
    "Gftool.Props.tau2iv_ft_lin_noise",
    "Gftool.Props.tau2iv_noise",
    "Gftool.Props.tau2iv_noise_sharp",
    "Gftool.Props.tau2iw_dft_noise_square",
    "Gftool.Props.iw2tau_dft_noise",
    "Gftool.Props.iw2tau_dft_soft_noise",
    "Gftool.Props.iw2tau_noise",
    "Gftool.Props.density_iw_noise",
    "Gftool.Props.tt2z_trapz_noise",
    "Gftool.Props.tt2z_lin_noise",
    "Gftool.Props.tt2z_simps_noise",
    "Gftool.Props.spectrum_lipschitz",
    "Gftool.Props.pade_noise_unbounded"
   ],
   "note": ""
  },
  {
   "property": "C87",
   "status": "partial",
   "theorems": [
    "Gftool.Props.calc_iterator_untouched",
    "Gftool.Props.calc_iterator_history_partial",
    "Gftool.Props.calc_iterator_stops_partial",
    "Gftool.Props.calc_iterator_wrong_size",
    "Gftool.Props.calc_iterator_list",
    "Gftool.Props.calc_iterator_overwritten",
    "Gftool.Props.calc_iterator_depends_on_caller"
   ],
   "note": "The code violates the last sentence: yielded arrays are views of the state of the generator (calc_iterator_depends_on_caller). The _partial theorems allow everything except for writing to the last two yielded arrays (Polite)."
  },
  {
   "property": "C88",
   "status": "partial",
   "theorems": [
    "Gftool.Props.averager_new",
    "Gftool.Props.averager_call_untouched",
    "Gftool.Props.averager_history_partial",
    "Gftool.Props.averager_repeatable_partial",
    "Gftool.Props.averager_wrong_size",
    "Gftool.Props.averager_depends_on_coefficients",
    "Gftool.Props.mod_averager_history_partial"
   ],
   "note": "The code violates the independence of later changes of z_in and coeff: the function keeps references (averager_depends_on_coefficients). The _partial theorems allow everything except for writing to z_in, coeff and the private copy of valid_pades."
  },
  {
   "property": "C89",
   "status": "partial",
   "theorems": [
    "Gftool.Props.izp2tau_fit_error",
    "Gftool.Props.izp2tau_fit_interpolates",
    "Gftool.Props.izp2tau_fit_moments_partial",
    "Gftool.Props.izp2tau_fit_raises",
    "Gftool.Props.izp2tau_spread",
    "Gftool.Props.izp2tau_moments_lost",
    "Gftool.Props.tau2izp_fit_error_partial",
    "Gftool.Props.tau2izp_fit_error_default",
    "Gftool.Props.tau2izp_spread",
    "Gftool.Props.tau2izp_fit_worse"
   ],
   "note": "The code violates two sentences: at spread zero higher moments are lost (izp2tau_moments_lost), and tau2izp with a first moment different from the jump of the data may give a worse fit (tau2izp_fit_worse)."
  }
 ]
}
