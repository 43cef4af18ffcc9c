{"id": "C01", "title": "fermi_fct is the Fermi function on every branch", "statement": "gt.fermi_fct(eps, beta) equals 1/(exp(beta*eps)+1) for every real eps and for every complex eps that is not a pole, whichever overflow-safe branch is taken; for real arguments the value lies strictly between 0 and 1, decreases strictly in eps for beta>0, and satisfies f(-eps)=1-f(eps).", "quantifier": "all real beta and eps; all complex eps with exp(beta*eps) != -1", "why_tests_cant": "A test samples a handful of energies; the branch switch at Re(beta*eps)=0, the monotonicity and the particle-hole relation must hold on the whole continuum.", "anchors": ["gftool/statistics.py:fermi_fct"]}
{"id": "C02", "title": "fermi_fct_inv inverts fermi_fct", "statement": "For beta != 0, fermi_fct_inv(fermi_fct(eps,beta),beta)==eps for every real eps, and fermi_fct(fermi_fct_inv(f,beta),beta)==f for every filling 0<f<1.", "quantifier": "all real eps, all fillings in (0,1), all nonzero beta", "why_tests_cant": "The round trip has to hold for uncountably many inputs in both directions.", "anchors": ["gftool/statistics.py:fermi_fct_inv", "gftool/statistics.py:fermi_fct"]}
{"id": "C03", "title": "fermi_fct_d1 is the derivative of fermi_fct", "statement": "fermi_fct_d1(eps,beta) is the derivative with respect to eps of fermi_fct(.,beta) at eps; it is even in eps and lies in [-beta/4,0) for beta>0.", "quantifier": "all real eps and beta", "why_tests_cant": "Finite differences only approximate a derivative at sampled points.", "anchors": ["gftool/statistics.py:fermi_fct_d1"]}
{"id": "C04", "title": "bose_fct is the Bose function on both branches", "statement": "bose_fct(eps,beta) equals 1/(exp(beta*eps)-1) below and above the overflow threshold, for beta*eps>0 is positive and strictly decreasing in the product beta*eps, and satisfies n(-eps) = -1-n(eps) for beta*eps != 0.", "quantifier": "all real eps, beta with beta*eps != 0, passed as floating-point numbers (for integer dtype the code truncates the result, recorded as disagreement)", "why_tests_cant": "The two formulas must agree on the whole line, in particular on both sides of the switch at beta*eps=700.", "anchors": ["gftool/statistics.py:bose_fct"]}
{"id": "C05", "title": "Matsubara frequencies are exactly the poles of the distribution functions", "statement": "Every value returned by matsubara_frequencies (matsubara_frequencies_b) satisfies exp(beta*iw) = -1 (+1), different indices give different frequencies, they are purely imaginary and equally spaced by 2*pi/beta, and every complex solution of exp(beta*z) = -1 (+1) is returned for some integer index.", "quantifier": "all integer indices, all beta>0, all complex z", "why_tests_cant": "The index set is infinite and completeness quantifies over all complex numbers.", "anchors": ["gftool/statistics.py:matsubara_frequencies", "gftool/statistics.py:matsubara_frequencies_b"]}
{"id": "C06", "title": "Pade frequencies come in plus/minus pairs and lie on the imaginary axis", "statement": "For every num, the generalized eigenvalue problem behind pade_frequencies has only real, non-zero eigenvalues, and whenever lambda is an eigenvalue so is -lambda with the same residue; hence the frequencies are purely imaginary, never zero, and dropping the lower half-plane loses no information.", "quantifier": "all matrix sizes num>=1 and every eigenpair of the generalized problem", "why_tests_cant": "Holds for every size; a test can only diagonalize a few sizes numerically.", "anchors": ["gftool/statistics.py:_pade_frequencies", "gftool/statistics.py:pade_frequencies"]}
{"id": "C07", "title": "Pole Green's function: derivative, tail and conjugation", "statement": "pole_gf_d1_z is the derivative of pole_gf_z at every z off the poles; for real poles and weights G(conj z)=conj G(z); and for every order N, z^(N)*(G(z) - sum_{n=1..N} m_n z^-n) tends to 0 as |z| goes to infinity, with m_n = pole_gf_moments(n).", "quantifier": "all finite lists of poles and weights, all z, all orders", "why_tests_cant": "Number of poles, orders and evaluation points are unbounded; the tail is a limit.", "anchors": ["gftool/basis/pole.py:gf_z", "gftool/basis/pole.py:gf_d1_z", "gftool/basis/pole.py:moments"]}
{"id": "C08", "title": "pole_gf_z has negative imaginary part in the upper half-plane", "statement": "For real poles and non-negative weights, Im pole_gf_z(z) <= 0 whenever Im z > 0, and strictly negative if some weight is positive.", "quantifier": "all finite pole sets with non-negative weights, all z in the upper half plane", "why_tests_cant": "Causality must hold for every parameter set.", "anchors": ["gftool/basis/pole.py:gf_z"]}
{"id": "C09", "title": "Imaginary-time pole Green's function", "statement": "For real poles, pole_gf_tau(tau) = -sum_i w_i exp(-p_i tau) (1 - f(p_i)) on either overflow-safe branch; G(0)+G(beta) = -sum_i w_i; G is antiperiodic-consistent, -G(beta) equals the occupation sum_i w_i f(p_i); for non-negative weights G(tau)<=0. The same closed form must hold for complex poles, in particular at the branch point Re p = 0.", "quantifier": "all poles and weights, all 0<=tau<=beta, all beta>0", "why_tests_cant": "The branch is selected by the sign of the pole; all signs, sizes and times must give one formula.", "anchors": ["gftool/basis/pole.py:_single_pole_gf_tau", "gftool/basis/pole.py:gf_tau", "gftool/basis/pole.py:PoleGf.occ"]}
{"id": "C10", "title": "pole_gf_tau is the Fourier partner of pole_gf_z", "statement": "For real poles, the integral over 0<=tau<=beta of pole_gf_tau(tau)*exp(iw_n tau) equals pole_gf_z(iw_n) at every fermionic Matsubara frequency.", "quantifier": "all real poles, weights, beta>0 and all integers n", "why_tests_cant": "An exact integral identity at infinitely many frequencies.", "anchors": ["gftool/basis/pole.py:gf_tau", "gftool/basis/pole.py:gf_z", "gftool/statistics.py:matsubara_frequencies"]}
{"id": "C11", "title": "Real-time pole Green's functions are consistent", "statement": "For t>=0 the retarded function equals greater minus lesser; it vanishes for t<0; at t=0 it equals -i*sum(w); |G_ret(t)|<=sum|w|; i*G_less(0) equals minus the occupation and the Laplace integral of the retarded function over [0,inf) against exp(izt) equals pole_gf_z(z) for Im z>0.", "quantifier": "all real poles, all weights, all times, all z in the upper half plane", "why_tests_cant": "Identity of functions on a continuum, including an improper integral.", "anchors": ["gftool/basis/pole.py:_single_pole_gf_ret_t", "gftool/basis/pole.py:_single_pole_gf_gr_t", "gftool/basis/pole.py:_single_pole_gf_le_t", "gftool/basis/pole.py:gf_ret_t"]}
{"id": "C12", "title": "pole_gf_from_moments reproduces the moments exactly", "statement": "PoleGf built by pole_gf_from_moments(moments, width) from n moments has at most n poles inside [-|width|,|width|] and its moments of order 1..n equal the given ones, for every non-zero width and for the automatic width; the residues are the only ones with this property, and if all moments vanish (or none is given) the result is the zero function.", "quantifier": "all numbers of moments n, all moment values, all non-zero widths", "why_tests_cant": "Solvability of the Vandermonde system has to hold for every n, which needs distinctness of all Chebyshev nodes.", "anchors": ["gftool/basis/pole.py:gf_from_moments", "gftool/basis/pole.py:_chebyshev_points"]}
{"id": "C13", "title": "pole_gf_from_z / pole_gf_from_tau honour the constraints and the error branch", "statement": "The fitted pole function has exactly the requested moments (and, for from_tau with a requested occupation, exactly that occupation) for every data set, and among all residues with this property it minimises the weighted error; more constraints than poles raise ValueError.", "quantifier": "all data, moments, occupations and numbers of poles", "why_tests_cant": "Constraint satisfaction must hold for all data; the falsy special case occ=0 and the integer conversion int(occ) are easily missed by sampled tests.", "anchors": ["gftool/basis/pole.py:gf_from_z", "gftool/basis/pole.py:gf_from_tau"]}
{"id": "C14", "title": "ZeroPole and RatPol agree and reciprocal inverts", "statement": "ZeroPole.eval(z)*ZeroPole.reciprocal().eval(z)==1 wherever neither numerator nor denominator vanishes, and ZeroPole.to_ratpol().eval(z) equals ZeroPole.eval(z) at every z.", "quantifier": "all finite lists of zeros and poles, all amplitudes, all z", "why_tests_cant": "Unbounded degree.", "anchors": ["gftool/basis/__init__.py:ZeroPole", "gftool/basis/__init__.py:RatPol"]}
{"id": "C15", "title": "lstsq_ec satisfies its constraints and is optimal", "statement": "The returned x satisfies c x = d exactly, and among all such x it minimizes ||a x - b||; with no constraint rows it is the ordinary least squares solution; empty a gives the zero vector of the right size.", "quantifier": "all matrix shapes and all real or complex data with full row-rank constraints", "why_tests_cant": "Optimality quantifies over the whole affine constraint space.", "anchors": ["gftool/linalg.py:lstsq_ec"]}
{"id": "C16", "title": "orth_compl spans the orthogonal complement", "statement": "orth_compl(A) returns rows that are orthonormal, annihilate A, and any vector annihilating A is a combination of them; non-tall input raises ValueError.", "quantifier": "all matrices of all shapes", "why_tests_cant": "Completeness quantifies over all vectors.", "anchors": ["gftool/linalg.py:orth_compl"]}
{"id": "C17", "title": "Decomposition.reconstruct is functional calculus", "statement": "For a decomposition A = rv diag(eig) rv_inv with rv_inv the inverse of rv, reconstruct(f(eig)) is multiplicative in f: reconstruct(eig)=A, reconstruct(1/eig)=A^-1, reconstruct(1/(z-eig)) = (z-A)^-1, reconstruct(eig^k)=A^k, and kind='diag' returns exactly the diagonal of kind='full'; any other kind string is handed to einsum.", "quantifier": "all sizes, all diagonalizable matrices, all kind strings", "why_tests_cant": "Unbounded matrix sizes and all strings.", "anchors": ["gftool/matrix.py:Decomposition.reconstruct", "gftool/matrix.py:construct_gf"]}
{"id": "C18", "title": "decompose_her and decompose_sym keep their structure", "statement": "For a Hermitian matrix the decomposition has real eigenvalues and unitary rv (rv_inv = rv^dagger), so reconstruct of real (unimodular) eigenvalues is Hermitian (unitary). For a complex symmetric matrix rv_inv returned is the inverse built from the transpose, provided the normalization is non-degenerate.", "quantifier": "all sizes and all Hermitian / diagonalizable symmetric matrices", "why_tests_cant": "Unbounded sizes.", "anchors": ["gftool/matrix.py:decompose_her", "gftool/matrix.py:decompose_sym", "gftool/matrix.py:UDecomposition"]}
{"id": "C19", "title": "gf_2x2_z returns the diagonal of the resolvent", "statement": "gf_2x2_z(z, eps0, eps1, hopping, hilbert_trafo=identity-pole) returns the two diagonal elements of (z-H)^-1 for the 2x2 Hamiltonian, for every complex z that is not an eigenvalue, including the degenerate case hopping=0.", "quantifier": "all complex z, energies and hoppings", "why_tests_cant": "Degenerate parameters divide by zero on some formula; must be checked over the continuum.", "anchors": ["gftool/matrix.py:gf_2x2_z"]}
{"id": "C20", "title": "SIAM Green's function is the impurity element of the resolvent", "statement": "gf0_loc_z(z, e_onsite, e_bath, |V|^2) equals the (0,0) element of (z - hamiltonian_matrix(...))^-1 for every number of bath sites; the Hamiltonian is Hermitian.", "quantifier": "all numbers of bath sites, all real energies, all complex hoppings (floating-point or complex dtype; integer hoppings truncate the energies, recorded as disagreement), all z off the spectrum and different from the bath energies, in particular all z with Im z != 0", "why_tests_cant": "Unbounded number of bath sites.", "anchors": ["gftool/siam.py:gf0_loc_z", "gftool/siam.py:hybrid_z", "gftool/siam.py:hamiltonian_matrix"]}
{"id": "C21", "title": "SIAM real-time functions", "statement": "gf0_loc_ret_t(t) is the (0,0) element of -i exp(-iHt) for t>=0 and zero for t<0, equals gr-le for t>=0, is -i at t=0 and bounded by 1 in modulus.", "quantifier": "all bath sizes, all times", "why_tests_cant": "Unbounded sizes and continuous time.", "anchors": ["gftool/siam.py:gf0_loc_ret_t", "gftool/siam.py:gf0_loc_gr_t", "gftool/siam.py:gf0_loc_le_t"]}
{"id": "C22", "title": "CPA root equation characterizes the CPA condition", "statement": "For concentrations summing to 1, cpa.self_root_eq returns 0 exactly when the concentration average of the component Green's functions gf_cmpt_z equals the coherent Green's function, and exactly when self_fxdpnt_eq returns the input self-energy.", "quantifier": "all numbers of components, all concentrations, energies, Hilbert transforms and self-energies for which the expressions are defined", "why_tests_cant": "Equivalence over all component counts and all Hilbert transforms.", "anchors": ["gftool/cpa.py:self_root_eq", "gftool/cpa.py:self_fxdpnt_eq", "gftool/cpa.py:gf_cmpt_z"]}
{"id": "C23", "title": "Restricted CPA/BEB root equations have no unphysical roots", "statement": "restrict_self_root_eq equals the unrestricted equation where the self-energy is physical (Im Sigma <= 0 for Im z > 0), and never vanishes at a self-energy with an unphysical entry, so a solver converging on it never returns an acausal self-energy.", "quantifier": "all self-energy vectors, any number of entries, any root equation", "why_tests_cant": "The claim quantifies over all vectors a root finder may visit.", "anchors": ["gftool/cpa.py:restrict_self_root_eq", "gftool/beb.py:restrict_self_root_eq"]}
{"id": "C24", "title": "cpa.solve_root result satisfies the CPA condition", "statement": "If solve_root (solve_fxdocc_root) returns normally, then for a root finder that reports honestly the returned self-energy is a root of the CPA equation (with the requested occupation); if the root finder does not report success, RuntimeError is raised; the packing of complex vectors into real ones used for the solver is lossless.", "quantifier": "all inputs, both restricted and unrestricted, all vector lengths", "why_tests_cant": "Quantifies over all solver outcomes.", "anchors": ["gftool/cpa.py:solve_root", "gftool/cpa.py:solve_fxdocc_root"]}
{"id": "C25", "title": "BEB: truncated and full formulas agree", "statement": "For an invertible hopping matrix, beb.gf_loc_z computed through the spectral decomposition equals the lattice resolvent expression, keeping all modes equals not truncating, and for rank-deficient hopping the truncated decomposition still reproduces the hopping matrix exactly.", "quantifier": "all numbers of components, all Hermitian hopping matrices, all z", "why_tests_cant": "Unbounded matrix sizes and ranks.", "anchors": ["gftool/beb.py:SpecDec", "gftool/beb.py:gf_loc_z", "gftool/beb.py:self_root_eq"]}
{"id": "C26", "title": "density_iw is exact for the part carried by the moments", "statement": "density_iw equals the exact occupation whenever the Green's function coincides on the summed frequencies with the pole function fitted to the moments, and is affine in the data as long as no additional poles are fitted to them (n_fit=0, the default): adding delta to the Green's function changes the result by 2/beta*sum(weights*Re delta).", "quantifier": "all frequency sets, weights, moments and beta>0", "why_tests_cant": "All data sets; the exactness is a structural identity.", "anchors": ["gftool/density.py:density_iw"]}
{"id": "C27", "title": "chemical_potential brackets the root or fails loudly", "statement": "chemical_potential returns either a point where occ_root vanishes (for an honest bracketing root finder) or raises; the bracket passed to the root finder always has values of occ_root of different sign at its ends, and the search performs at most 101 doublings before RuntimeError; for a monotone non-decreasing occ_root that takes both signs and step0>0 the search moves towards the root.", "quantifier": "all functions occ_root, all starting points and steps", "why_tests_cant": "Quantifies over all functions; loop invariants and termination are not testable.", "anchors": ["gftool/density.py:chemical_potential"]}
{"id": "C28", "title": "Pade interpolates its data", "statement": "The Pade approximant evaluated with the Thiele coefficients of n distinct points reproduces the data at all n points whenever no intermediate quantity vanishes (generic data).", "quantifier": "all n, all distinct nodes, all generic complex data", "why_tests_cant": "Unbounded number of nodes; the recursion must be proved by induction.", "anchors": ["gftool/pade.py:coefficients", "gftool/pade.py:calc_iterator"]}
{"id": "C29", "title": "Pade three-term recursion evaluates the continued fraction", "statement": "The k-th element produced by calc_iterator equals the continued fraction with k+2 coefficients, for every k; the rescaling of numerator and denominator in the recursion never changes the value.", "quantifier": "all coefficient sequences and all numbers of iterations for which denominators do not vanish", "why_tests_cant": "Induction over iterations.", "anchors": ["gftool/pade.py:calc_iterator"]}
{"id": "C30", "title": "KindGf and KindSelf select the promised tail", "statement": "Approximants selected by KindGf use an even number of coefficients, hence decay as 1/z; those selected by KindSelf use an odd number of coefficients, hence tend to a constant; the constructors reject invalid ranges and the selector's length, indexing and slice agree.", "quantifier": "all n_min, n_max, all coefficient sequences", "why_tests_cant": "All index ranges including off-by-one boundaries.", "anchors": ["gftool/pade.py:KindSelector", "gftool/pade.py:KindGf", "gftool/pade.py:KindSelf"]}
{"id": "C31", "title": "Pade averaging and filtering", "statement": "apply_filter returns the conjunction of the filters applied one after the other; Averager returns the arithmetic mean of exactly the accepted approximants, and raises RuntimeError when none is accepted; the order in which approximants arrive does not matter.", "quantifier": "all filter lists, all approximant sequences", "why_tests_cant": "Unbounded sequences of approximants.", "anchors": ["gftool/pade.py:apply_filter", "gftool/pade.py:Averager", "gftool/pade.py:FilterNegImag", "gftool/pade.py:FilterNegImagNum", "gftool/pade.py:FilterHighVariance"]}
{"id": "C32", "title": "Pade of an exact rational Green's function", "statement": "If the data stem from a rational function of the matching degree then the Pade approximant built from enough points equals that function at every z where both are defined.", "quantifier": "all rational functions of bounded degree, all node sets", "why_tests_cant": "Uniqueness of rational interpolation for all degrees.", "anchors": ["gftool/pade.py:coefficients", "gftool/pade.py:calc_iterator", "gftool/pade.py:averaged"]}
{"id": "C33", "title": "Hermite-Pade order conditions", "statement": "pade(an,den_deg,num_deg) returns p/q of the requested degrees with q*a - p = O(x^(num_deg+den_deg+1)) and q not zero; the fast solve variant has q normalized at its highest coefficient; p/q equals the series of any rational function of these degrees with q(0)!=0.", "quantifier": "all series, all degrees", "why_tests_cant": "Unbounded degrees and arbitrary series.", "anchors": ["gftool/hermpade.py:pade", "gftool/hermpade.py:_nullvec"]}
{"id": "C34", "title": "Quadratic Hermite-Pade order condition and branches", "statement": "hermite2 returns p,q,r of the requested degrees with p+q*f+r*f^2 = O(x^(deg_p+deg_q+deg_r+2)); Hermite2.eval_branches returns the two solutions of the quadratic equation wherever r!=0, and Hermite2.eval returns the branch closer to the Pade value.", "quantifier": "all series, all degrees, all arrays of evaluation points (a scalar makes Hermite2.eval raise TypeError, recorded as disagreement)", "why_tests_cant": "Unbounded degrees and arbitrary series.", "anchors": ["gftool/hermpade.py:hermite2", "gftool/hermpade.py:Hermite2.eval_branches", "gftool/hermpade.py:Hermite2.eval"]}
{"id": "C35", "title": "pader handles every admissible degree pair", "statement": "pader(an, num_deg, den_deg) returns a rational function for every non-negative num_deg and den_deg, in particular the Taylor polynomial when den_deg is 0. Lowering the degrees because of a rank deficiency does not change the approximant: rational functions of at most the given degrees are recovered from their Taylor series.", "quantifier": "all series and all degree pairs", "why_tests_cant": "The special case den_deg=0 is a separate code path that depends on the whole series.", "anchors": ["gftool/hermpade.py:pader", "gftool/hermpade.py:_strip_ceoffs"]}
{"id": "C36", "title": "Linear prediction extends by the recurrence", "statement": "predict(x, pcoeff, num) returns len(x)+num values, keeps x as prefix, and every new value satisfies the linear recurrence; hence it continues any series that satisfies the recurrence exactly, and predicting in two steps equals predicting in one.", "quantifier": "all series, coefficients with order <= len(x), all numbers of predicted values", "why_tests_cant": "Unbounded horizon.", "anchors": ["gftool/linearprediction.py:predict"]}
{"id": "C37", "title": "companion matrix encodes the predictor", "statement": "The companion matrix of the prediction coefficients advances the state by one step and has the predictor polynomial as characteristic polynomial; so predict is the first component of companion^k applied to the initial state.", "quantifier": "all orders, all coefficients, all powers", "why_tests_cant": "Unbounded order and powers.", "anchors": ["gftool/linearprediction.py:companion", "gftool/linearprediction.py:predict"]}
{"id": "C38", "title": "Stable prediction", "statement": "With stable=True the prediction equals the plain prediction when all companion eigenvalues lie in the closed unit disc, and otherwise every used eigenvalue has modulus at most one, so the predicted series stays bounded.", "quantifier": "all diagonalizable companion matrices, all horizons", "why_tests_cant": "Boundedness for an unbounded horizon.", "anchors": ["gftool/linearprediction.py:_predict_stable"]}
{"id": "C39", "title": "Burg recursion", "statement": "pcoeff_burg yields reflection coefficients of modulus at most one, and the residual noise power is non-negative and non-increasing in the order.", "quantifier": "all complex series and all orders", "why_tests_cant": "Cauchy-Schwarz bound for all data and orders.", "anchors": ["gftool/linearprediction.py:pcoeff_burg"]}
{"id": "C40", "title": "Covariance method is exact on noiseless recurrences", "statement": "pcoeff_covar solves the least-squares prediction problem; if the series satisfies a linear recurrence of the given order exactly and the system is non-degenerate, it returns the recurrence coefficients and zero noise power.", "quantifier": "all series generated by recurrences", "why_tests_cant": "All orders and series.", "anchors": ["gftool/linearprediction.py:pcoeff_covar"]}
{"id": "C41", "title": "tau2iw_dft inverts iw2tau_dft", "statement": "tau2iw_dft(iw2tau_dft(gf_iw, beta), beta) equals gf_iw on all frequencies, for any number N of non-negative Matsubara frequencies, and the imaginary-time result is real with gf_tau[-1] = -gf_tau[0] consistent with antiperiodicity.", "quantifier": "all N, all complex gf_iw, all beta>0", "why_tests_cant": "Unbounded transform length.", "anchors": ["gftool/fourier.py:iw2tau_dft", "gftool/fourier.py:tau2iw_dft"]}
{"id": "C42", "title": "Filon transforms are exact for piecewise linear functions", "statement": "tau2iw_ft_lin, tau2iv_ft_lin and tt2z_lin return exactly the Fourier/Laplace integral of the linear interpolant of the data, for every frequency including zero.", "quantifier": "all numbers of points, all data, all frequencies", "why_tests_cant": "Exact integral identity for unbounded numbers of points.", "anchors": ["gftool/fourier.py:tau2iw_ft_lin", "gftool/fourier.py:tau2iv_ft_lin", "gftool/fourier.py:tt2z_lin"]}
{"id": "C43", "title": "Bosonic transforms", "statement": "tau2iv_dft gives the trapezoidal rule at frequency zero and the Riemann sum at every other bosonic frequency (the constant shift it applies is compensated), hence the trapezoidal rule at all frequencies for periodic data, and tau2iv's removal of the jump adds back exactly the transform of what it removed.", "quantifier": "all data, numbers of points and frequencies", "why_tests_cant": "Unbounded lengths.", "anchors": ["gftool/fourier.py:tau2iv_dft", "gftool/fourier.py:tau2iv"]}
{"id": "C44", "title": "High-frequency moment treatment does not change exact pole functions", "statement": "iw2tau, tau2iw, izp2tau and tau2izp subtract a fitted pole function and add its exact partner in the other domain: if the data equal the fitted pole function the result is its exact transform, and the transforms are affine in the data.", "quantifier": "all data, moments and fits", "why_tests_cant": "Structural identity for all data.", "anchors": ["gftool/fourier.py:iw2tau", "gftool/fourier.py:tau2iw", "gftool/fourier.py:izp2tau", "gftool/fourier.py:tau2izp"]}
{"id": "C45", "title": "Laplace quadratures", "statement": "tt2z_trapz equals the trapezoidal rule on arbitrary grids; the trapezoidal and Simpson weights integrate polynomials of degree 1 resp. 3 exactly on uniform grids (Simpson: odd number of points; for an even number of at least four degree 1); tt2z rejects exactly the (tt,z) combinations that are neither retarded nor advanced.", "quantifier": "all grids of at least two points (Simpson weights: at least three, two are a recorded disagreement), all data and frequencies", "why_tests_cant": "Unbounded numbers of points.", "anchors": ["gftool/fourier.py:tt2z_trapz", "gftool/fourier.py:tt2z_simps", "gftool/fourier.py:tt2z"]}
{"id": "C46", "title": "Fourier-Pade and linear-prediction Z-transform are exact for exponential sums", "statement": "If the weighted samples satisfy a linear recurrence of the used order exactly, tt2z_lpz returns the full infinite Z-transform sum for Im z large enough, i.e. the truncation at max(tt) is removed exactly; the same holds for tt2z_pade.", "quantifier": "all recurrences, orders and frequencies with convergent sums, uniform time grids starting at zero", "why_tests_cant": "Infinite sums for unbounded orders.", "anchors": ["gftool/fourier.py:tt2z_lpz", "gftool/fourier.py:tt2z_pade"]}
{"id": "C47", "title": "Hubbard dimer", "statement": "hubbard_dimer_gf_z is the Green's function of the operators c_{+-,sigma} of the documented Hamiltonian in the two-electron ground state (exact diagonalisation in Fock space). hubbard_dimer_gf_z has non-negative weights summing to one, satisfies particle-hole symmetry G_+(U-z) = -G_-(z), reduces to the non-interacting pole for U=0, and any kind other than '+' or '-' raises ValueError.", "quantifier": "all complex z, all real hopping and interaction that do not both vanish (there the code divides by zero, recorded as disagreement) and all kind strings", "why_tests_cant": "Continuum of parameters and all strings.", "anchors": ["gftool/__init__.py:hubbard_dimer_gf_z"]}
{"id": "C48", "title": "Hubbard-I self-energy reproduces the atomic Green's function", "statement": "1/(z - hubbard_I_self_z(z,U,occ)) equals (1-occ)/z + occ/(z-U) wherever defined, which is the exact Green's function of a Hubbard atom for every occupation of the opposite spin.", "quantifier": "all complex z, U, occ", "why_tests_cant": "Rational identity on a continuum.", "anchors": ["gftool/__init__.py:hubbard_I_self_z"]}
{"id": "C49", "title": "Bosonic imaginary-time pole function", "statement": "pole_gf_tau_b(tau) equals -sum w (1+n_B(p)) exp(-p tau) for positive poles; poles with non-positive real part, for which the expression is singular or unstable, raise ValueError as documented.", "quantifier": "all poles, weights, 0<=tau<=beta", "why_tests_cant": "All parameter values incl. the boundary pole 0.", "anchors": ["gftool/__init__.py:pole_gf_tau_b"]}
{"id": "C50", "title": "surface_gf_zeps solves the surface Dyson equation", "statement": "g = surface_gf_zeps(z, eps, t) satisfies g = 1/(z - eps - t^2 g), decays like 1/z, and has the retarded branch: Im g < 0 for Im z > 0.", "quantifier": "all z off the cut, all eps, all t>0", "why_tests_cant": "Branch of a square root on the whole complex plane.", "anchors": ["gftool/__init__.py:surface_gf_zeps", "gftool/lattice/bethe.py:gf_z"]}
{"id": "C51", "title": "Bethe Green's function: equation, branch, inverse and derivatives", "statement": "bethe_gf_z satisfies (D/2)^2 G^2 - z G + 1 = 0, Im G <= 0 for Im z>0, |G| <= 2/D; bethe_gf_z_inv(bethe_gf_z(z)) = z for all z, bethe_gf_z(bethe_gf_z_inv(g)) = g on the image; gf_d1_z and gf_d2_z are the first and second derivatives.", "quantifier": "all complex z off the cut [-D,D], all D>0", "why_tests_cant": "Branch choice on the full complex plane.", "anchors": ["gftool/lattice/bethe.py:gf_z", "gftool/lattice/bethe.py:gf_z_inv", "gftool/lattice/bethe.py:gf_d1_z", "gftool/lattice/bethe.py:gf_d2_z"]}
{"id": "C52", "title": "Lattice Green's functions are the Hilbert transforms of their DOS", "statement": "For box, 1D and Bethe lattice, gf_z(z) equals the integral of dos(eps)/(z-eps), and dos integrates to one; dos(eps) vanishes outside the band and is symmetric.", "quantifier": "all z off the real axis, all D>0", "why_tests_cant": "Integral identity on the whole plane.", "anchors": ["gftool/lattice/box.py:gf_z", "gftool/lattice/onedim.py:gf_z", "gftool/lattice/bethe.py:gf_z", "gftool/lattice/box.py:dos", "gftool/lattice/onedim.py:dos", "gftool/lattice/bethe.py:dos"]}
{"id": "C53", "title": "bethez interpolates between 1D and Bethe", "statement": "bethez_gf_z with coordination 2 equals onedim_gf_z, tends to bethe_gf_z as the coordination goes to infinity, satisfies the cavity equation of the coordination-Z tree, and coordination <= 1 is rejected.", "quantifier": "all z, D, all coordination numbers", "why_tests_cant": "Limit over unbounded coordination.", "anchors": ["gftool/lattice/bethez.py:gf_z", "gftool/lattice/bethez.py:dos"]}
{"id": "C54", "title": "dos_moment tables are the moments of the DOS", "statement": "dos_moment(m, D) equals the integral of eps^m dos(eps) for every tabulated m (to the printed precision), odd moments vanish for symmetric lattices, every other m raises NotImplementedError; in particular dos_moment(0, D) = 1.", "quantifier": "all m, all D", "why_tests_cant": "Integrals; the table is finite but the error branch and all D are not.", "anchors": ["gftool/lattice/bethe.py:dos_moment", "gftool/lattice/onedim.py:dos_moment", "gftool/lattice/box.py:dos_moment", "gftool/lattice/square.py:dos_moment"]}
{"id": "C55", "title": "Retarded lattice functions with a shifted band centre", "statement": "box.gf_ret_t and bethe.gf_ret_t with parameter center equal exp(-i*center*t) times the unshifted function (center is documented as not in units of half_bandwidth), vanish for t<0 and equal -i at t=0; box.gf_ret_t without center equals -i times the Fourier transform of the box DOS up to the error of the small-argument expansion.", "quantifier": "all times, all D>0, all centers", "why_tests_cant": "Only default D=1 or center=0 make a wrong scaling invisible.", "anchors": ["gftool/lattice/box.py:gf_ret_t", "gftool/lattice/bethe.py:gf_ret_t"]}
{"id": "C56", "title": "Composite lattices are consistent", "statement": "gf_z and dos of honeycomb, kagome and lieb are built from the same base lattice with consistent scaling: for every base function obeying the half-bandwidth scaling law, the composite obeys it too, G(conj z)=conj G(z) carries over, the composite gf_z minus its flat-band peak and the composite dos are the same transformation of the base gf_z and dos.", "quantifier": "all z, eps, D>0 and all base lattice functions with the scaling law", "why_tests_cant": "All arguments; the formulas for gf_z and dos are written with different scalings.", "anchors": ["gftool/lattice/honeycomb.py:gf_z", "gftool/lattice/kagome.py:gf_z", "gftool/lattice/lieb.py:gf_z", "gftool/lattice/kagome.py:dos", "gftool/lattice/lieb.py:dos"]}
{"id": "C57", "title": "Multi-precision DOS agree with the double precision ones", "statement": "dos_mp evaluates the same function as dos for every lattice, every eps and every half_bandwidth: zero outside the band, same scaling with half_bandwidth, same small-eps expansion.", "quantifier": "all eps and half_bandwidth", "why_tests_cant": "Outside the band or for non-default half-bandwidths the formulas differ; tests use the default half_bandwidth.", "anchors": ["gftool/lattice/fcc.py:dos_mp", "gftool/lattice/sc.py:dos_mp", "gftool/lattice/sc.py:dos", "gftool/lattice/bethe.py:dos_mp", "gftool/lattice/onedim.py:dos_mp"]}
{"id": "C58", "title": "number_poles terminates with an admissible number", "statement": "polepade.number_poles terminates for every data set and returns a number of poles within the documented bounds; no data set of admissible size triggers its internal assertion.", "quantifier": "all data sizes, degrees and singular value profiles", "why_tests_cant": "Termination of a data-dependent loop.", "anchors": ["gftool/polepade.py:number_poles"]}
{"id": "C59", "title": "Pole Pade approximant representation", "statement": "PadeApprox.eval_zeropole and eval_polefct describe the same function: for simple poles and matching degree the pole expansion with the residues equals the zero/pole form; asymptotic's reported error estimates are standard deviations; continuation reproduces every rational function with simple poles that is sampled at sufficiently many points off its zeros and poles, with or without rotation, weights and moment constraints; it scales the data by their (lexicographic) median and by default rotates exactly for imaginary points.", "quantifier": "all zeros, poles and z; all rational functions, sample points, weights and moments", "why_tests_cant": "Partial fractions for all degrees.", "anchors": ["gftool/polepade.py:PadeApprox", "gftool/polepade.py:residues_ols", "gftool/polepade.py:asymptotic", "gftool/polepade.py:continuation", "gftool/polepade.py:poles", "gftool/polepade.py:zeros"]}
{"id": "C60", "title": "density and its error estimates", "statement": "gt.density equals the tail-corrected Matsubara sum, is exact for the single-pole tail it subtracts, and density_error bounds use the documented part of the data (the last frequencies) and the documented weights.", "quantifier": "all data lengths", "why_tests_cant": "Slice boundaries for every data length.", "anchors": ["gftool/__init__.py:density", "gftool/__init__.py:density_error", "gftool/__init__.py:density_error2", "gftool/__init__.py:check_convergence"]}
{"id": "C61", "title": "Densities of states are those of the documented dispersions", "statement": "For lattices documented by a dispersion relation, dos(eps, D) is the probability density of the energies eps(k) for momenta k distributed uniformly over the Brillouin zone: it is non-negative, vanishes outside the band, and for every set of energies its integral equals the fraction of momenta with energy in the set. (sc.dos switches to a Taylor expansion for 3|eps|/D below a tolerance; there the values deviate from the exact density by at most 5*dos(0)*(3|eps|/D)^8, which is 5*2^-104*dos(0) for double precision.) For lattices with a basis (honeycomb, kagome, Lieb) the same holds for the average over the dispersive bands, normalised to the number of sites of the unit cell.", "quantifier": "all half-bandwidths D>0 (rectangular: all scales > 0), all sets of energies", "why_tests_cant": "Equality of a distribution with an integral over a continuum of momenta; tests compare single points and the norm.", "anchors": ["gftool/lattice/square.py:dos", "gftool/lattice/rectangular.py:dos", "gftool/lattice/triangular.py:dos", "gftool/lattice/sc.py:dos", "gftool/lattice/bcc.py:dos", "gftool/lattice/fcc.py:dos"]}
{"id": "C62", "title": "Lattice Green's functions are those of the documented dispersions", "statement": "For lattices documented by a dispersion relation, gf_z(z, D) (and hilbert_transform) equals the Brillouin zone average of 1/(z - eps(k)) at every complex z off the band, and square.stress_trafo is the Brillouin zone average of the second derivative of the dispersion divided by (xi - eps(k)).", "quantifier": "all complex z off the band, all half-bandwidths D>0", "why_tests_cant": "Branch choices of square roots and elliptic integrals must be right in the whole complex plane.", "anchors": ["gftool/lattice/square.py:gf_z", "gftool/lattice/square.py:hilbert_transform", "gftool/lattice/square.py:stress_trafo", "gftool/lattice/rectangular.py:gf_z", "gftool/lattice/triangular.py:gf_z", "gftool/lattice/sc.py:gf_z", "gftool/lattice/bcc.py:gf_z", "gftool/lattice/fcc.py:gf_z"]}
{"id": "C63", "title": "masked_coefficients ignores exactly the eliminated values", "statement": "masked_coefficients(z, fct_z) eliminates values that are indistinguishable from, or not comparable to, the last kept one. The eliminated values must have no influence: the coefficients of the kept points are those coefficients() gives for the kept points alone, and the resulting Padé approximant reproduces the kept values. If nothing is eliminated, it agrees with coefficients(). Values that are huge compared to the last kept coefficient are treated as infinite (pole of the approximant), which changes the entries at most by the cutoff.", "quantifier": "all sets of distinct points and all values", "why_tests_cant": "Which values are eliminated depends on all data; only finitely many patterns can be tested.", "anchors": ["gftool/pade.py:masked_coefficients", "gftool/pade.py:calc_iterator"]}
{"id": "C64", "title": "Lattice Green's functions solve the infinite tight-binding problem in real space", "statement": "For every frequency away from the spectrum, the gf_z of a lattice (bethez, onedim, square, rectangular, triangular, honeycomb, kagome, lieb (site-averaged), sc, bcc, fcc) is the local element of the resolvent of the nearest-neighbour hopping Hamiltonian on the infinite lattice or tree: the equation (z-H)psi = delta_r has exactly one square-summable solution and gf_z is its value at r. The hopping amplitude is the one belonging to the documented half-bandwidth.", "quantifier": "every lattice site r, every half-bandwidth > 0, every complex z off the spectrum; for bethez every coordination number and every regular tree", "why_tests_cant": "The lattice is infinite; tests compare with numerical integrals of the DOS for a few frequencies and never with a real-space Hamiltonian.", "anchors": ["gftool/lattice/bethez.py: gf_z", "gftool/lattice/onedim.py: gf_z", "gftool/lattice/square.py: gf_z", "gftool/lattice/rectangular.py: gf_z", "gftool/lattice/triangular.py: gf_z", "gftool/lattice/honeycomb.py: gf_z", "gftool/lattice/kagome.py: gf_z", "gftool/lattice/lieb.py: gf_z", "gftool/lattice/sc.py: gf_z", "gftool/lattice/bcc.py: gf_z", "gftool/lattice/fcc.py: gf_z"]}
{"id": "C65", "title": "Decomposition objects: singular values, unpacking and legacy constructors", "statement": "The attribute s of a unitary decomposition contains the singular values of the decomposed matrix in descending order with multiplicities, also for every matrix of a stack; u and uh are unitary and mutually adjoint; a decomposition unpacks as (rv, eig, rv_inv), has length 3 and accepts exactly the keys -3..2; decompose_hamiltonian/from_hamiltonian/decompose_gf/from_gf return decompositions of their argument and leave decompositions unchanged.", "quantifier": "every Hermitian matrix (stack of matrices), every key, every correct eigenvalue routine", "why_tests_cant": "The tests do not evaluate s; its values must be right for all spectra, including negative and degenerate eigenvalues, and for all stack shapes.", "anchors": ["gftool/matrix.py: UDecomposition.s, u, uh", "gftool/matrix.py: Decomposition.__getitem__, __len__, from_hamiltonian, from_gf", "gftool/matrix.py: decompose_gf, decompose_hamiltonian"]}
{"id": "C66", "title": "The CPA self-energy exists, is unique, and is what the iteration and solve_root return", "statement": "For every frequency in the upper half-plane, every lattice Hilbert transform, all nonnegative concentrations with sum one and all bounded retarded on-site energies (possibly including a local self-energy), the CPA equations never divide by zero at self-energies with imaginary part smaller than Im z; self_root_eq has exactly one root there, this root has Im <= 0 and an explicit bound, and its averaged Green's function equals the coherent one. Iterating self_fxdpnt_eq from any such starting point converges geometrically to it, with an explicit rate. A restricted solve_root that succeeds returns this root independent of starting point and solver, with an error proportional to the tolerance.", "quantifier": "all z with Im z > 0, all probability measures as density of states, all finite alloys, all starting points, all iteration counts, all solvers meeting the contract of scipy.optimize.root", "why_tests_cant": "Tests check a few alloys, frequencies and starting points; uniqueness and global convergence quantify over all of them.", "anchors": ["gftool/cpa.py: self_root_eq, self_fxdpnt_eq, restrict_self_root_eq, solve_root"]}
{"id": "C67", "title": "pade_frequencies as a whole and the accuracy of sums over Pade frequencies", "statement": "For every num > 0 and beta > 0 pade_frequencies passes its assertions and returns num strictly increasing, positive imaginary frequencies with positive residues, independent of order and normalisation of the eigenvectors of the eigenvalue routine. The sum over them is the continued fraction with 2*num levels of the Fermi function, whose distance to the Fermi function at eps is at most (4*num+1)/2*|beta*eps/2|^(4*num+1)/((4*num+1)!!)^2. Hence density_iw at the Pade frequencies gives the occupation of every pole Green's function up to the sum of |residue| times this bound, and converges to the occupation for num to infinity, whatever further moments are given. For every index k, the k-th Pade frequency converges to the k-th Matsubara frequency for num to infinity, and its residue to one; every Pade frequency lies strictly above the Matsubara frequency of the same index and strictly decreases if num is increased, and every residue exceeds one. The residues sum to num*(2*num+1)/2, and the 1/z^2 tail is summed exactly: sum of 2*residue/frequency^2 is -beta^2/4.", "quantifier": "all num, all beta > 0, all energies, all pole Green's functions with real poles, all moments with the correct first moment, all exact eigenvalue routines", "why_tests_cant": "Tests compare a few temperatures and sizes; error bound and convergence range over all sizes, temperatures and Green's functions.", "anchors": ["gftool/statistics.py: _pade_frequencies, pade_frequencies", "gftool/__init__.py: density_iw"]}
{"id": "C68", "title": "The Fourier and Laplace transforms converge to the exact transform with explicit rates", "statement": "tau2iw and tau2iv with the linear-spline transform of a function sampled on T+1 points with second derivative bounded by M differ from the exact Fourier integral at every returned frequency by at most M*beta^3/(12*T^2), with the DFT versions by the same quadratic rate with a frequency-dependent constant; for Green's functions with finitely many real poles the constants are sums of |residue|*pole^2. iw2tau from N Matsubara frequencies with l correct moments differs from the exact imaginary-time function, uniformly in tau, by at most a constant times (beta/(2*pi*N))^l (the default: sum |w||p| * beta/(2*pi^2*N)), iw2tau_dft_soft has the same power. tt2z_lin and tt2z_trapz of a retarded function with real poles differ from its resolvent at z, Im z = eta > 0, by a quadratic term in the time step over eta plus sum|w| * exp(-eta*t_max)/eta; for tt2z_trapz on every increasing grid.", "quantifier": "all numbers of points, all beta > 0, all twice differentiable functions respectively all pole Green's functions, all frequencies, all time grids", "why_tests_cant": "Tests compare with known functions up to loose tolerances on fixed grids; error bounds and rates range over all functions, grid sizes and temperatures.", "anchors": ["gftool/fourier.py: tau2iw, tau2iw_ft_lin, tau2iw_dft, tau2iv, tau2iv_ft_lin, tau2iv_dft, iw2tau, iw2tau_dft, iw2tau_dft_soft, tt2z_lin, tt2z_trapz"]}
{"id": "C69", "title": "Leading axes are stacks: every element of a stacked or broadcast call is the call for that element", "statement": "Functions documented for arrays with leading axes '...' follow numpy's broadcasting rules on these axes: if the leading axes of all arguments can be broadcast, the result has the broadcast shape and each of its elements is what the function returns for the corresponding single element of the arguments; otherwise ValueError is raised. This holds for the pole functions (gf_z, gf_d1_z, gf_ret_t, gf_tau, moments), SIAM (hybrid_z, gf0_loc_z, hamiltonian_matrix and the local Green's functions in time), CPA (gf_cmpt_z, self_root_eq, self_fxdpnt_eq), gf_2x2_z, the Laplace transforms (trapezoidal, Simpson, Filon, Fourier-Padé, square Hermite-Padé, linear prediction z-transform, and the driver tt2z), the Fourier transformations between Matsubara frequencies and imaginary time (iw2tau, tau2iw, tau2iv with every provided variant), the fits gf_from_moments, gf_from_z and gf_from_tau, density_iw, and linear prediction (coefficients by the covariance and by Burg's method, companion matrices, predictions). Where the function may fail for single elements, the call fails if and only if it fails for an element.", "quantifier": "all numbers and lengths of axes of all arguments, all values, all elements of the stack", "why_tests_cant": "Tests try a handful of shapes (mostly one leading axis of equal size); shapes are unbounded in number of axes and lengths, and coincidences of lengths hide or cause errors.", "anchors": ["gftool/basis/pole.py: gf_z, gf_d1_z, gf_ret_t, gf_tau, moments, gf_from_moments, gf_from_z, gf_from_tau", "gftool/siam.py: hybrid_z, gf0_loc_z, hamiltonian_matrix, gf0_loc_ret_t, gf0_loc_gr_t, gf0_loc_le_t", "gftool/cpa.py: gf_cmpt_z, self_root_eq, self_fxdpnt_eq", "gftool/matrix.py: gf_2x2_z", "gftool/fourier.py: tt2z, tt2z_trapz, tt2z_simps, tt2z_lin, tt2z_pade, tt2z_herm2, tt2z_lpz, iw2tau, iw2tau_dft, iw2tau_dft_soft, tau2iw, tau2iw_dft, tau2iw_ft_lin, tau2iv, tau2iv_dft, tau2iv_ft_lin", "gftool/density.py: density_iw", "gftool/linearprediction.py: predict, pcoeff_covar, pcoeff_burg, companion", "gftool/_util.py: _gu_sum, _gu_matvec"]}
{"id": "C70", "title": "Padé continuation of a stack of functions continues each function as if it was alone", "statement": "All steps of the averaged Padé scheme accept functions with leading axes and treat each function independently: coefficients and calc_iterator give, in each row, the coefficients and approximants of this row; each filter (FilterNegImag, FilterNegImagNum, FilterHighVariance), alone or combined by apply_filter, accepts for every function the approximants it accepts when only this function is given; Averager and averaged return for every function the average it has alone, or raise RuntimeError only if this happens for one of the functions alone.", "quantifier": "all numbers and lengths of leading axes, all numbers of points, all functions, all filters and their combinations", "why_tests_cant": "A test with a stack of identical or similar functions passes even if the verdicts of the functions are mixed up; only stacks with different outliers show the difference.", "anchors": ["gftool/pade.py: coefficients, calc_iterator, FilterNegImag, FilterNegImagNum, FilterHighVariance, apply_filter, Averager, averaged, avg_no_neg_imag"]}
{"id": "C71", "title": "Exponentials never overflow", "statement": "fermi_fct (complex arguments), bose_fct, pole_gf_tau, pole_gf_tau_b, the retarded, greater and lesser functions of real poles (also with decay), the retarded functions of bethe and box, tau2iw_ft_lin, tau2iv_ft_lin and the Laplace transforms tt2z give the right result with an implementation of exp/expm1 that is only right up to the argument 0 (bose_fct: 700) and returns anything beyond, as double precision does beyond 709: no branch uses the exponential of a large number, however large energies, inverse temperatures, times and frequencies are. For tt2z the check that times and frequencies are both retarded or both advanced suffices.", "quantifier": "all energies, temperatures, times, frequencies, poles, data, and all exponential functions that are right up to the threshold", "why_tests_cant": "Quantifies over all magnitudes and over all branch conditions; a wrong branch gives the same values for the moderate arguments tests use.", "anchors": ["gftool/statistics.py:fermi_fct", "gftool/statistics.py:bose_fct", "gftool/basis/pole.py:gf_tau", "gftool/__init__.py:pole_gf_tau_b", "gftool/fourier.py:tt2z"]}
{"id": "C72", "title": "The CPA self-energy is a causal analytic function with the moments and symmetries of the disorder", "statement": "For every lattice Hilbert transform, all nonnegative concentrations with sum one and all retarded on-site energies (constant or analytic in the frequency), there is one function S on the upper half-plane such that cpa.solve_root (restricted) returns S(z) on every grid of frequencies, for every starting point. S and the CPA Green's function are analytic, Im S <= 0 and Im G < 0; the imaginary part of S does not exceed the largest imaginary part of the on-site energies present and lies strictly below it if two different on-site energies are present. At high frequencies S(z) = <e> + var(e)/z + o(1/z) with the explicit bound |S - <e>| <= 2 d^2/Im z (d the largest deviation of an energy from the mean), and z G -> 1. S depends only on the distribution of energies (components with equal energy can be merged or split, components with zero concentration dropped, the order is irrelevant), equals the on-site energy without disorder, is shifted by a shift of frequencies and energies, and for a symmetric lattice transforms under reversal of all energies as S -> -S(-z*)*.", "quantifier": "all lattices (probability distributions of energies, bounded or not), numbers of components, concentrations, retarded on-site energies, frequencies in the upper half-plane, frequency grids, starting points and root finders", "why_tests_cant": "tests solve the equations for a few alloys on one frequency grid up to a tolerance; analyticity, limits and independence of the grid concern all frequencies at once", "anchors": ["gftool/cpa.py:self_root_eq", "gftool/cpa.py:self_fxdpnt_eq", "gftool/cpa.py:restrict_self_root_eq", "gftool/cpa.py:solve_root"]}
{"id": "C73", "title": "The BEB self-energy exists, is the only physical one, is stable, and reduces to CPA", "statement": "For every lattice with compact band, Hermitian hopping matrix, positive concentrations with sum one and retarded on-site energies, at every frequency of the upper half-plane exactly one physical matrix (anti-Hermitian part not positive) solves the equations of Blackman, Esterling and Berk; physical roots of beb.self_root_eq are exactly this matrix (unless the eigendecomposition raises LinAlgError); a physical matrix that beb.solve_root returns for tolerance tol deviates from it at most by K tol. The component Green's functions are causal. For a real hopping matrix the self-energy is symmetric, permuting components permutes it, a shift of frequency and energies shifts it, and for one component it is the on-site energy. If all hopping amplitudes are equal up to phases (in particular all ones), the diagonal of beb.gf_loc_z is concentration times cpa.gf_cmpt_z of the CPA root, for the explicit self-energy matrix.", "quantifier": "all lattices with compact band, numbers of components, hopping matrices of any rank, concentrations, retarded on-site energies, frequencies in the upper half-plane, eigensolvers fulfilling their contract, root solvers, starting points and tolerances", "why_tests_cant": "A test can only show that the solver found some root for a few alloys; that no second physical root exists and that small residuals imply small errors are statements about all matrices.", "anchors": ["gftool/beb.py: self_root_eq, solve_root, gf_loc_z, SpecDec", "gftool/cpa.py: self_root_eq, gf_cmpt_z"]}
{"id": "C74", "title": "The BEB self-energy and component Green's functions are analytic, with the right high-frequency behaviour and symmetries", "statement": "For on-site energies analytic and retarded in the upper half-plane (e.g. constants), all elements of the physical BEB self-energy and of the local Green's function of beb.gf_loc_z at this self-energy are analytic functions of the frequency in the upper half-plane, independent of grid and starting point of beb.solve_root. The diagonal of the Green's function is c_a/(z - e_a - Delta_aa) with a bath Delta that damps and tends to m1*T for large imaginary part (m1 centre of mass of the DOS) at a rate independent of the on-site energies; hence the spectrum of every component has norm one and first moment e_a + m1*T_aa; the off-diagonal self-energy tends to -m1*T_ab, while the diagonal grows like (1 - 1/c_a) z. For a symmetric DOS reflection of frequency and energies reflects the self-energy (conjugated hopping); phases of the hopping are a gauge.", "quantifier": "all lattices with compact band, numbers of components, Hermitian hopping matrices, positive concentrations, analytic retarded on-site energies, frequencies in the upper half-plane", "why_tests_cant": "Analyticity and asymptotic behaviour are statements about all frequencies; the solver only samples them on a grid, each frequency on its own.", "anchors": ["gftool/beb.py: self_root_eq, solve_root, gf_loc_z"]}
{"id": "C75", "title": "Pade continuation does not depend on units, side of the real axis, or order of the points", "statement": "For all points, values, output points: multiplying all frequencies (points and output points) by a non-zero number and shifting them, and multiplying the values by a non-zero number, gives the same coefficients status (finite or not) and every approximant multiplied by the same number; averaged and avg_no_neg_imag (with the threshold in the new units) return value and deviation in the new units. Complex conjugate values at the complex conjugate points give the complex conjugate continuation; real values at real points give real approximants on the real axis. Any two orders of the same points give the same approximant built from all of the points.", "quantifier": "all numbers of points, points, values, output points, units, shifts, and permutations of the points; order: wherever both evaluations do not divide by zero", "why_tests_cant": "Tests continue a handful of functions in one unit and one order; invariance concerns all data at once.", "anchors": ["gftool/pade.py: coefficients, calc_iterator, averaged, avg_no_neg_imag, Averager, FilterNegImag"]}
{"id": "C76", "title": "Fourier and Laplace transforms obey the superposition principle", "statement": "For all data g, h and numbers a, b: transforming a*g + b*h gives a times the transform of g plus b times the transform of h, for tau2iw_dft, tau2iw_ft_lin, tau2iw (with and without moments, any number of poles), tau2iv and its variants, iw2tau_dft, iw2tau_dft_soft, iw2tau (jointly in the function and its moments), tt2z_trapz, tt2z_simps, tt2z_lin; likewise the solutions of lstsq_ec and the residues of gf_from_moments for given width. Whether an error is raised depends on the shapes and parameters only, not on the data.", "quantifier": "all data, coefficients, temperatures, sizes, numbers of moments and poles, and every linear `fourier` argument", "why_tests_cant": "Linearity concerns all pairs of data and all coefficients; tests transform a few functions with known results, for which a data-dependent choice of poles goes unnoticed.", "anchors": ["gftool/fourier.py: tau2iw, tau2iw_dft, tau2iw_ft_lin, tau2iv, tau2iv_dft, tau2iv_ft_lin, iw2tau, iw2tau_dft, iw2tau_dft_soft, tt2z_trapz, tt2z_simps, tt2z_lin", "gftool/linalg.py: lstsq_ec", "gftool/basis/pole.py: gf_from_moments, gf_from_tau, gf_from_z"]}
{"id": "C77", "title": "Linear prediction and Laplace transforms do not depend on scale and zero of the energy", "statement": "For all series: multiplying the series by a non-zero number leaves the prediction coefficients of pcoeff_covar and pcoeff_burg unchanged and multiplies the error by the modulus (variance: its square). Shifting the zero of the energy, x_n -> w^n x_n with |w|=1, multiplies coefficient k by w^(k+1), and predict with these coefficients continues the shifted series. Complex conjugate series have complex conjugate coefficients, real series real ones; Burg's coefficients are the same for the time-reversed conjugate series. For given coefficients predict (stable or not) is linear in the series. tt2z_trapz, tt2z_simps, tt2z_lpz and tt2z_pade of exp(-i w t) g(t) at z + w equal those of g at z, and scale with g.", "quantifier": "all series, lengths, orders, scales and shifts; tt2z_lpz, tt2z_pade: all equidistant grids starting at zero, both quadratures, all orders and degrees; Pade: where the approximant is not 0/0", "why_tests_cant": "Covariance relates the results for all data and all shifts; tests use a few functions with a fixed zero of energy.", "anchors": ["gftool/linearprediction.py: predict, pcoeff_covar, pcoeff_burg", "gftool/fourier.py: tt2z_trapz, tt2z_simps, tt2z_lpz, tt2z_pade", "gftool/hermpade.py: pade"]}
{"id": "C78", "title": "Results do not depend on the unit of energy", "statement": "Change the unit of energy: for every factor c > 0 multiply energies, frequencies, half-bandwidths and hopping amplitudes by c, divide times and inverse temperatures by c, Green's functions in frequency space by c, and multiply the k-th moment by c^k. Then every function returns the same physical quantity in the new unit: Fermi and Bose functions, Matsubara and Pade frequencies, pole Green's functions and their moments, the fits gf_from_moments, gf_from_z, gf_from_tau, the Fourier and Laplace transforms (tau2iw, iw2tau, tau2iv, izp2tau, tau2izp, tt2z_*), density_iw, density and its error estimates, the lattices (Green's functions, densities of states, moments), Hubbard dimer, Hubbard-I, surface, impurity model, the CPA equations and the BEB self-energy, and the bracket of chemical_potential.", "quantifier": "all units, data, temperatures, sizes, weights and widths", "why_tests_cant": "Tests use a single unit (half-bandwidth one); a numerical constant with an implicit unit in the code goes unnoticed until a user works in another unit.", "anchors": ["gftool/statistics.py", "gftool/basis/pole.py", "gftool/fourier.py: tau2iw, iw2tau, tau2iv, izp2tau, tau2izp, tt2z_trapz, tt2z_simps, tt2z_lin, tt2z_pade, tt2z_lpz", "gftool/density.py: density_iw, chemical_potential", "gftool/__init__.py: density, hubbard_dimer_gf_z, hubbard_I_self_z, surface_gf_zeps", "gftool/siam.py", "gftool/cpa.py", "gftool/beb.py", "gftool/lattice"]}
{"id": "C79", "title": "Lattice Green's functions are causal and the density of states is their spectral function", "statement": "For every lattice and half-bandwidth D > 0, gf_z is analytic off the real axis, satisfies gf_z(conj z) = conj gf_z(z), has negative imaginary part in the upper half-plane, is bounded by 1/|Im z|, and the hybridisation function z - 1/gf_z(z) is causal. The spectral function -Im gf_z(w + i eta)/pi integrates to one for every broadening eta > 0, converges to dos(w) wherever dos is continuous, and its weight in every interval converges to that of dos. At high frequencies gf_z has an asymptotic expansion to every order, with the moments of dos as coefficients. On the real axis outside of the band gf_z is real, analytic, strictly decreasing, and bounded by the inverse distances to the band edges. For lattices with a flat band this holds for the dispersive part, and causality, bound and hybridisation for the total function.", "quantifier": "all lattices, half-bandwidths, complex frequencies, broadenings, energies, intervals and orders", "why_tests_cant": "Analyticity, causality and limits concern all points of the complex plane; a branch cut of an elliptic integral in the wrong place is invisible on a sample of points.", "anchors": ["gftool/lattice/bethe.py", "gftool/lattice/bethez.py", "gftool/lattice/onedim.py", "gftool/lattice/box.py", "gftool/lattice/square.py", "gftool/lattice/rectangular.py", "gftool/lattice/triangular.py", "gftool/lattice/honeycomb.py", "gftool/lattice/kagome.py", "gftool/lattice/lieb.py", "gftool/lattice/sc.py", "gftool/lattice/bcc.py", "gftool/lattice/fcc.py"]}
{"id": "C80", "title": "Fillings and chemical potentials of lattice models", "statement": "For every lattice with density of states dos of weight w, its Green's function gf_z, inverse temperature beta > 0 and chemical potential mu, the exact filling is the integral of dos(e) times the Fermi function at e - mu. It is a continuous and strictly increasing function of mu from 0 to w, so that every filling in between belongs to exactly one mu; a symmetric band is half filled at mu = 0. density_iw of gf_z(iw_n + mu) at the first N Matsubara frequencies differs from the filling by at most w*R*beta/(2*pi^2*N) (R the largest distance of the band from mu), with the first 2J correct moments the error is of order N^-(2J+1) with explicit constant, and at num Pade frequencies it decreases faster than exponentially; gt.density converges as well. chemical_potential returns the chemical potential of the requested filling within the tolerance of the root search; with fillings calculated from N Matsubara frequencies the filling at the result is the requested one up to the error of the sum.", "quantifier": "all lattices, temperatures, chemical potentials, fillings, numbers of frequencies, moments, starting points and step widths", "why_tests_cant": "Error bounds and limits hold for all numbers of frequencies and temperatures; tests compare a few sums for fixed parameters with a loose tolerance.", "anchors": ["gftool/density.py: density_iw, chemical_potential", "gftool/__init__.py: density", "gftool/statistics.py: matsubara_frequencies, pade_frequencies, fermi_fct", "gftool/lattice"]}
{"id": "C81", "title": "Spectral representation of Green's functions of disordered and interacting lattices", "statement": "For every lattice Hilbert transform, concentrations and retarded on-site energies (constant, or analytic with local self-energies bounded at high frequencies), the CPA Green's function hilbert(z - S(z)) at the self-energy that cpa.solve_root finds, and every component Green's function of cpa.gf_cmpt_z, is the Green's function of one normalised non-negative spectral distribution, G(z) = int dA(x)/(z - x), for all frequency grids and starting points; the distribution of the lattice is the concentration-weighted average of those of the components. The same holds for lattice Green's functions with any causal self-energy, and in the formalism of Blackman, Esterling and Berk (diagonal elements with weight c_a). For real on-site energies the CPA self-energy is average + variance times such a function. The spectral function -Im G(x + i eta)/pi integrates to the total weight for every eta > 0 and converges to the distribution, which is unique. density_iw of these Green's functions on N Matsubara frequencies converges to the occupation int f(x - mu) dA(x) (component by component and on average), and for every occupation strictly between 0 and 1 there is exactly one chemical potential.", "quantifier": "all lattices (with or without bounded band), disorder distributions, causal self-energies, frequencies, grids, starting points, broadenings, temperatures and chemical potentials", "why_tests_cant": "Existence of one distribution for all frequencies, limits of infinitely many frequencies and vanishing broadening; tests check signs of imaginary parts on a grid.", "anchors": ["gftool/cpa.py: solve_root, gf_cmpt_z", "gftool/beb.py: solve_root, gf_loc_z", "gftool/density.py: density_iw", "gftool/lattice: gf_z, hilbert_transform"]}
{"id": "C82", "title": "CPA at fixed occupation: converged chemical potential and self-energy", "statement": "For every lattice Hilbert transform and alloy with constant retarded on-site energies there is one self-energy function and one normalised spectral distribution per component, independent of occupation, temperature, frequencies and starting point, such that whenever cpa.solve_fxdocc_root (restricted, with a root search that only reports success at a root) returns (self_cpa, mu), self_cpa is that self-energy at the frequencies shifted by mu, minus mu, and the coherent and component Green's functions are those of the distributions shifted by mu. For lattices with bounded bands, every temperature and occupation strictly between 0 and 1, and any sequence of calls on more and more Matsubara frequencies, with any starting points, the returned chemical potentials converge to the unique one at which the occupation sum_i c_i int f(x - mu) dA_i(x) is the requested one, and the self-energies converge at each Matsubara frequency. For alloys and lattices with symmetric energies at half filling, mu = 0 with the CPA self-energy is a solution for every number of frequencies, and the search started from the default values reaches the final root search at mu = 0 without bracketing.", "quantifier": "all lattices, disorder distributions, temperatures, occupations, sequences of frequency numbers, starting points and root searches meeting the contract", "why_tests_cant": "Limit of infinitely many Matsubara frequencies, arbitrary root searches and starting points; a test checks the residue of one solution.", "anchors": ["gftool/cpa.py: solve_fxdocc_root, gf_cmpt_z", "gftool/density.py: density_iw, chemical_potential"]}
{"id": "C83", "title": "Alloys have no states beyond the band edges shifted by the on-site energies", "statement": "For every lattice whose density of states vanishes outside [a, b], every alloy with real on-site energies between emin and emax and all concentrations, the CPA Green's function at the self-energy that cpa.solve_root finds, and the component Green's functions of cpa.gf_cmpt_z for components with non-zero concentration, are Green's functions of spectral distributions that vanish outside [a + emin, b + emax], for all frequency grids and starting points. At frequencies x + i*eta at distance delta outside this interval, -Im self-energy and -Im Green's function are at most eta times explicit constants that depend only on delta and emax - emin, and the real part of the self-energy does not exceed the largest (above) or fall below the smallest (below) on-site energy. Consequently, occupations lie between the Fermi functions at the two edges.", "quantifier": "all lattices, concentrations, real on-site energies, frequencies outside the interval, broadenings, grids and starting points", "why_tests_cant": "A statement for all frequencies and disorder strengths about the limit of vanishing broadening; tests evaluate finitely many frequencies at finite broadening.", "anchors": ["gftool/cpa.py: solve_root, self_root_eq, gf_cmpt_z", "gftool/lattice: hilbert_transform"]}
{"id": "C84", "title": "Rounding errors of the elementary functions", "statement": "Evaluated with floating point numbers (any number of digits, gradual underflow, round to nearest with any tie rule), for all arguments without overflow: fermi_fct has a relative error of the order of the unit roundoff times (1 + |beta*eps|) and an absolute error of a few units roundoff uniformly in energy and temperature; fermi_fct_d1 has an absolute error of a few units roundoff times beta and a small relative error; fermi_fct_inv and bose_fct have small relative errors, also next to the pole of the Bose function and at energies of either sign; Matsubara frequencies have relative errors of four roundings for every index and keep their order; lattice.bethe.gf_z has small relative errors at all imaginary frequencies; pole_gf_z, for every order in which the terms are added, has an error bounded by (number of additions a term passes + few) units roundoff times the sum of the moduli of the terms and never gets an imaginary part of the wrong sign for non-negative weights. lattice.bethe.dos has, relative to its maximum 2/(pi*D), an error of the order of the square root of the unit roundoff at all real energies including the band edges, and inside the band an error of the order of the unit roundoff divided by sqrt(1 - (eps/D)**2). lattice.onedim.dos has, inside the band and at least some units roundoff away from its edges, a relative error of the order of the unit roundoff divided by 1 - (eps/D)**2; outside the band both densities of states are exactly zero except within three units roundoff of the edges. pole_gf_tau for real poles, for every order in which the terms are added, has an error of (number of additions a term passes + constant) units roundoff times the sum of the moduli of the weights, uniformly in imaginary time, temperature and position of the poles. pole_gf_ret_t for real poles has an error of (|pole*time| + number of additions + constant) units roundoff per term and vanishes exactly for negative times. PoleGf.moments and PoleGf.occ for real poles have errors of (number of additions + constant) units roundoff times the sum of the moduli of their terms, respectively of the weights.", "quantifier": "all energies, temperatures, indices, frequencies, poles, weights, orders of summation, digits, tie rules and errors of the elementary functions of the libraries", "why_tests_cant": "Tests compare finitely many arguments, typically near the chemical potential and at moderate frequencies; errors at all energies and frequencies, in particular the loss of all digits far from the tested ranges, need analysis of every rounding.", "anchors": ["gftool/statistics.py: fermi_fct, fermi_fct_d1, fermi_fct_inv, bose_fct, matsubara_frequencies, matsubara_frequencies_b", "gftool/lattice/bethe.py: gf_z", "gftool/basis/pole.py: gf_z", "gftool/_util.py: _gu_sum", "gftool/lattice/bethe.py: dos", "gftool/lattice/onedim.py: dos", "gftool/basis/pole.py: gf_tau", "gftool/basis/pole.py: gf_ret_t", "gftool/basis/pole.py: moments, PoleGf.occ"]}
{"id": "C85", "title": "Functions that fill or change arrays leave the arrays of the caller alone", "statement": "The functions which write into arrays (statistics functions, densities of states and retarded Green's functions of lattices, quadrature weights, Padé coefficients, Fourier transforms, linear prediction, Hamiltonian and companion matrices) return a newly allocated array whose elements do not overlap, change no array that existed before the call, whatever views and overlaps the arguments have, and their result depends only on the elements of the arguments: not on uninitialised memory or placeholders (NaN), the layout or other arrays. The result is the one of the element-wise description of the function.", "quantifier": "all memories, all arguments including overlapping and strided views, all contents of uninitialised arrays, all transformations and root equations passed by the user that themselves do not change existing arrays", "why_tests_cant": "Tests use fresh, contiguous, separate arrays and compare the returned values; that no argument is changed for any aliasing, and that no uninitialised element is ever read, is a statement about all memories.", "anchors": ["gftool/statistics.py: bose_fct, fermi_fct", "gftool/lattice/bethe.py, onedim.py, bethez.py, square.py, rectangular.py, triangular.py, sc.py, bcc.py, fcc.py: dos", "gftool/lattice/bethe.py, box.py: gf_ret_t", "gftool/lattice/triangular.py, fcc.py: gf_z", "gftool/fourier.py: _trapz_weight, _simps_weight, tau2iv, tau2iv_dft, tau2iv_ft_lin, tau2iw, iw2tau, iw2tau_dft, tt2z_lin", "gftool/pade.py: coefficients, masked_coefficients", "gftool/cpa.py: restrict_self_root_eq", "gftool/beb.py: restrict_self_root_eq", "gftool/hermpade.py: Hermite2.eval_branches", "gftool/siam.py: hamiltonian_matrix", "gftool/linearprediction.py: companion, predict, pcoeff_burg"]}
{"id": "C86", "title": "Errors of the data are amplified at most by explicit factors", "statement": "If two data sets differ by at most ε, the results of the Fourier transforms differ by at most a factor times ε which is independent of the data: β for all transforms from imaginary time to Matsubara frequencies (any number of points, also with the default moments or jump determined from the data), 2N/β and 4N/β for the plain and soft discrete transform back and for iw2tau with given moments, 2/β times the sum of weights for density_iw with given moments, the length of the time interval for tt2z_trapz and tt2z_lin. Independent errors average out: the sum of the squared errors of the discrete transform is at most β²/T times the one of the data. Green's functions depend on the frequency with Lipschitz constant one over the product of the distances to the real axis. Padé continuation is exempt: no factor exists.", "quantifier": "all data and all errors of the data, all numbers of points, all inverse temperatures, all moments, frequencies in the upper half-plane, all spectral distributions", "why_tests_cant": "Tests compare the transforms of exact data with closed forms; a bound for every noise vector, uniform in the data and the number of points, is a universally quantified statement.", "anchors": ["gftool/fourier.py: tau2iw_dft, tau2iw_ft_lin, tau2iw, tau2iv_dft, tau2iv_ft_lin, tau2iv, iw2tau_dft, iw2tau_dft_soft, iw2tau, tt2z_trapz, tt2z_lin, tt2z_simps", "gftool/density.py: density_iw", "gftool/pade.py: coefficients, calc_iterator"]}
{"id": "C87", "title": "The iterator over Padé approximants does not depend on the history of its use", "statement": "calc_iterator is a generator: its iterations alternate with code of the caller. The approximants are the ones for the contents which the arguments have at the first next; a wrong number of points is reported by the first next only. No call of next changes an array that existed before, so collected approximants stay valid (list(calc_iterator(...)) contains N different arrays with the N approximants). After N approximants the iterator is exhausted and stays so. What the caller does with the arrays they have got, or with the arguments after the first next, does not change the following approximants.", "quantifier": "all interleavings of calls of next with arbitrary code of the caller that may read everything, allocate and write (adaptively), all memories, layouts and overlaps of the arguments, all stacks of coefficients, all numbers of coefficients", "why_tests_cant": "Tests iterate once without touching the yielded arrays; the statement ranges over all histories of use and all aliasing between yielded arrays and the state of the generator.", "anchors": ["gftool/pade.py: calc_iterator"]}
{"id": "C88", "title": "The function returned by Averager does not depend on the history of its use", "statement": "Averager(z_in, coeff, valid_pades, kind) returns a function; it raises RuntimeError exactly if no approximant is valid, and changes no array. The function may be called any number of times, between arbitrary code of the caller. No call changes an array that exists. Every call gives the average over the approximants that were valid when the function was created, for the points z with which it is called: neither previous calls nor later changes of the arrays valid_pades, z_in and coeff of the caller have an effect, so calls with the same points give the same result. The same holds for Mod_Averager, even if the modification mod_fct changes the approximants it is given in place; its calls change no array of the caller.", "quantifier": "all histories of calls and code of the caller, which may read, allocate and write adaptively, all memories, layouts and overlaps of the arrays, all points, coefficients, validities and kinds", "why_tests_cant": "Tests call the function once, right after creating it; the statement ranges over all histories and all aliasing between the arrays captured by the closure and those of the caller.", "anchors": ["gftool/pade.py: Averager", "gftool/pade.py: calc_iterator", "gftool/pade.py: Mod_Averager"]}
{"id": "C89", "title": "Fits with optimized pole spread are at least as good as those with fixed spread", "statement": "izp2tau and tau2izp fit a pole function to the data, and choose the spread of the poles by a scalar minimization. If the fit succeeds (the only other outcome for not more moments than points is a RuntimeError of the minimization), the distance of the fitted function to the data is not larger than that of a single pole at zero, m_0/z, nor than that of any function with the given moments and poles at the Chebyshev points; so data given by such a function are interpolated. The fitted function has the given moments. Too many moments raise ValueError. This holds for every result of the minimization, also if it is not the minimum.", "quantifier": "all points, data, moments, temperatures and all minimization algorithms that do not end up above the ends of the initial bracket", "why_tests_cant": "The minimization is a black box with arbitrary results (including the spread zero); tests only see the spreads found for their data.", "anchors": ["gftool/fourier.py: izp2tau", "gftool/fourier.py: _z2polegf", "gftool/fourier.py: tau2izp", "gftool/fourier.py: _tau2polegf"]}
