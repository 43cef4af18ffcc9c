# Formal model of gftools (Lean 4): design

The model covers the Python package `gftool` in `/repo` (pinned commit).  It is a
*shallow* model: every modelled function is an ordinary Lean function that follows the
Python branch by branch; exceptions are values (`Except`/`Option`); loops are folds or
structural recursion; calls into LAPACK / scipy / mpmath are parameters with a stated
contract.

## Layout

| folder | content |
| --- | --- |
| `lean/Verif/Model/*.lean` | the model; every definition cites file and lines in `/repo` |
| `lean/Verif/Spec/*.lean`  | small independent specifications (textbook definitions), no reference to the model |
| `lean/Verif/Lemmas/*.lean`| helper lemmas used in proofs |
| `lean/Verif/Props/*.lean` | the property theorems, one file per area; each theorem is followed by an `example` which shows that its hypotheses are met by a concrete, non-trivial case |

## General modelling decisions

* **Numbers.** Python `float`/`complex` are modelled by exact `ℝ`/`ℂ` (or an arbitrary
  field when nothing else is used).  Rounding, overflow, `nan`/`inf` and warnings are
  *not* modelled.  The overflow-safe branches of the code *are* modelled as branches and
  proved equal to the textbook formula, which is what makes them correct modulo rounding.
* **Division by zero.** Lean totalises `x/0 = 0`; numpy gives `inf`/`nan`.  So every
  theorem that divides carries the explicit guard under which the Python expression is
  finite.  Guards are never hidden in definitions.
* **Arrays.** One core axis per function (`Fin n → 𝕜`, `List`, `Matrix`), i.e. the loop
  dimension over which numpy broadcasts is dropped: numpy applies the modelled function to
  each element of the broadcast axes.
* **External routines** (trusted contracts, always explicit hypotheses of the theorems):
  `np.linalg.eig/eigh` (returns a diagonalization), `qr`, `svd` (null vectors), `lstsq`
  (returns a minimizer), `np.linalg.solve` (returns a solution of a regular system),
  `scipy.optimize.root/root_scalar` (if success is reported, the result is a root),
  `scipy.special.expit/logit/expm1`, `np.fft.*` (the defining finite sums),
  `mpmath.ellipk`, `scipy.special.jv` (parameters).
  The contracts are the structures `LinalgExt`, `EigExt`, `PadeEig`, `ArgSort`,
  `ToeplitzExt`, `SvdVals`, `PolepadeExt`, and the predicates `HonestSolver`,
  `HonestSolverFxdocc`, `HonestExceptSolver`, `HonestRootScalar`.  Where the contract is not
  obviously satisfiable an instance is constructed (`linalgExt`, `polepadeExt`, ...).
* **Tolerances.** Rank decisions with a floating point tolerance (`matrix_rank`, the null
  dimension of `number_poles`) are modelled as exact ranks; `np.allclose` is modelled with
  its default tolerances; `minimize_scalar` is an arbitrary real number (C44), or a method that
  does not end above the ends of its first bracket (C89).
* **Side effects.** Logging and warnings are dropped.

## Trusted base

* Lean 4.33.0 kernel; axioms `propext`, `Classical.choice`, `Quot.sound` only
  (checked with `#print axioms` for every property theorem by `vcheck`).
* Mathlib definitions (`Real.exp`, `Complex.log`, interval integrals, matrices, ...).
* The reading of the Python source into `Verif/Model` (nothing was executed).
* The contracts of external routines listed above.
* Python / numpy semantics as described under "General modelling decisions".

## Property by property

For each property of `properties.jsonl`: what is modelled and how it is proved.

| id | modelled | proof idea |
| --- | --- | --- |
| C01 | `fermi_fct` real branch (`expit`) and the two complex branches | field algebra with `exp (-x) = (exp x)⁻¹` |
| C02 | `fermi_fct_inv` with `logit f = log (f/(1-f))` | `log`/`exp` inverse |
| C03 | `fermi_fct_d1` | `HasDerivAt` calculus; bound by AM-GM |
| C04 | `bose_fct` with both branches | algebra, monotonicity of `exp` |
| C05 | both frequency functions | `Complex.exp_eq_one_iff` |
| C06 | matrices `a`, `b` of `_pade_frequencies` for arbitrary size; eigenpairs as hypothesis | conjugation with the alternating sign matrix; Rayleigh quotient for realness |
| C07 | `gf_z`, `gf_d1_z`, `moments` | derivative of finite sums; geometric-series remainder; `Tendsto` |
| C08 | `gf_z` | sign of each summand |
| C09 | `_single_pole_gf_tau` with its `where`/`sign`, `gf_tau`, `occ` | case split on the sign of the pole |
| C10 | same and Matsubara frequencies | integral of exponentials |
| C11 | the three real-time single-pole functions | algebra; improper integral by FTC |
| C12 | `_chebyshev_points`, `gf_from_moments` with automatic width | Chebyshev points are distinct (injectivity of sine), Vandermonde invertible |
| C13 | `gf_from_z`, `gf_from_tau` with an abstract `lstsq_ec` | constraint part from C15; negation for falsy `occ` |
| C14 | `ZeroPole`, `RatPol`, `Polynomial` | products over lists |
| C15 | `lstsq_ec` with QR and lstsq contracts | change of variables with a unitary matrix |
| C16 | `orth_compl` with full SVD/QR contract | orthogonal decomposition |
| C17 | `Decomposition`, `reconstruct` incl. string dispatch | matrix algebra |
| C18 | `decompose_her`, `decompose_sym` with eig contract | matrix algebra |
| C19 | `gf_2x2_z` | 2x2 inverse, square-root algebra |
| C20 | `hybrid_z`, `gf0_loc_z`, `hamiltonian_matrix` as block matrix | Schur complement / explicit resolvent column |
| C21 | `gf0_loc_{ret,gr,le}_t` with a unitary diagonalization | matrix exponential of diagonalized matrix |
| C22 | `gf_cmpt_z`, `self_root_eq`, `self_fxdpnt_eq` | field algebra over finite sums |
| C23 | both `restrict_self_root_eq` | case split per entry |
| C24 | `solve_root`, `solve_fxdocc_root` with solver contract; `_join`, `_split` | unfolding the control flow |
| C25 | `SpecDec`, `gf_loc_z`, `self_root_eq` | Woodbury-type identities |
| C26 | `density_iw` | linear algebra |
| C27 | `chemical_potential` control flow with solver parameter | loop invariant by induction on fuel |
| C28 | Thiele coefficients, continued fraction | induction on nodes |
| C29 | `calc_iterator` state machine | invariant relating rescaled to plain recursion |
| C30 | `KindSelector`, `KindGf`, `KindSelf` | degrees of numerator/denominator polynomials |
| C31 | filters, `apply_filter`, `Averager` | list induction |
| C32 | as C28 | rational interpolation uniqueness |
| C33 | `pade` with null-vector contract | coefficients of `PowerSeries` product |
| C34 | `hermite2`, `Hermite2` | power series; quadratic formula |
| C35 | `pader` control flow, reduction of the degrees by the numerical rank | negation with witness, partial theorem; rank-nullity shows that the reduction keeps the approximant |
| C36-C38 | `predict`, `companion`, `_predict_stable` | list induction, matrices |
| C39 | `pcoeff_burg` | Cauchy-Schwarz/AM-GM |
| C40 | `pcoeff_covar` | normal equations |
| C41 | `iw2tau_dft`, `tau2iw_dft` with FFT defined by its sum | orthogonality of roots of unity |
| C42 | three Filon transforms | interval integrals of linear times exponential |
| C43-C45 | remaining transforms | finite sums |
| C46 | `tt2z_lpz`, `tt2z_pade` | generating function of a recurrence |
| C47-C50 | top-level functions | algebra |
| C51-C57 | lattice functions; elliptic `K` and Bessel `J₁` as parameters | complex square-root analysis, interval integrals |
| C58-C59 | `polepade` | well-founded recursion / negation witnesses, partial fractions |
| C60 | `density`, `density_error*` | list slices |
| C61-C62 | lattices given by a dispersion (several bands for honeycomb, kagome, Lieb: `Spec/MultiBand`); elliptic integrals as parameters with contract | push-forward measures, substitution in elliptic integrals, complex analysis; `sc.dos` at the middle of the band: Legendre relation and Landen transformation of `K`, a linear system on an arc of the elliptic parameter, uniqueness by Grönwall, power series with recurrence |
| C63 | `masked_coefficients`, row by row | loop invariant relating the rows to `coefficients` of the kept points |
| C64 | `gf_z` of the lattices against hopping on the infinite lattice or tree (`Spec/RealSpace.lean`) | Bloch waves, Bessel's inequality and parity of Fourier coefficients; for trees the sphere recursion; uniqueness from the spectral gap |
| C65 | interface of `Decomposition`/`UDecomposition`; stacks as lists | characteristic polynomial of `a†a`, sorting |
| C66 | `self_root_eq`, `self_fxdpnt_eq`, `solve_root` of C22–C24; the Hilbert transform is that of an arbitrary probability measure | Pick's inequality for Stieltjes transforms (Cauchy–Schwarz), hyperbolic contraction, Banach iteration |
| C67 | whole `pade_frequencies` with its assertions, sorting and residues; `scipy.linalg.eig` as parameter with contract `ExactGEig` (exact eigenpairs, independent eigenvectors; proved satisfiable); `density_iw` of C26 | symmetric tridiagonal pencil (real, simple, paired spectrum); spherical Bessel recursion gives the exact remainder of the continued fraction of tanh; numerators and denominators are Lommel polynomials which converge to sin and cos (Tannery), the sum rule of the inverse squares excludes further roots, hence the k-th frequency tends to the k-th Matsubara frequency and its residue to one; strict monotonicity in the number by interlacing of the eigenvalue counts of nested pencils; residues above one by the Riccati equation of the Lommel polynomials, sum rules by the values at zero and infinity |
| C68 | the transforms of C43-C45 unchanged; `Spec.SmoothOn` for twice differentiable functions | exactness of the transforms on splines (C43-C45) plus interpolation error by Rolle's argument; Matsubara-Fourier series of antiperiodic functions for the truncation error of `iw2tau`; resolvent as Laplace integral |
| C69 | numpy arrays as shape plus indexed values (`Model/Nd.lean`), broadcasting, new axes, slices, sums, in-place operations, assignments and masks; the functions written on whole arrays (`Model/Stack.lean`, `Model/StackFit.lean`, `Model/StackFitZ.lean`, `Model/StackFourier.lean`, `Model/StackLaplace.lean`, `Model/StackSiam.lean`); `np.vectorize` as a loop over the indices of the leading axes which ends at the first exception | calculus of array expressions represented by element functions (`Lemmas/Nd.lean`): broadcasting is associative, commutative and idempotent; induction on the prediction loops and on the iterations of Burg's method |
| C70 | `coefficients` and `calc_iterator` on arrays of any shape, the filters, `apply_filter`, `Averager` and `averaged` for `c` functions (`Model/PadeStack.lean`) | induction on the loops, with broadcasting; `Except` calculus over the functions; negations for the filters that index whole rows |
| C71 | the models of statistics, pole functions, Fourier and Laplace transforms with the exponential functions as parameter (`Model/ExpRange`) | case analysis: the argument of every exponential that is used has a non-positive real part |
| C72 | `self_root_eq`, `self_fxdpnt_eq`, `solve_root` of C22/C66, now as functions of the frequency; on-site energies may be analytic functions of it. | Existence and uniqueness from the contraction of C66 at each frequency; analyticity because the fixed-point iterates are analytic and converge locally uniformly with the explicit rate of C66; tail from the identity `S - <e> = (w-S)/(w-<e>) sum c (e-<e>)^2/(w-e)` with the effective medium `w = 1/G + S`, `Im w >= Im z`, and dominated convergence for the Hilbert transform; symmetries by uniqueness and algebra. Files `Props/CpaAnalytic.lean`, `Props/CpaTail.lean`. |
| C73 | `self_root_eq`, `gf_loc_z`, `solve_root` of C25 and the CPA functions of C22. | For physical `Σ` the value of `self_root_eq` is `M - F(M)` with `M = z - Σ` and `F` = diagonal replacement of the hybridisation `Δ = M - G⁻¹`. Matrix Schwarz-Pick lemma for `Δ` (from `∫(X-1)A(Y-1)` with `∫X = ∫Y = 1`), complete positivity of the diagonal replacement (Kraus form with the concentrations) and the bound of `Im Δ` by the band give a strict contraction for quadratic forms; hence uniqueness, existence by iteration and stability. CPA limit by Sherman-Morrison. Files `Lemmas/MatStieltjes.lean`, `Lemmas/BebFixpoint.lean`, `Props/BebUnique.lean`. Physical is assumed of the returned matrix: the code restricts only its diagonal. |
| C74 | As C73, with frequency-dependent on-site energies. | The iteration of the fixed-point map converges with a rate that depends only on the damping and a bound of the energies, so locally uniformly; its elements are analytic by differentiating under the integral. Bath form of the diagonal from the fixed-point equation; the deviation of `Δ` from `m₁ T` is bounded by `B²‖T‖²/Im z`. Symmetries by transforming the equations. Files `Lemmas/BebAnalytic.lean`, `Props/BebAnalytic.lean`. |
| C75 | `coefficients`, `calc_iterator`, `averaged`, `avg_no_neg_imag` as for C28-C31 | induction over the loops for units and conjugation; the cross product of two interpolating rational functions with bounded degrees has too many roots |
| C76 | the transforms of C41-C45, `lstsq_ec`, `gf_from_moments` as modelled there | closed forms; the minimal least squares solution is the orthogonal projection, hence linear; for the fits composition of linear maps; `gf_from_moments` with `width=None` is not linear (`gf_from_moments_auto_width_not_linear`) |
| C77 | `predict`, `pcoeff_covar`, `pcoeff_burg`, `tt2z_*`, `pade` as for C33-C46 | uniqueness of the minimal least squares solution under norm preserving maps; induction over Burg's loop; cross product of two Padé approximants |
| C78 | all functions with dimensional arguments, as modelled for the other properties | closed forms; the constrained least squares problem is scaled by a non-zero factor, so minimal solutions coincide (uniqueness); witnesses for the default widths |
| C79 | `gf_z` and `dos` of all lattices, as modelled for C07 and the other lattice properties | `IsCausalGf`, `IsRealGf` (Spec/Causal) proved once for every Hilbert transform of a compactly supported density: Poisson kernel as approximate identity, Cauchy–Schwarz for the hybridisation function, Neumann series for the tail; instances for each lattice; identity theorem for the negation for fcc |
| C80 | `density_iw`, `density`, `chemical_potential` with the lattice Green's functions, as modelled for C26, C27, C60 and the lattices | remainder of the Matsubara sum by geometric series and a telescoping majorant, integrated over the density of states; Padé frequencies by the error of the continued fraction (C67); monotonicity and intermediate value theorem |
| C81 | `cpa.solve_root`, `gf_cmpt_z`, BEB local Green's function and `density_iw`, as modelled for C22–C24, C26, C72–C74 | theorem of Herglotz and Nevanlinna, proved from scratch: Poisson formula on lines above the real axis, tightness of the broadened spectral functions, Prokhorov's theorem along an ultrafilter, open mapping theorem for the real part; then effective medium `1/G + S` is at least as damped as `z`; dominated convergence for Matsubara sums |
| C82 | `cpa.solve_fxdocc_root` with `density_iw` and `chemical_potential`, as modelled for C24 and C26 | uniqueness of the CPA root (C66) at shifted frequencies, spectral distributions of C81; bound on the chemical potentials from the high-frequency expansion against the fitted pole, uniform convergence of the Matsubara sum on bounded sets, strict monotony of the occupation; particle-hole symmetry for half filling. Existence of a solution for a finite number of frequencies is only proved at half filling: the two-pole fit of `density_iw` switches its poles at moment 0.1, so the computed occupation is a discontinuous function of the chemical potential |
| C83 | `cpa.solve_root`, `self_root_eq`, `gf_cmpt_z`, as modelled for C22, C23 | beyond the edge the real part of `1/G` is at least the distance to the band, for the lattice and for the effective medium with the component energies; the fixed-point iteration keeps `Re S <= emax`; balance of the imaginary parts bounds the damping by the imaginary part of the frequency; weight of an interval from the limit of C81; lower edge by reversing all energies |
| C84 | `statistics.fermi_fct`, `fermi_fct_d1`, `fermi_fct_inv`, `bose_fct`, Matsubara frequencies, `bethe.gf_z` on the imaginary axis, `bethe.dos` and `onedim.dos` for real energies, `pole.gf_z`, `pole.gf_tau`, `pole.gf_ret_t`, `pole.moments` and `PoleGf.occ`, with every operation rounded (`Model/Float.lean`) | floating point numbers as a set of reals, rounding as any nearest point; elementary functions of the libraries are external with a bound of their relative error; propagation of relative errors, conditioning of the exact functions, sums of floats do not underflow. Concrete arithmetics (doubles, 80-bit) are constructed for the examples |
| C85 | the functions of the anchors statement by statement in a state-and-error monad (`Model/Memory.lean`, `Model/InPlace.lean`, `Model/InPlace2.lean`, `Model/InPlace3.lean`, `Model/MaskedMem.lean`): buffers of elements, arrays as address and positions of their elements, masked assignment, `empty_like` with arbitrary contents | `PureCall` in `Spec/Memory.lean`; symbolic execution with lemmas for reading after allocation and writing, induction over the loops of `coefficients`, `predict`, `pcoeff_burg` (with NaN placeholders as `none`); equality with the pure models used by the other properties |
| C86 | the existing models of the Fourier transforms, `density_iw`, the Padé coefficients and their evaluation | `SupStable`, `SquareStable` in `Spec/Noise.lean`; linearity (C76) and the exact integral and sum formulas of C41–C45 reduce each bound to the triangle inequality for a linear spline; Bessel's inequality for the orthogonal exponentials; resolvent identity under the integral; explicit two-point Padé data next to a pole as counterexample |
| C87 | `calc_iterator` as coroutine in the memory model (`Model/Generator.lean`): frame of the generator, `next`, histories of `next` and arbitrary code of the caller | `Polite`, `approximant` in `Spec/Generator.lean`; invariant of the frame (contents and addresses of the arrays it holds) by induction over the history; explicit history for the negation |
| C88 | `Averager` (one-dimensional `valid_pades`, one set of coefficients) and `Mod_Averager` in the memory model (`Model/AveragerMem.lean`, `Model/ModAveragerMem.lean`; contract of `mod_fct`: `Modifies`): closure with captured references, calls, histories of calls and arbitrary code of the caller; the NaN check is not modelled (complex numbers) | `LeavesAlone`, `averageAt` in `Spec/AveragerMem.lean`; contents of captured arrays are invariant, by induction over the history; results of a call by the history of its generator (C87) and the pure model of `Averager` |
| C89 | `_z2polegf`, `_tau2polegf`, `izp2tau`, `tau2izp` with the error functions that are minimized (`Model/PoleOpt.lean`); `scipy.optimize.minimize_scalar` is a parameter with a contract (`MinimizeExt`: starts with the bracket 0, 1; result not above these ends; raises only `RuntimeError` or what the error function raises). Met by `minimizeEnds` | `fitDistance`, `momentOf` in `Spec/PoleOpt.lean`; fits are the best ones at their spread (C13), the singular fit at spread zero by the projection property of the fall back in `lstsq_ec` (`lstsq_ec_closest`); for imaginary times without weight and occupation |

## Not modelled

* floating point rounding and numerical accuracy, except for the functions of C84 (there: overflow, infinities, NaNs and signed zeros are not modelled; the truncation error of the Taylor expansion in `sc.dos` is proved, `sc_dos`); numexpr back-ends (same formula as numpy);
* `mpmath` precision contexts;
* numpy broadcasting for functions outside C69 and C70 (modelled for single elements only), dtype handling (except where a
  property is about it), plotting, logging;
* the numerical evaluation of elliptic integrals and Bessel functions (their definitions as integrals are the
  contract, `Spec/Dispersion.lean`, `Spec/Lattice.lean`).

## Disagreements between documentation / expected property and code

Each entry is a place where the code violates the property or its documentation.  The
negation is proved with a concrete witness; the remaining part of the property is proved
by the theorems listed in `MANIFEST.json`.

| property | disagreement | theorem |
| --- | --- | --- |
| C04 | `bose_fct` with integer-typed input truncates the result to an integer | `bose_fct_int_wrong` |
| C09 | `pole_gf_tau` is wrong for purely imaginary non-zero poles (sign of the real part is 0) | `pole_gf_tau_imag_pole_wrong` |
| C49 | `pole_gf_tau_b` accepts a zero pole | `pole_gf_tau_b_zero_pole_accepted` |
| C13 | `gf_from_tau` with `occ` duplicates the occupation row and raises although the fit is possible; it raises for `moments=()` | `gf_from_tau_occ_spurious_error`, `gf_from_tau_occ_no_moments` |
| C13 | the duplicated occupation rows use up degrees of freedom: with `occ` and two or more moments the fit is not optimal, for `n_pole = 2*len(moments)` it ignores the data completely | `gf_from_tau_occ_not_optimal` |
| C13 | `gf_from_tau`: `occ=0.0` is falsy (ignored), `int(occ)` check wrong for occ ≥ 2, `n_pole=0` raises ZeroDivisionError | `see Model/Pole.lean`, `Props/PoleFit.lean` |
| C15 | `lstsq_ec` accepts contradictory singular constraints and is not optimal for rank-deficient constraints | `lstsq_ec_contradiction_accepted`, `lstsq_ec_singular_not_optimal` |
| C16 | `orth_compl` does not span the complement for rank-deficient input | `orth_compl_not_span` |
| C19 | `gf_2x2_z` is non-finite for equal energies without hopping | `gf_2x2_degenerate_fails` |
| C20 | `hamiltonian_matrix` with integer-typed hopping truncates the energies; `gf0_loc_z` diverges at a bath energy although the resolvent exists | `siam_hamiltonian_int_wrong` |
| C23 | `restrict_self_root_eq`: the docstring has the opposite sign, the argument is mutated | `Props/Cpa.lean` |
| C60 | `density(matrix=True)` with complex potential raises TypeError | `density_matrix_complex_fails` |
| C28/C32 | four or more samples of a single pole give non-finite Padé coefficients | `pade_too_many_points` |
| C31 | `FilterNegImagNum(rel_num<1)` always raises TypeError | `filter_neg_imag_num_rel_fails` |
| C31 | `FilterHighVariance` keeps everything if `rel_num*N < 1` | `filter_high_variance_rel_wrong` |
| C31 | `FilterHighVariance`: the approximants dropped are not those removed iteratively; the assertion commented out with FIXME fails for eight complex numbers | `filter_high_variance_not_iterative` |
| C30/C31 | `averaged` never uses the `n_max` approximant (`KindGf(1, 2)` gives NaN), the 2-d version raises IndexError for even `n_max`; `n_min` is excluded although documented as inclusive | `averaged_misses_n_max`, `averaged_2d_index_error` |
| C33 | `pade_lstsq` with `den_deg=0` ignores `num_deg`, and always ignores `fix_q` | `pade_lstsq_den_zero` |
| C35 | `pader`: `num_deg=0` gives the zero function, `den_deg=0` raises | `pader_num_zero_wrong`, `pader_den_zero_fails` |
| C35 | `pader` raises `ValueError` for every polynomial of degree up to `num_deg - den_deg` | `pader_polynomial_fails` |
| C35 | `pader` returns zero for a series starting with `z**num_deg` (`an[:num_deg]` misses one coefficient) | `pader_monomial_fails` |
| C34 | `Hermite2.eval` of a scalar raises TypeError | `hermite2_eval_scalar_fails` |
| C36 | `predict` with order larger than the signal is silently accepted | `predict_order_silent` |
| C39 | Burg roots may lie on the unit circle | `burg_on_circle` |
| C42 | `tau2iw_ft_lin` is wrong for functions with a jump; exact error formula proved | `tau2iw_ft_lin_jump_wrong`, `tau2iw_ft_lin_jump` |
| C43 | `tau2iv_dft` is wrong for functions with a jump | `tau2iv_dft_jump_wrong` |
| C42 | `tt2z_lin` accepts tiny non-equidistant grids | `tt2z_lin_grid_accepted` |
| C45 | `_simps_weight` with two points and the doubled last weight of `tt2z_simps` | `simps_weight_two_wrong`, `tt2z_simps_constant_wrong` |
| C46 | `tt2z_lpz` loses the phase `exp(i z tt[0])` | `tt2z_lpz_phase_wrong` |
| C47 | `hubbard_dimer_gf_z` raises ZeroDivisionError for t = U = 0 | `hubbard_dimer_zero_fails` |
| C54 | `dos_moment(0)` raises NotImplementedError for bethe, square, triangular, honeycomb, sc, bcc | `*_dos_moment_zero_fails` |
| C54 | `box.dos_moment` for negative even orders returns `D**m/(m+1) < 0`, although the moment does not exist (all other lattices raise `NotImplementedError`) | `box_dos_moment_neg_wrong`, `box_dos_moment_neg_not_integrable`; right for `m >= 0`: `box_dos_moment` |
| C57 | `onedim.dos_mp` raises ZeroDivisionError at the band edges | `onedim_dos_mp_edge_fails` |
| C53 | `bethez.dos` for 1 < Z < 2 has weight Z - 1 | `bethez_dos_low_weight` |
| C55 | `box/bethe.gf_ret_t`: the phase uses `center*half_bandwidth` | `box_gf_ret_t_center_wrong`, `bethe_gf_ret_t_center_wrong` |
| C57 | `lieb`: documented `t = D*2^{3/2}` should be `2^{-3/2}` | `Props/Composite.lean` |
| C60 | `density_error(noisy=True)` may be negative, so that no warning is ever issued; `check_convergence(matrix=True)` raises unless the number of frequencies equals the matrix size | `density_error_noisy_negative`, `density_never_warns`, `check_convergence_matrix_fails` |
| C58 | `number_poles` raises AssertionError whenever `size - degree` is even and at most 100 | `number_poles_assert_iff`, `number_poles_assert_fails` |
| C58 | `number_poles(n_poles0=0)` does not terminate | `number_poles_zero_start_diverges` |
| C58 | `number_poles` returns p+1 for N = 2p+degree+3 points; raises RuntimeError for N = 2p+1, degree 0 | `number_poles_overestimates`, `number_poles_determined_fails` |
| C59 | `zeros`/`continuation` raise for functions without zeros | `polepade_zeros_empty_fails`, `continuation_single_pole_fails` |
| C59 | `poles`/`zeros`/`continuation` divide by the median of the data, which vanishes for data that contain with every value its negative, e.g. for an odd function on a symmetric grid (particle-hole symmetric Green's function on positive and negative Matsubara frequencies): never a result | `npMedian_odd_data`, `continuation_odd_data_fails` |
| C59 | `asymptotic` with weights reports the variance as standard deviation | `asymptotic_weighted_std_wrong` |
| C61 | `rectangular.dos` at the band edge `\|eps\| = D` evaluates the formula at `1 - 2**-52` instead of the (finite) edge value; the distribution is not affected | `rectangular_dos` (as density) |
| C57 | `triangular.dos_mp` uses the double `np.pi`, so it is wrong by the factor `(pi/np.pi)**2` at every precision | `triangular_dos_mp_partial`, `triangular_dos_mp_wrong` |
| C62 | `triangular.gf_z` returns `-inf*1j` at `z = -1` for every half-bandwidth; the singularity lies at `z = -4/9*half_bandwidth` (the test multiplies the rescaled argument by the scale again) | `triangular_gf_z_singular_wrong`, `triangular_gf_z_singular_missed` |
| C62 | `triangular.gf_z` picks the wrong boundary value of the elliptic integral if its parameter lies exactly on the cut (e.g. `z = -sqrt(3)`, `D = 9/4`; not representable in floating point) | `triangular_gf_z_cut_wrong`, correct otherwise: `triangular_gf_z_partial`, `triangular_gf_z_up` |
| C57 | `bcc.dos` and `fcc.dos` for integer energies: `np.zeros_like(eps)` is an integer array, so the values are truncated (to 0 for bcc), and assigning `np.inf` to the masked elements raises OverflowError, whether or not an element is masked | `bcc_dos_int`, `fcc_dos_int` |
| C62 | `bcc.gf_z` of a real energy inside of the band is the retarded Green's function for `z > 0`, but the advanced one (positive imaginary part) for `z < 0`; the docstring example plots exactly these values | `bcc_gf_z_real_retarded`, `bcc_gf_z_real_advanced` |
| C57 | `sc.dos_mp` close to the middle of the band applies expansion coefficients for half-bandwidth 3 to the energy without rescaling it; so it differs from `sc.dos` (and does not scale with the half-bandwidth) | `sc_dos_mp_differs`; correct outside of the tolerance: `sc_dos_mp_partial`, and for half-bandwidth 3: `sc_dos_mp_three_partial`; the one which is right is `sc.dos`: `sc_dos` |
| C62 | `sc.gf_z` of a real energy inside of the band is retarded for `z > 0`, but advanced for `z < 0`, as for bcc | `sc_gf_z_real_retarded`, `sc_gf_z_real_advanced` |
| C62 | `fcc.gf_z` of a real energy inside of the band is the advanced Green's function (positive imaginary part) except at exactly `half_bandwidth/2`, where it is the retarded one | `fcc_gf_z_real_advanced`, `fcc_gf_z_half_retarded` |
| C62 | `fcc.gf_z` picks the wrong boundary value of the elliptic integral if its parameter lies exactly on the cut (a curve in the complex plane; e.g. `z = (-1-3*sqrt(11)*1j)/16`, `D = 2`) | `fcc_gf_z_cut`, `fcc_gf_z_wrong`; correct otherwise: `fcc_gf_z_partial`, `fcc_regular_of_far` |
| C57 | `fcc.dos_mp` guards with `3 < eps < -1`, which is never true; harmless, because the absolute value of the imaginary part vanishes outside of the band | `fcc_dos_mp`, `fcc_dos_band` |
| C63 | `masked_coefficients` leaves a zero coefficient for an eliminated point, which ends the continued fraction: all values behind it are ignored, too, also the kept ones | `masked_coefficients_truncates`, `masked_coefficients_wrong`; correct if the eliminated points are removed from `z` as well: `masked_coefficients_kept`, `masked_coefficients_interpolates` |
| C64 | the documented hoppings of `triangular` (`t = 4D/9`), `honeycomb` and `kagome` (`t = 2D/3`) are twice as large as the ones realised by `gf_z` (`2D/9`, `D/3`), the one of `lieb` (`D*2**1.5`) is eight times as large (the dispersion documented for `triangular` lacks the factor 2 which the other lattices have, so its `t` is no hopping amplitude) | `triangular_hopping_wrong`, `honeycomb_hopping_wrong`, `kagome_hopping_wrong`, `lieb_hopping_wrong`; right: `triangular_real_space_partial`, `honeycomb_real_space_up`, `kagome_real_space_up`, `lieb_real_space` |
| C65 | `UDecomposition.s` of a stack of matrices: `[::-1]` reverses the first axis instead of the last one, so the singular values are in ascending order and belong to another matrix | `udec_stack`, `udec_stack_order_wrong`, `udec_stack_swapped`; right for a single matrix: `udec_singular_values` |
| C69 | `gf_2x2_z` raises `ValueError` whenever `eps0` and `eps1` have different shapes, e.g. a number and an array (`np.mean([eps0, eps1], axis=0)`) | `gf_2x2_z_stack_fails`; right for equal shapes: `gf_2x2_z_stack` |
| C69 | `tt2z_lin` with leading axes of both `gf_t` and `z` raises `ValueError` as soon as one frequency is 0 (the values for `z=0` are assigned through a mask of the wrong shape) | `tt2z_lin_stack_fails`; right otherwise: `tt2z_lin_stack_partial` |
| C69 | `gf_from_moments` with an array `width` of the documented shape `(...)` raises `ValueError`, or silently uses a different width for every pole instead of for every element of the stack if the lengths coincide | `gf_from_moments_width_fails`, `gf_from_moments_width_silent` |
| C69 | `gf_from_tau` raises `ValueError` for every `weight` with leading axes (documented as `(..., N_tau)`) | `gf_from_tau_weight_fails`; right for one-dimensional weights: `gf_from_tau_stack_partial` |
| C69 | `gf_from_z` with points without and weights with leading axes raises `ValueError` (`weight` is documented as `(..., N_z)`; the matrix is multiplied in place) | `gf_from_z_weight_fails`; right if the leading axes of `weight` are among those of `z`: `gf_from_z_stack_partial` |
| C69 | `density_iw` with `n_fit>0` raises `ValueError` for `A` sets of `K` frequencies, `A ≠ 1`, `A ≠ K` (`iws` is documented as `(..., N_iw)`; `gf_iw` gets a new axis, the weight of the fit does not) | `density_iw_fit_stacked_frequencies_fail`; right for one-dimensional `iws`: `density_iw_fit_stack_partial` |
| C69 | `predict` with `stable=True`, a stack of series and common coefficients raises `IndexError`, or zeroes whole series and removes no growing terms if the number of series is the order; a single series with stacked coefficients raises `ValueError` | `predict_stable_shared_fails`, `predict_stable_shared_silent`, `predict_stack_fails`; right for equal leading axes: `predict_stable_stack_partial`, and for `stable=False`: `predict_stack` |
| C69 | For empty stacks (a leading axis of length 0) `pcoeff_covar` and `companion` raise `ValueError` instead of returning empty arrays; `tt2z_lpz` inherits this (`tt2z` returns before) | `pcoeff_covar_empty_fails`, `companion_empty_fails`; right for non-empty stacks: `pcoeff_covar_stack_partial`, `companion_stack_partial`, `tt2z_lpz_stack_partial` |
| C69 | `companion` raises `IndexError` for a stack of at least two polynomials of degree 0, not the documented `ValueError` (it checks `a.size`, not the length of the last axis) | `companion_short_fails` |
| C70 | `FilterNegImagNum` for a stack (flagged in the docstring as not checked) keeps an approximant for all functions if it is among the best of any function | `filter_neg_imag_num_stack_fails`; `filter_neg_imag_num_stack_partial` |
| C70 | `FilterHighVariance` for a stack (documented `(..., N_z)`) rejects for all functions what is bad for any: N functions with N approximants and `abs_num=N-1` have nothing left, so `averaged` raises `RuntimeError`, though each function alone keeps N-1 | `filter_high_variance_stack_fails`, `filter_high_variance_stack_shared`; right for one function: `filter_high_variance_stack_partial` |
| C70 | `apply_filter` passes a stack to a single filter, but applies two filters function by function: giving `FilterHighVariance` twice repairs the result | `apply_filter_stack_inconsistent`; right: `apply_filter_stack` |
| C70 | A rejected approximant that is NaN is ignored by `Averager` for one function, but raises `RuntimeError` for a stack | `averager_nan_stack_fails`; right without NaN: `averager_stack`, `averager_nan_finite` |
| C71 | `tt2z_lin` of an advanced function on an increasing grid (`tt <= 0`, `z.imag <= 0`) evaluates `exp(abs(z.imag)*dt)`, which may overflow although the result is finite | `tt2z_lin_advanced_overflow`; right otherwise: `tt2z_lin_exp_range_partial`, `tt2z_lin_retarded_exp_range` |
| C78 | the check for equidistant times uses an absolute tolerance: whether `tt2z_lin`, `tt2z_pade`, `tt2z_lpz` accept times depends on the unit | `tt2z_grid_check_depends_on_unit`; `tt2z_lin_units_partial` if the outcome is the same, equidistant times are always accepted: `equidistant_units` |
| C78 | `tau2iw` and `iw2tau` with two or more moments (or additional fitted poles) and `density_iw` with a second moment below 0.1 use fit poles in `[-1, 1]` in whatever unit the user works: the results for the same physical system differ between units | `tau2iw_two_moments_depends_on_unit`, `iw2tau_two_moments_depends_on_unit`, `density_iw_depends_on_unit`; otherwise independent: `iw2tau_units_partial`, `tau2iw_units_partial`, `density_iw_units_partial` |
| C79 | `fcc.gf_z` crosses a branch cut of the elliptic integral inside the half-planes: it is not analytic there | `fcc_not_analytic`; `fcc_causal_partial` for all other frequencies |
| C80 | `chemical_potential`: "no bracket can be found … should only happen for the complete empty or completely filled case"; it also happens for nearly empty systems, as the first step is proportional to the tiny deviation of the occupation and only 101 doublings are made | `chemical_potential_fails`; `chemical_potential_filling_partial` gives the condition under which the bracket is found |
| C84 | `fermi_fct_d1` computes `1 - fermi`: for energies far below the chemical potential (`beta*eps` below about -37 for doubles) the result is exactly 0 although the derivative at the opposite energy, with the same exact value, is accurate | `fermi_fct_d1_rounding_lost`; `fermi_fct_d1_rounding` (absolute error), `fermi_fct_d1_rounding_rel` (positive energies) |
| C84 | `bethe.gf_z` cancels `1 - sqrt(1 - z**-2)`: the relative error grows like the square of the frequency, and at frequencies above about `2^33` half bandwidths (80-bit numbers) the result is exactly 0 instead of `1/z` | `bethe_gf_rounding_lost`; `bethe_gf_rounding_partial` (relative error with the factor `2 + 4t²`) |
| C85 | `restrict_self_root_eq` of `cpa` and `beb` set positive imaginary parts of their argument to zero, so the array of the caller is changed | `restrict_self_root_eq_changes`; `beb_restrict_memory`, `restrict_self_root_eq_memory` (exactly which elements), `restrict_self_root_eq_physical` (nothing changes if all imaginary parts are non-positive) |
| C85 | `tau2iv`, `tau2iw` and `iw2tau` add to the array returned by the function `fourier` of the user: if that array is kept by the user (cached result), it is changed | `tau2iv_changes_cached`, `tau2iw_changes_cached_jump`; `tau2iv_memory`, `tau2iw_memory`, `iw2tau_memory` (transformations returning new arrays) |
| C87 | `calc_iterator` yields a view of the array with which it computes the next two approximants: a caller who changes a yielded array in place (`pade *= …`, a filter that writes to its argument) changes the following approximants | `calc_iterator_depends_on_caller` (1/3 instead of 2/3), `calc_iterator_overwritten` (exact value); `calc_iterator_history_partial`, `calc_iterator_stops_partial` (histories that leave the last two yielded arrays alone) |
| C88 | the function returned by `Averager` has a private copy of `valid_pades`, but only references to `z_in` and `coeff`: a caller who reuses one of these arrays changes the results of the function | `averager_depends_on_coefficients` (0 instead of 1/2); `averager_history_partial`, `averager_repeatable_partial` (histories that leave `z_in` and `coeff` alone) |
| C89 | if the minimization returns the spread zero, the fitted function is `m_0/z`, whatever higher moments are given (no exception: `lstsq_ec` accepts contradictory constraints) | `izp2tau_moments_lost` (`1/z` with the second moment 1); `izp2tau_fit_moments_partial` |
| C89 | `_tau2polegf` calculates the error at spread zero with the jump of the data, but fits with the given first moment; if they differ (a warning is logged), the fit may be worse than that at unit spread | `tau2izp_fit_worse`; `tau2izp_fit_error_partial` (first moment equal to the jump), `tau2izp_fit_error_default` (default moments) |
| C25 | without starting guess `beb.solve_root` raises `LinAlgError` if one of the frequencies is zero: the start is the residual of the medium `z` | `beb_solve_root_zero_frequency` |
