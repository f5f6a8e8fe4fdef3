# Formal model of tloredo/inference in Lean 4

The code under /repo is only read. Everything below is a hand translation of that text into Lean
definitions, plus theorems about the translation.

## Trusted base

* Lean 4.33.0's kernel, and Mathlib (compiled, as installed).
* Axioms: only the three standard ones, `propext`, `Classical.choice`, `Quot.sound`. No axiom is added, and
  there is no `sorry`, `admit`, `native_decide`, `bv_decide`, `implemented_by`, `unsafe` or `partial def`.
  The per-theorem axiom report is in `AXIOMS.txt` (generated with `#print axioms`).
* The faithfulness of the translation. Each model definition cites the file and lines it models and says where
  it simplifies.

### Global modelling decisions

1. **Numbers.** Python floats and Fortran/C doubles are modelled by an exact linearly ordered field `K`
   (`ℚ` in counterexamples and examples, `ℝ` where `exp`, `log`, `sqrt` occur). Round-off, overflow, NaN and
   infinities are *not* modelled, except where the code tests for them explicitly and a comment says so. Machine
   integers are `Nat`/`Int`; 32-bit wrap-around is not modelled, except in the five-table sampler, where the
   30-bit layout is the point.
2. **Exceptions are values.** A function that can raise returns the (possibly already modified) state together
   with `Except Err α`, so "raised, but had already changed something" is expressible.
3. **Mutable objects.** An object is a record; a method is a function from record to record. Aliasing is modelled
   by explicit references where it matters (shared class lists, shared data arrays).
4. **User callbacks** (`score`, `signal`, basis functions, objective functions) are arbitrary total functions,
   universally quantified in the theorems. Callbacks that raise or that mutate parameters are not modelled unless
   stated.
5. **Loops.** Bounded loops are structural recursions. Unbounded loops (`while`) are given a fuel argument or a
   relation; theorems then say either "for every fuel, if it returns ..." (partial correctness) or exhibit the
   fuel that suffices (termination).
6. **Randomness** is an explicit stream or finite set of random words; a probability statement is a counting
   statement over them.

### Not modelled at all

Plotting (`plot_bivar.py`, `pl.py`, `*.plot`), logging and printing, build scripts, generated wrappers
(`_cbmlikemodule.c`, `*.pyf`), the core of DCUHRE behind `adapt_vec` (`d*hre.f`; no call of it ever succeeds, see C91),
`randomkit.c`'s Mersenne twister itself (an arbitrary stream of words), SciPy/NumPy internals (`brentq`, `chi2.cdf`,
`savez`, `pickle`, sort stability), memory allocation and reference counting in the C extensions, documentation,
tests, and the directories `expt` and `sandbox`, which are not part of the package.  A table of the lines cited per
file is below.

## Layout

`lean/Verif/<Area>/<Topic>.lean` holds model definitions, `...Spec.lean` the independent specification
vocabulary, `...Props.lean` the property theorems (names `Cxx_...`) with an `example` beside each showing that its
hypotheses are met by a concrete non-trivial case; helper lemmas live in `...Lemmas.lean` or in the model file.

## Plan per property

| id | model | proof |
|----|-------|-------|
| C01 | `Pie.Param`, `Pie.Inference`: handlers, status lists, all user operations with exceptions | invariant, induction over histories |
| C02 | same; a parameter under stepping operations | invariant value = f(index), induction over histories |
| C03 | same | case analysis over all states |
| C04 | `Inference.next_step` on the list of stepping parameters | reflected mixed-radix Gray code, induction on number of parameters |
| C05 | same | one-step lemma |
| C06 | `do_grid` loop, arbitrary score | C04 plus loop invariant |
| C07 | same | violated: concrete counterexample; partial theorem describes exactly the cells filled |
| C08 | `do_grid` with arbitrary optimizer results | fold invariant |
| C09 | parameter operations | case analysis |
| C10 | histories | violated: counterexample; partial: invariant for histories whose `range` calls contain the current value |
| C11 | `vary` | violated: counterexample; partial: exact list of what a failed `vary` may change |
| C12 | `linstep` | violated: counterexamples; partial: atomic when the error is a range error, and always for n>=2 with both ends given |
| C13 | transform over the reals | algebra with `exp`/`log` |
| C14 | `get_params`/`set_params` | induction over the parameter list |
| C15 | snapshots are value copies | frame theorem over histories |
| C16 | `_set_varying` | induction over the list |
| C17 | `_get_signal_names` on abstract source lines, including removal from the list being iterated | induction over lines |
| C18 | class objects with shared list references | violated: counterexample; partial: true when the base has no own list |
| C19 | store of instances | frame theorem over histories |
| C20 | predictor handler with array references into a heap | invariant over histories |
| C21 | Gaussian handler arithmetic | algebra over lists |
| C22 | Gaussian handler | violated: counterexamples; partial: `sim`/`sim1` without both arrays |
| C23 | event trace of callbacks | invariant over histories |
| C24, C25 | `LabeledMaxList` | refinement to sorted top-n specification, induction over offers |
| C26-C30 | interval lists | invariants over refinement histories; C30 violated |
| C31-C33 | trapezoid sums, evaluation, peaks | induction over points; C33 violated for `vecfunc` |
| C34-C37 | `_gridquad.f` | per-cell integral (Mathlib interval integral for the specification), sum over cells |
| C38 | HPD content | from C34, C35 |
| C39 | steppers | induction |
| C40 | `flatten` on rose trees | structural induction |
| C41 | `zbracket` with the list of calls | loop invariant; last clause violated |
| C42 | `LogSummer` over the reals | invariant with explicit dropped mass |
| C43, C44 | file system as a partial map, operations as atomic steps | induction over histories and crash prefixes |
| C45, C46 | stores over the file system | invariant over histories |
| C47 | column reader | induction over lines |
| C48 | `nrmin.py` | loop invariants, arbitrary objective |
| C49-C51 | five-table sampler, 30-bit words | counting with lists of table entries |
| C52 | pool shuffling | induction over picks; bijection by counting |
| C53 | Sampford loops over arbitrary streams | loop invariant |
| C54 | exact probability of the rejection scheme | algebraic identity over subsets |
| C55, C56 | `Population` flags and RNG threading | invariant over histories |
| C57, C58 | `PWLinear`: index ranges, weights, density, sampling formula | runs of indices are characterised by induction; integrals over cells are added; the square root formula inverts the area; C57 fails at the upper end and for given abscissas |
| C59-C63 | `_cbmlike.f`, `onoff.py` | recursions, monotonicity of the ratio |
| C64-C68 | `vbamodule.c`, `vecba.py` | Cholesky recursion, matrix algebra, memo invariant |
| C69 | cubature rules | polynomial identities |
| C70, C71 | `_obsinfo.f` | difference algebra, Neville/Richardson induction |
| C72 | `adapt_sizes` | arithmetic |
| C73 | `PeakParams` | field identities for any three points of a peak |
| C74 | `logtrapzd_mom` | as C32, per interval and summed |
| C75 | histories of `firstpass` and `refine` | invariant; violated after `refine` |
| C76 | `HPD1D` constructor and `norm` | from C34; violated for neighbouring minima |
| C77 | `critlevel` after the root search (whose result is a parameter) | from C36; violated for log steps |
| C78 | `sig2ratio`, `prob2ratio` with the chi-square quantile as a parameter | algebra over the reals; violated for two dimensions |
| C79 | `contents` of stores | violated for assigned attributes |
| C80 | `max_subset` in all reachable states | largest size not refused; the limit size never returns (violated) |
| C81 | `OnOff.siglml` against an integral over the background rate | binomial expansion, gamma integrals, bound on the omitted terms |
| C82 | `OnOff.sigmp` with the shared factorial table and the cache | equals the marginal likelihood over its integral; integral is one |
| C83 | `slmliked` | same loop as `slmlike`; derivative of the polynomial series |
| C84 | `OnOff` object under any calls | cache invariant; writing into the returned view changes it (violated) |
| C85 | vector forms of `siglml`, `sigmp` | induction over the array; integer arrays truncate (violated) |
| C86 | tables of `cub2d` with a normal weight, `NormWtCub2D` | moments of the tables by kernel computation on integers with an error bound, moments of the normal law; three rules are wrong above a degree (violated) |
| C87 | arrays of the caller in `obsinfo`, `dllsteps` | frame lemmas; failures leave the trial point (violated) |
| C88 | `dllsteps` | induction over parameters and iterations; absolute tolerance and endless search (violated) |
| C89 | `adapt`, `ADAPT` | invariant of the list of regions by induction over divisions; sums over the list move with the records; `SYMRL` is an argument of the model; silent `None` and unused factors (violated) |
| C90 | `BSRL` | induction over the axes |
| C91 | `adapt_vec`, `DCHHRE` | case analysis of keys and dimensions; the array is never made (violated) |
| C92 | `SYMRL`, `WHT`, `FLSM`, `NXPRT`, the calls in `BSRL` | the loops compute sums over partitions, permutations and signs; the sums are a tensor form of Newton interpolation, exact up to total degree 2m-1; the integral is additive over the regions of `ADAPT`; partial because of moments below the tolerance; violated for reversed limits |
| C93 | `Population1D.__init__`, `haz_pts` (`MC/Pop1D.lean`); `argsort` is any function that returns a sorting permutation | sums over the sorted list; partial: equal weights only, other weights violate it (`C93_violated`) |
| C94 | `BasicGrid1D.point` (`BGrid.point`) | case analysis, with the filled values of C33 |
| C95 | the search of `critlevel` (`HPD.search`) with `zbracket` and the contract of `brentq` | the fraction does not increase with the level; two phases of the bracketing by induction; counterexample for nearly flat densities |
| C96 | constructors of `HPDGrid1D`, `HPDGrid2D` (`G1.init`, `G2.init`) | the same object as `H1.init`, `H2.init` of the table of values |
| C97 | `BAObj` over an object with a state that others may change (`Gauss/BAObj.lean`) | simulation: every history of calls and outside changes that keep the samples maps to a history of `BA` with the same results, then C66–C68; violation with an object whose sample changes |
| C98 | `BayesianInference` with the routines of `_obsinfo.f` threaded through the state of the inference (`Pie/Posterior.lean`, `Deriv/ObsRun.lean`) | simulation: the stateful routines equal the pure ones for the posterior as a function of the varying values, then C70 and C88; frame by induction over the evaluations; the last evaluation is displaced (negation for every successful call); two concrete violations |
| C99 | the generator on 64-bit words with memory around the array (`MC/Twister.lean`); specification: the published 32-bit recurrence and tempering | refinement: an invariant relating array and position to the recurrence, kept by the in-place regeneration; induction over calls; restoring is exact because calls change only the array and the position |
| C100 | the same model | the mask is all bits up to the highest of `hi` (each smear doubles the reach); ranges; exact counts of the pairs of array words by bijectivity of tempering and of splitting numbers; concrete violations for negative `hi`, words over 32 bits and positions outside the array |
| C101 | the same model | a step is injective on the 19937 bits, so a zero window can only come from a zero window and orbits in a finite set are cycles; seeding gives a non-zero word; the unset state gives zeros for ever (negation by induction) |
| C102 | `Integrate/Dcuhre.lean`: `DCHHRE`, the layout of the work arrays in `DCUHRE`, `DTRHRE`, `DADHRE` with `MDIV` one, for an arbitrary basic rule; memory that was not set is arbitrary. | Invariant of the loop over divisions (heap order, partition, totals), as for C89; sizes by arithmetic; a witness for a restart with totals that are lost. |
| C103 | `Integrate/Drlhre.lean`: `DRLHRE`, `DFSHRE` with the list of points evaluated. | The loops over signs and permutations run through the distinct signed permutations in lexicographic order; the counts by induction on the dimension. |
| C104 | The weights of `D07HRE`, `D09HRE`, `DINHRE` over the reals. | Sums over the points of each generator in closed form for monomials, by induction on the dimension; the moment equations as identities in the dimension; then linearity and the partition of C102. |
| C105 | The tables of `D132RE`, `D113RE` as rationals. | Residuals of the moment equations, computed exactly for all monomials of the degree, and linearity. |
| C106 | `Population.subset_pps5`, `samplenr5`, `sampford_pps_tables`, the samplers of C49. | Counting word blocks position by position; Sampford's identity with factors that are too small by at most 2^-30 each; simulation of the rejection loop. |
| C107 | `gammln` with its decimals, over the reals, at every argument from 1 on; the functions of C60–C62, C81–C83 with it in place of the parameter. | The error at `n + 1` minus that at `n` is a function of `n` whose second derivative is a fraction of polynomials; it is compared with differences of sums of poles by convexity (the signs of the coefficients are computed by the kernel), telescoped, and the limit of the error comes from Stirling's formula. Then the error is carried through the code. |
| C108 | `SampledGaussian.set_data` on every kind of argument, both sets of attributes (with and without the underscore), exceptions with the state they leave. | Case analysis of one call; an invariant of reachable predictors (the attribute `locns` is only ever a column) for calls that return normally; general statements and witnesses for the forms that fail. |
| C109 | `fkeplermodule.c`: the set-up calls, the reduction of the time to a phase, the starting value, the safeguarded Newton iteration with its limit of 20 steps, the half-angle formulas, all array functions; `kepler.v_rad` and `Orbit` with the module globals. Over the reals. | The iteration keeps the root between its brackets and the step bounds the error (convexity of Kepler's function); mirror symmetry for negative phases; quadratic convergence from the starting value for the eccentricities stated; a lower bound of each step for the case that does not converge. |
| C110 | The listener lists of parameters, `add_listener`, `del_listener`, the broadcasts of values and statuses, for reads, assignments, `fix`, `set_value`, `vary`, `range`; listeners and `on_param_change` may raise exceptions depending on all parameter values. With stepping in a second model without exceptions (`ListenStep.lean`). | Invariant of histories (listeners distinct, owner among them); a relation between states, closed under composition, that all listeners of a parameter were told the same; explicit states after a listener raises. |
| C111 | `phases0`, `phasesd`, `phasesdd`, `binbounds`, `fbindata` of sandbox/point/periodic/_pcperiodic.f over the reals, subscripts out of bounds as an outcome. | Induction over the events: counts by bin against `⌊nb · fract y⌋`; the step as the least distance to a boundary. Negative phases by direct computation. |
| C112 | `qlw_exact` (loop with fuel), `qlw_trap`, `trap_absc` (single precision as a rounding function), `plimult`, `chisqr`. | Number of events still to cross a boundary decreases in every turn; each turn's term against the integral of a measurable bounded step function; periodicity by rotation of the bins; telescoping number of crossings for the trapezoid rule. |
| C113 | `limult`, `lql_wp`, `lodds` with its saved variables, `ll_wpb`, `factln`. | From the accuracy of `gammln` (C107); invariant of the saved variables. |
| C114 | Class `PCModel` as a state with all caches; calls as data; outcomes with exceptions. | Invariant of the state over any history of calls, then C111-C113; offsets cancel. |
| C115 | `rate_wb` with its loop, as in C112. | Invariant of the sums over the loop: between zero and the largest rate times the norm; explicit run with one event and one bin. |
| C116 | `rayleigh`, `rsgrid` with the arrays of its recurrences. | Invariant of the loop: the arrays hold sines and cosines of the current frequency (addition theorems); Cauchy-Schwarz for the range. |
| C117 | `lbessi0`, `lml_wk` over the reals. Specification: series of I0; average over phases. | Series derivatives and the differential equation; small branch: Bernstein signs of the polynomial minus the partial sum; large branch: residual of the polynomial in the differential equation from 3.75 on. |
| C118 | bhacalc.c over the reals, statement for statement; the factorisation shared with C64. Specification: residual sums of squares of sinusoids. | Sums of sines and cosines by induction; the metric loops by an invariant of the blocks done; independence of the sinusoids from a Vandermonde determinant; then C64 to C67. |
| C119 | `USTimeSeries`, `Harmonics`, `Multiplet` with Python 2 rounding, division, indexing and slices; the transform by its definition. | The transform on the grid is the exact projection; then C118. |
| C120 | The same. Specification: ratio of integrals over noise level and amplitudes; gradient form. | Split of the residual sum, translation and scaling of the integral over the amplitudes, Gamma integral over the noise level. |
| C121 | `sixlin` of _regress.f and `SixLin` over the reals, square roots of negative numbers as nan. Specification: minimisers over all lines, upright ones included; angles by the arctangent. | Quadratic forms in the deviations; tangent of the half angle. |
| C122 | The same. Specification: derivatives of the lines for changed weights. | Derivatives of the weighted moments and of the slopes, then the sums of the code term by term. |
| C123 | `bess`, `class`, `nclass`, `BCES`. Specification: C121 for variances less the mean error variances. | As C121; explicit points where the sign of the covariance changes. |
| C124 | The same; C122 for these lines. | As C122; Cauchy-Schwarz for `serr_IFAB`; explicit points for the failures. |
| C125 | `wlss` of _regress.f and regress.py. Specification: weighted least squares; linear functions of the data. | Weighted moments; explicit points for the failures. |
| C126 | `datstt`, `bistats`. | Cauchy-Schwarz. |
| C127 | `Verif/Drxn`: arguments of the constructor as options, `uvec` from the angles. | Accepted patterns by case analysis, the product by spherical trigonometry. Violated for vectors not of unit length and for sig together with kappa. |
| C128 | The average over the sphere as an iterated integral (`Drxn/Spec`), `llike`, `lsinhc`. | The integral of the Fisher density by rotating to the pole (derivative under the integral sign is a total derivative), the accuracy of `lsinhc` from bounds of the logarithm. Violated for small concentrations, and for directions passed as objects or vectors. |
| C129 | `bayes` is a ratio of sphere averages. | `multiplet_lbf` is compared with its log. Violated for directions that cancel: infinite evidence for coincidence. |
| C130 | `fisher_lml`, `fisher_fit`. | `IsLeast` over all unit vectors by Cauchy-Schwarz. Violated for directions that cancel (TypeError). |
| C131 | The loop with its 25 iterations. | Accuracy of any value returned, convergence for sig up to 0.09 rad, pause for sig near pi. Violated for a quarter turn: a sign in the Newton derivative makes the loop run out of iterations. |
| C132 | Exact fields; `SORT1` by its result; `PLEST1`'s change of the largest limits, its ranks, products and variances; removal of ties; `KM.__init__` with lists. | The ranks count the data below, so that each step divides by the number at risk; a group of ties telescopes; induction over the groups of a sorted list. Four failures by witness or for all inputs. |
| C133 | As C132, with negation, reversal of the results and the recomputed estimate. | The recomputed estimate is one less the one before each value; the last row kept after reversal is the first of each group. Two failures by witness. |
| C134 | The loop of the mean with its skipping of ties. | Summation by parts over the groups of ties. |
| C135 | The weights of `KM.__init__` and their cumulative sum. | The drop at the next value; telescoping. One failure by witness. |
| C136 | `KMDIF` with the storage from its array on, `KM.diff`. | The points left over determine all later bins. Failures for all inputs and by witness. |
| C137 | `QUART` with the place the next search starts from. | The first crossing after a point above the level; two failures by witness. |
| C138 | `KM.cdf_pts` (curve only). | Between two successive detections the estimate is constant. One failure by witness. |
| C139 | `ccrule`, `ClenshawCurtis`; the inverse transform as its defining sum over the reals. | The weights are the cosine series of the integrals of Chebyshev polynomials; discrete orthogonality of cosines gives exactness on each Chebyshev polynomial, hence on all polynomials. Orders 0 and 1 fail. |
| C140 | `f1rule`, `Fejer1`. | As C139 with the half-shifted nodes. |
| C141 | `set_range`, `quad` with limits, over histories. | Invariant: the nodes and weights are the affine image of the basic rule. |
| C142 | `PLMapQuad` over the reals. | The moved rule is the given one after an explicit change of variable with the power law as inverse Jacobian. Indices near 1 fail by witness. |
| C143 | `ExpMapQuad`. | As C142; the two branches agree. |
| C144 | `CompositeQuad`: collecting, shared nodes and starts, quadrature, factors, rule objects that change. | Invariant of the second loop: the values that start at a rule's start are those at its nodes. Three failures by witness. |
| C145 | `FSM` of fsm.py; actions change `something` and may raise. | Induction over the history: the tables hold the last definitions. One failure by witness. |
| C146 | The actions and the machine of `example`; strings and integers on the stack. | Induction over notations of expressions: an expression pushes its value. Two failures by witness. |
| C147 | `FSM` of fsm_sm.py without the log file. | Induction over transitions and inputs. One failure by witness. |
| C148 | `mvnini`, `chol`, the constructor of `MVN`; arrays as functions of indices, the reals for floats; what the compiled routine makes of `None` is a parameter. | Invariant of the decomposition: the columns done multiply to the matrix; it fails exactly if the matrix is not positive definite. |
| C149 | `mvnsamp`, `mvnsampq`, `mvnden`, the methods of `MVN`; the deviates are arguments. | Change of variables for the product of standard normal measures; forward and backward substitution solve the triangular systems. |
| C150 | `invert` (Gauss–Jordan), `mvtini`, the constructor of `MVT`, with the table of gamma functions as state. | Invariant of the elimination; C148 for the inverse. One failure by witness. |
| C151 | `mvtsamp`, `mvtden`, the methods of `MVT`. | Mixture of normal laws over the gamma law, integrated in closed form; C153 for the normalization. |
| C152 | `mvnkde`, `MVNKDE` with `set_node`. | Induction over the calls; finite mixture of the laws of C149. Failures by witness. |
| C153 | `hgamma` with its saved table, `gammln`. | Invariant of the table under every call; error of `gammln` for every real argument (C107). |
| C154 | `QROMB`, `TRAPZD`, `POLINT` of _cosmo.f over the reals, with the saved variables as inputs. | Invariant of the stages; Euler–Maclaurin for polynomials and Neville's algorithm give exactness to degree nine; witness that vanishes at 17 points. |
| C155 | `romberg` of romberg.py, with fuel. | Induction over rows; termination for polynomials from the expansion in h²; witness of degree four. |
| C156 | `Rombergs_Integration_Method` with its table as integers. | Induction over columns; the table by evaluation in the kernel, as it has 26 fixed entries; witness with one column. |
| C157 | Common blocks of _cosmo.f as a state, the methods of cosmology.py as calls on it, any quadrature. | Every method sets all that it reads. |
| C158 | The same, quadrature exact. | Fundamental theorem of calculus, chain rule in the three curvature cases, substitution a = 1/(1+z). |
| C159 | `flux2z` with fuel and rounding of the single precision derivative. | Invariant of the iterations; frame property of the calls that set no cosmology; witnesses in the de Sitter and the empty universe. |
| C160 | `eta` for the ten efficiency types; `erfcc` a parameter with values in [0,2] that never increases. | Monotonicity of tanh, of x/√(1+x²) by arsinh, case analysis; witness with unhalved tanh. |
| C161 | `set_params` and `sigma` in base e as in the common block. | Integrals of exponentials; derivative of the logarithm. |
| C162 | `sigma_d` for model 1. | Derivatives by HasDerivAt; uniqueness of derivatives refutes the second one. |
| C163 | `N_exp_rng` with its exponential substitution, break points of `N_exp`; results that are not numbers are `none`. | Change of variables for arbitrary integrands, additivity of integrals of monotone functions. |
| C164 | `ljlike`, `olike`, `set_quad` over a list of surveys. | Induction over surveys and objects; log c ≤ c - 1. |
| C165 | The cumulative loop of `wmodel`. | Induction over the grid against the integral. |
| C166 | The loop for the distance in `wmodel`. | Loop invariant; order of sorted data; limits from the left. |
| C167 | `probks` with its hundred passes. | Alternating series bound; Poisson summation (theta function) for small arguments. |
| C168 | `set_bqmu` abscissas and weights, `d_quad`; rules of `gauleg`, the rate and the rotation are parameters. | Change of variables in the Lebesgue integral by the inverse map; sums over lists. |
| C169 | The iteration for kappa with its 25 passes. | Fundamental theorem of calculus; fixed points; derivative of the quotient. |
| C170 | `F_quad`, `Flb_quad`; the uninitialised variable is a parameter. | Induction over the rule; the one point case by unfolding. |
| C171 | nxtarc as a recursion on forward and backward prediction errors over an ordered field. | Induction over the order; the energy is a quadratic in the last coefficient. |
| C172 | bestar: fold over orders keeping the best of Akaike's criterion, over the reals. | Invariant of the fold; scaling lemma for the recursion. Schwarz's criterion fails on 3, 0, 1. |
| C173 | odiag: six fractions, Cramer-von Mises statistic, result as a value. | Induction over the list of fractions; invariance from C172. |
| C174 | specvar: padding, packed real transform as the defining sum, periodogram, fit as a parameter. | Geometric sums of roots of unity; arithmetic of powers of two. |
| C175 | cfuns with its index arithmetic, over naturals. | Triangular numbers; uniqueness of the diagonal. |
| C176 | The loops of moments over runs and samples. | Induction over lists; floor arithmetic; witnesses for the failures. |
| C177 | corr, corr0, fcorr (circular sum), acorr. | Cauchy-Schwarz and Jensen on finite sums; witnesses for lag 2 and for the wrap. |
| C178 | bint: Fortran int and counting. | Floor arithmetic; induction over the samples. |
| C179 | diag's recorded time and the maximum of moments. | Case analysis; induction over the parameters. |
| C180 | The branches of r_range_1/2 for the sphere, over the reals; specification: squared distance from the centre. | Quadratic formula; one lemma per position of the observer. |
| C181 | The branches for the spheroid with the number C as coded; the unassigned variable is an argument. | The same lemmas for zero eccentricity; witnesses for the four failures. |
| C182 | r_min and mu_range; specification: the set of distances of all points of the shell. | Least element: completing squares. |
| C183 | set_E_par, E_dist, set_n_par, set_n_mod, set_E_mod. | Integral of powers; case analysis. |
| C184 | dn_dSdO and i_dSdO with the Romberg quadrature replaced by the integral. | Change of variables in interval integrals; derivative of the distance. |
| C185 | dn_dO, oromb, inner with integrals for quadratures and early exits as coded. | Change of variables, continuity of the column, vanishing outside the limits. |
| C186 | `dProp`, `dD` over the reals. | Derivative by calculus; Friedmann's equation as a polynomial identity in √(1+Ωz). |
| C187 | `fSpec`, `specK`. | Closed form of the integral of a power law; fails past the cutoff. |
| C188 | `setLfun`, `cdRdz`, `intgd`. | Integral of the luminosity function; derivative of `cdRdz` in the limit; fails for slope 1. |
| C189 | `cdRdOdC`, `zInt`, `dF`, `dCdz`, `scdRdOdC`, `scdRdz`; quadrature exact. | Change of variables; derivative of the count rate of a standard candle; fails past the cutoff. |
| C190 | `newton`, `cut`; fuel for the loop. | Induction over the iterations. |
| C191 | `setFgrid` with the stepping as an argument. | Order of concatenated monotone lists; end points. |
| C192 | `locate`, `powInterp`, `dRdFat`, `fill`. | Induction over the bisection; algebra of logarithms. |
| C193 | `seg`, `rEff`. | Induction over the grid; integral of a piecewise function. |
| C194 | `tail`, `addTot`. | Improper integral of a power; iteration; fails. |
| C195 | `bquad`, `bquad3`, `term`, `ljlike`, `scale`. | Gamma integral; log x ≤ x - 1. |
| C196 | State machine `step`, `run`. | Invariant over all histories. |
| C197 | `segD`, `segQ`, `sums`, `moms`. | Induction over the grid; fails for mixtures. |
| C198 | `wSeg`, `cums`. | Induction over the grid. |
| C199 | `rangeOf`, `lpmaxOf`, `scaled`, `wsum`, `norm1`, `norm2`, `lgl1` of agrid.f. | half-weight loops equal the trapezoid rule by induction; exp of the result bounded on both sides; witnesses for overlap and descent. |
| C200 | `tot1`, `lratio1` over `qgt1d`. | summing C35 over grids; root equivalence by logarithms. |
| C201 | `axis`, `xvals`, `region`. | induction over the points against a specification of the broken line; witnesses for exact hits and zeros. |
| C202 | `vert`, `rhs`, `step2`, `Solves`, `place` of nhess. | rows with one and three nonzero coefficients; closed form of the unique solution; quadratic case by sums over indicator vectors. |
| C203 | `Rk.fill`, `lastBytes`, `hash`, `Rk.randomseed` over the model of the twister. | induction by four bytes against the stream of the published generator; the device's words as a set state; C101. |
| C204 | `polar`, `factor`, `Rg.gauss`, `Rg.seed`, `Rg.setState`. | refinement to the first point in the disc; 2^-104 as the least radius squared; polar coordinates and the change of variables for the distribution. |
| C205 | `sig2prob`, `prob2sig`, `prob2dens` of hpd.py and hpdgrid.py in two dimensions, over the reals. | Polar coordinates for the Gaussian integral over the disc; inverse by exp and log; a witness where the density level is not the density drop of the disc. |
| C206 | `check(percent)` of realparam.py on the states of the parameter model. | From the invariant of reachable states; the equivalence with the unbounded transform by monotonicity of exp. |
| C207 | `phaseCurve` of kepler_vec.py with the solver of fkeplermodule-Tp.c; lines as the numbers written, rounded to four decimals. | Periodicity of the solver up to the two ends of a turn; accuracy and convergence from the lemmas of C109 with another starting point; sums of squares. |
| C208 | `y_x`, `x_y` and the integrands of exp_map.py and pl_map.py, with the module variables as arguments. | Change of variables in the integral; witnesses for arguments that are not passed on. |
| C209 | `xcomb`, `xsubsets`, `xperm` as lists of what they yield; `flip_signs` as passes over a list changed in place. | Induction on n and on the list; the passes run through an explicit list of sign choices. |
| C210 | The two constructors of `RuleMaker` and `cubature`. | Points characterised by absolute values up to order; injective symmetries permute them; sums over n-gons by roots of unity. |
| C211 | `rep_3`, `rep_4`, the group likelihoods and the reading loop of `rep4.f`; what memory held is an argument. | The splits of a shape are listed from the specification; each group factor is C129; products of accurate factors. |
| C212 | `plot_bivar`, `normal_plevels`, `format_coord` and `ScalarGrid.plot` as lists of drawing commands; SciPy's two chi-squared functions by their definitions; NaNs are not modelled. | Case analysis of the drawing; the region inside a contour is the image of a disc under a linear map, and C205 gives its probability. |
| C213 | expt/pie/Parameters.py: dictionary from names to parameters, log of what dependents are told; exceptions as values. | per-call case analysis, induction over steps and histories; witnesses for the defects. |
| C214 | expt/pie/predictorParams.py: handler's copies, owner's values, broadcasts in order. | invariant over histories; stale copies shown for every owner that raises. |
| C215 | MC/SamplerMem.lean: allocation, release and use of every block of the compiled sampler (five-table tables, the struct of the sampler, cumulative weights, indices, ratios, ratio tables) as a heap of live block numbers with faults as values; the Python class above it with its flags. | SamplerMemLemmas: an invariant (live = owned by the object ∪ leaked, owned blocks distinct) kept by every method; SamplerMemProps: no block used or freed after release for any sequence of methods, safe histories of a population, nothing leaked without accelerated subsets; witnesses of unbounded leaks, null reads, double release. |
| C216 | Count/Wrap.lean: conversion of arguments to C integers, lengths of results and checks of the wrappers, and the Fortran loops with every access checked against the bounds of its array; a call gives a result, an exception or a fault. | Count/WrapProps.lean: refinement of the checked loops to the models of C59 and C62 by induction on the loops; the vector routines as maps of the scalar ones; witnesses for the count of minus one, large and broken counts, and dropped error flags. |
| C217 | `ParamValues` as a Python object: names, docs, values and the method `store` in one instance dictionary; `store`, `__str__`, attribute reads. | Invariant over histories of `store` (induction from the right) against the list of first entries; three general theorems for the reserved names. |
| C218 | `rk_devfill`, `rk_altfill`, `rk_randomseed` on byte lists; a device is missing or delivers some number of bytes. | Case analysis on the device; the seed loop overwrites every word (induction), so a partial read leaves no trace. |
| C219 | `prepwts` on the memory of the index array, as `int`s, with `w` of them per element; the exchange loop. | The exchange loop reverses the first n integers (induction); permutation and order for w = 1; for w = 2 the heavier half is absent, for all orders. |
| C220 | The element offsets that the three loops of `vba_covar` read or write, in the copy of an nmod × ncol array. | Every offset is i·nmod+j with i, j < nmod and every such cell occurs; bounds for all shapes with ncol ≥ nmod; out of bounds for all others. |
| C221 | `qgt1` step by step over lists of reals, with the running maximum. | Invariant of the loop against the linear-scale quadrature of C34; failure for every single peak by computation with symbolic values. |
| C222 | `get5tbls` and `Dran` with base B (64 in the code), lists for tables, reads outside as `none`; the xorshift step for words of w bits; `PoissP` below 21.4. | Count lemma for one table by induction, the five regions by `Nat.count_add`, digits of a number in base B; counterexamples for word size, rounding, entry 2^30, `short`. |
| C223 | `BinomP` loop by loop over an ordered field with fuel. | Loop invariant p^j·g(i) with g in closed form, g below 1 at j = m by monotone ratios; induction for the other loops; non-termination when the mode is 0. |
| C224 | `HyperGeometricP` loop by loop over an ordered field with fuel; cells written beside the size allocated. | The product so far is a quotient of three binomial coefficients whatever the order of the steps; ratios of successive probabilities; non-termination for s = 0, write outside at an extreme population. |
| C225 | `PoissP` over ℝ, both branches, with the static offset as state. | Products in closed form; termination since λ^k/k! tends to 0; exp(21.4) < 2^31 by bounds on e; shifted values after a call with mean 100. |
| C226 | `chisq` over ℝ, both loops, with `Phi` as a parameter. | The terms of both loops are densities with more degrees of freedom; derivative telescopes by induction from n to n+2; limits at 0; computation for n = 0. |
| C227 | `Phi` after any number of rounds of its loop, over ℝ. | Closed form of the term by double factorials; derivative of the value; mean value inequality for the error; limit by λ^k/k!. |
| C228 | The pooling loops of `Dtest`, the clamping of values, and the indices read. | Specification of each loop by induction on its range; sums over consecutive intervals; counts by induction on the draws; witnesses for the two failures. |
| C229 | The expansion loop of each vertex with a fuel, the loop over the vertices, the second differences. | Bilinearity of the quadratic form; homothety of the simplex; the vertex at the centre is a fixed point of the expansion, by induction on the fuel. |
| C230 | The sampled array, the index ranges of MATLAB, the two rows of the table, index errors as `none`. | The index range as an explicit list; the row by induction on the column, the table by induction on the stages; refinement to the extrapolation of C155, whence exactness; witness by a sine that vanishes on the grid. |
| C231 | The mirrored columns, the inverse transform, weights and nodes of `fclencurt.m`. | Inversion of the transform of a symmetric array by orthogonality of cosines; folding of the sum over a period; exactness on cosines implies exactness on polynomials (lemma of C139). |
| C232 | The two branches of `fcgltran.m`. | The same inversion and folding; the difference of the round trip from the data is computed. |
| C233 | `doinfo.f`: trial step grown until the log posterior falls, first guess by a parabola, secant steps, one parameter after the other (`Verif/Deriv/InfoScale.lean`). | Whatever is accepted meets the tolerance, by induction over the steps and over the parameters; the first guess is exact on a parabola; a flat direction never leaves the first loop, by induction over the fuel. |
| C234 | `doinfo.f`: log determinant of the covariance, Ockham factor, flag for positive eigenvalues and mode rows of the report (`Verif/Deriv/Ockham.lean`); decomposition and eigenvalues are arguments. | Induction over the eigenvalues against the product of Gaussian integrals of Mathlib. |
| C235 | `doinfo.f`: mantissa and exponent of the determinant in `choldet`, with fuel for the two rescaling loops (`Verif/Deriv/LogDet.lean`); the diagonal elements are an argument. | Both loops end by the growth of powers of 16 and keep the logarithm; induction over the rows. |

## Coverage by file

Lines of code (without comments, documentation strings, imports and blank lines) that a definition of the model cites, by file. Lines that are not cited are mostly declarations, class headers, methods that
only print or plot, argument parsing in C, and test code at the end of modules. `setup.py` and `__init__.py` files are left out.

| file under `package/inference` | lines cited | remark |
|---|---|---|
| `count/_cbmlike-f2pywrappers.f` | 0 of 35 | generated wrapper, not modelled |
| `count/_cbmlike.f` | 290 of 306 |  |
| `count/_cbmlikemodule.c` | 412 of 982 | generated wrapper, not modelled |
| `count/onoff.py` | 43 of 56 |  |
| `deriv/_obsinfo.f` | 131 of 141 |  |
| `deriv/obsinfo.py` | 12 of 14 |  |
| `gauss/vbamodule.c` | 167 of 227 |  |
| `gauss/vecba.py` | 103 of 107 |  |
| `grid/_gridquad.f` | 70 of 70 |  |
| `grid/grid1d.py` | 627 of 653 |  |
| `grid/hpd.py` | 130 of 143 |  |
| `grid/hpdgrid.py` | 135 of 160 |  |
| `integrate/_cub2d_auto.py` | 355 of 422 |  |
| `integrate/adapt.py` | 14 of 15 |  |
| `integrate/adapt_py.f` | 350 of 350 |  |
| `integrate/adapt_vec.py` | 47 of 54 |  |
| `integrate/cub2d.py` | 66 of 70 |  |
| `integrate/d07hre.f` | 71 of 78 | DCUHRE |
| `integrate/d09hre.f` | 128 of 135 |  |
| `integrate/d113re.f` | 94 of 103 |  |
| `integrate/d132re.f` | 86 of 100 |  |
| `integrate/dadhre.f` | 164 of 179 |  |
| `integrate/dchhre.f` | 81 of 89 |  |
| `integrate/dcuhre_py.f` | 39 of 52 |  |
| `integrate/dfshre.f` | 38 of 46 |  |
| `integrate/dinhre.f` | 22 of 35 |  |
| `integrate/drlhre.f` | 74 of 86 |  |
| `integrate/dtrhre.f` | 67 of 81 |  |
| `mc/_ppssampler.c` | 369 of 521 |  |
| `mc/compact5table.c` | 154 of 159 |  |
| `mc/population.py` | 148 of 165 |  |
| `mc/pwlinear.py` | 99 of 125 |  |
| `mc/randomkit.c` | 169 of 222 | the generator is an arbitrary stream of words |
| `mc/sampford.c` | 109 of 124 |  |
| `pie/autoname.py` | 5 of 11 |  |
| `pie/bayes.py` | 41 of 46 |  |
| `pie/chisqr.py` | 5 of 9 |  |
| `pie/containers.py` | 68 of 98 |  |
| `pie/gaussian.py` | 116 of 127 |  |
| `pie/inference_base.py` | 278 of 311 |  |
| `pie/logger.py` | 0 of 11 | logging, not modelled |
| `pie/maxlike.py` | 5 of 9 |  |
| `pie/param.py` | 67 of 78 |  |
| `pie/predictor.py` | 14 of 38 |  |
| `pie/realparam.py` | 170 of 200 |  |
| `pie/signalmodel.py` | 8 of 17 |  |
| `utils/ioutils.py` | 131 of 177 |  |
| `utils/nrmin.py` | 185 of 212 |  |
| `utils/numutils.py` | 136 of 157 |  |
| `utils/pl.py` | 0 of 7 | plotting, not modelled |
| `utils/plot_bivar.py` | 57 of 68 | plotting, not modelled |
| `utils/rng.py` | 30 of 32 |  |

## Findings

Properties that the code does not have, each with a theorem that proves the negation on a concrete case (the text is that of the theorem's comment):

* `C07_violated`: **C07 fails.** A reachable state, properly set up and one step into its grid: `do_grid()` returns normally but leaves the cell visited before the call NaN, while the same grid from its start has that cell filled.
* `C10_violated`: **C10 is false of the code.** A range may be declared around anything: after `x.range(5, 6)` on a parameter whose value is 1 the value lies outside; so it does after `x.vary(delta=1, range=(5, 6))`.
* `C10_violated_by_zero_steps`: It is also violated by stepping with `n = 0` inside a declared range: the steps never reach an end.
* `C11_violated`: **C11 is false of the code.** Parameter 2 is fixed at 3 with no range. `vary(start=9, delta=1, range=(0,5))` raises `ParamRangeError`, but the parameter is now varying, with that range and increment; and `vary(start=1, range=(4,5))` without an increment raises `ValueError` but leaves the range `(4,5)`, outside which the value lies.
* `C12_violated`: **C12 is false of the code.** A parameter that has stepped to the end of `linstep(0, 1, 3)` and is then given `linstep(5, 6, 1)`, which raises `ZeroDivisionError`, is still stepping at value 1, but its number of steps is now 1 while its index is 2; the next step, which should raise `ParamRangeError`, now succeeds and takes it to 3/2, beyond both old and new ends.
* `C18_violated`: **C18 violated.** Defining a subclass `S(B)` with a parameter `b` adds `b` to the parameter names of the base class `B`; and since `b` is not in the source of `B`, inferences with `B` then silently have no parameters at all.
* `C19_violated`: **C19 violated.** Two instances are given the same list of locations with `sim`; `sim1` on instance 0 then changes a location of instance 1. (The list is made by the first call and has address 3.)
* `C20_violated`: **C20 violated.** A predictor declared with a single datum at location `3`. Instance 0 passes the (one-element) array of locations it sees to `sim`, which stores it without copying; `sim1` then overwrites the declared location.
* `C22_violated`: **C22 violated.** From two data: a successful `add_sim` of one datum leaves `ndata = 6` with three locations and two values; a `sim` with two sequences of three raises and leaves three locations, two values and `ndata = 2`; with sequences of one item it even succeeds, and leaves one location, two values.
* `C26_violated`: **C26, violated** without the restriction to at least one point: refining `[3, 5]` of `[0, 10]` with `n = 0` raises, but the interval that contained the range has been removed: 7 is now in no interval, and looking it up never ends.
* `C27_violated`: **C27, violated** for logarithmic lists: `[1, e^10]` with 11 points has its second point at `e`; refining only `[e^8, e^9]` replaces everything below by *linear* steps, and the interval that begins at 1 then has its second point beyond `e`.
* `C30_violated`: **C30, violated.** A list made with its bounds in reverse order rejects *every* refinement, forward or reversed, though it was accepted by the constructor.
* `C30_violated_reversed`: **C30, violated.** On a list with its bounds in order a reversed range is always rejected.
* `C32_violated`: **C32, violated** (in exact arithmetic): with the values 0 and -1000 on `[0, 1]`, `logtrapzd` is not the logarithm of the integral.
* `C33_violated`: **C33, violated.** With a list of maxima that is empty, as every new one is, filling with a vector function never records anything.
* `C35_plateau`: Two neighbouring minima: the content at the minimum, 9/2, is less than the full integral, 11/2; a flat array loses everything.
* `C36_even_buffer_overrun`: With an even buffer size (`HPD1D` uses 10) every array starting below the level with more crossings than fit makes `xvalues` store beyond the end of its buffer.
* `C36_odd_buffer`: With an odd buffer size nothing is stored beyond its end and too many crossings are always noticed.
* `C36_violated`: **C36 is violated** for too many crossings: with the buffer of 10 that `HPD1D` uses, 11 crossings are reported as success although a value was stored beyond the end of the buffer; and a crossing exactly at a grid value is missed, so that an odd number is reported for an array with both ends below.
* `C37_violated`: **C37, second half, is violated**: exchanging the two axes of the grid changes the content.
* `C38_violated`: **C38 is violated** with neighbouring minima: for the density values 1, 1, 3 the fraction above a level below them all is 3/2, and for a flat density every fraction raises `ZeroDivisionError`.
* `C40_violated`: **C40 is violated** by empty sequences: `flatten(())` is not empty.
* `C41_violated`: **C41's last clause is violated**: the interval reached by the last expansion is evaluated but never tested, so the call raises although it has found a bracket (here with one try, for the identity function from (1, 2): the last call made is at -3/5).
* `C43_three_torn`: A limit of the scheme: three attempts that die while writing leave no complete version, whatever had been saved before.
* `C44_violated`: **C44 is violated.** Whatever the files and the state of the generator, `save_rng` raises, and the file it leaves under the name given is not a saved state.
* `C44_violated_history`: Three calls destroy every state saved earlier (say, by an older version of Python).
* `C44_violated_restore`: Nor does `restore_rng` ever set a state: it raises, also if there is no file yet.
* `C45_violated`: **C45 is violated** for an array called `file`: saving raises, and has moved the existing archive away from its name.
* `C45_violated_method`: An attribute called as a method is saved but cannot be read back.
* `C46_violated`: **C46 is violated.** A store opened by the full name of its file loads nothing: whatever the file holds, reading any attribute that has not been assigned raises, and so do saving and listing the contents.
* `C47_violated`: **C47 is violated** by default: with arrays asked for, reading at least one column always raises.
* `C53_equal_violated`: **C53 violated.** Without weights every call for less than the whole population raises NameError.
* `C53_violated`: **C53 violated.** With a generator state of more than three entries (NumPy's has five) every call for less than the whole population raises TypeError.
* `C55_violated`: **C55 violated.** `subset_pps(0)` reads ratios that were never computed when it is the first call; after `subset_pps(2)` it returns the empty sample.
* `C57_abscissas_violated`: **C57 is violated for given abscissas**: the density cannot be evaluated inside the support.
* `C57_violated`: **C57 is violated at the upper end**: whenever one of the last two values is above the cutoff, asking for the density at the upper end of the domain raises an IndexError, because the cell after the last one is used.
* `C62_violated`: **C62 is violated by the logarithm**: for `n = 0` in any state, and for any `n` up to the largest used so far, the result depends on what the memory of an array that is not saved holds.
* `C63_violated`: **C63 is violated at zero**: `pnsig(0)` returns the whole array instead of the probability of no signal counts, in every state of every object.
* `C68_violated`: **C68 is violated by the residuals**: with this model, after `marg_stats(1)` returned and `marg_stats(0)` raised (the basis function vanishes), `residuals(1)` returns a residual of one, although the model with the best amplitude passes through the sample: the residual is zero for a new object.
* `C71_violated`: C71 is false of the code. For the even polynomial `sextic`, whose observed information at zero is `ratio ^ 2`, about one half, `obsinfo` with the step one returns the information zero with the error zero, for every number of extrapolations from one on: its table has three zeros, and it stops there.
* `C72_violated`: C72 does not hold for every factor. With the factor 0 the largest number of points is less than the least number. With the factor 3 the length documented is not enough: the integrator stops because the work array is full when it has used a third of the points allowed.
* `C74_violated_default`: **C74.** Without the argument `nmom`, `logtrapzd_mom` of a refinable grid always raises.
* `C75_violated`: **C75, violated.** Once a grid has been refined, a first pass with another function changes neither its integrals nor its points.
* `C76_violated`: **C76 is violated** with neighbouring minima: density values 1, 1, 3 at 0, 1, 2 have the integral 3, the normalisation reported is log 2; for a flat density it is not finite.
* `C77_room_violated`: **C77, violated** for more than ten boundaries of a density with both ends below the level: the call raises and the lists of levels and of boundaries get out of step.
* `C77_violated`: **C77 is violated** with logarithmic steps: for a log density 0, 0 on the abscissas 1 and exp 2 the content above the level found for `t = 1` is strictly between 0 and 1, so the density (per unit log x) crosses the level, but there is no boundary, and the level `max + 1` reported is above the whole log density.
* `C78_violated`: **C78 is violated** in two dimensions: at distance 1 the relative density is exp(-1/2), but `sig2ratio(2, 1)` is exp(-1).
* `C79_violated`: **C79 is violated.** `contents` lists the values, not the names, of the attributes assigned since the store was opened.
* `C80_limit_violated`: **C80 violated.** A size that `max_subset` allows, at the limit of the largest weight, never gives a sample if it is three or more: whatever the words and the non-zero numbers of `rand()`, the method goes on drawing.
* `C83_violated`: **C83 fails without any counts**: at `s = 0` the derivative is not a number, although the likelihood has one.
* `C84_violated`: **C84 is violated**: a caller who writes into the array that `pnsig()` returned changes the probabilities that later calls return.
* `C85_violated`: **C85 is violated by arrays of integers**: the results are stored in an array of integers, so they are truncated: two results between 0 and 1 become zeros.
* `C86_violated`: **C86 is violated by three rules**, by their degrees: for standard normal variables, the rule `e2r2_11_28c` of degree 11 gives 0.24 for the expectation of `x^2 y^2`, which is 1; the rule `e2r2_9_19a` of degree 9 gives 16.5 for that of `x^6`, which is 15; the rule `e2r2_13_41` of degree 13 gives 937.5 for that of `y^10`, which is 945.
* `C87_violated`: C87 is false of the code. (1) A log likelihood that raises away from the mode leaves the point where it raised in the mode array of `obsinfo`. (2) So does `dllsteps` when it finds that the mode is not a maximum. (3) `dllsteps` overwrites the array of guesses with its result.
* `C88_violated`: C88 is false of the code where the documentation gives the tolerance as a percentage of the change: it is an absolute difference. For the log likelihood `-x ^ 4`, the change 1/10000 and the default tolerance, the scale returned changes the log likelihood by a ten thousandth of what was asked for. And for a log likelihood that is constant there is no result after any number of trials: the search never ends.
* `C89_violated`: C89 does not hold as documented. In one dimension, and in more than twenty, nothing is returned and nothing is raised. When the accuracy is not reached the exception asks for a larger `maxfac`, which is not used: the outcome is the same for every `maxfac` and `wrkfac`.
* `C91_violated`: C91 does not hold: for every number of functions, dimension, key and number of points, `adapt_vec` raises; when the arguments are valid it raises `TypeError`.
* `C92_reversed_violated`: C92. With the lower limit above the upper one on an axis the value is wrong: the code's generators, `f x = 1`, two dimensions. With half widths 1 and 1 the value of order 4 is 4, and with -1 and 1 it is not -4 (nor 4), and the half widths are changed to 1 and 1.
* `C93_errors_violated`: C93. The error bars that the constructor accepts make `haz_pts` raise, for two or more values.
* `C93_violated`: C93. Weights 1/4 and 3/4 for the values 1 and 2: the hazard at 2 is 1/4, but the weight at and above 2 is 3/4. With weights that do not have the sum one the curve goes up.
* `C95_violated`: **C95's claim that a level is found is violated**: for every density that is not constant but varies by less than the first guess (whose log ratio is that of a normal distribution), the search moves away from the solution and `critlevel` raises `RuntimeError`. The object is unchanged.
* `C95_violated_level_exists`: The densities of `C95_violated` include some for which there is a level with exactly the probability asked for: the density 1, 3/2 with `snsig = 1`, whatever the probability of one standard deviation.
* `C97_violated`: **C97 is violated when the samples change**: the sum of squares of the data is computed once, and results are kept by the parameters alone. With the object `flat` and the sample one: when others set the sample to two before the first call, `marg_stats(1)` returns the sum of squared residuals minus three. When they do so after `marg_stats(1)`, another `marg_stats(1)` returns the sufficient statistic one, of the old sample. An object made after the change returns zero and four.
* `C98_violated`: C98 is false of the code. (1) An inference with one parameter `x` that varies from 0 in (-10, 10) with scale 1, and log posterior `-x² / 2`: after `logp()`, `obs_info()` returns the right matrix and leaves `x = -√2`; called once more it raises `ValueError` (the mode is not at the maximum). (2) The same inference evaluated at 1 and then moved to the mode 0: `obs_info` takes the last value computed for the maximum and returns 3/4 instead of 1.
* `C100_violated_negative`: The claim of C100 fails for a negative `hi`: `local_irand(-1)` raises nothing, and any `long` at all can come out.
* `C100_violated_position`: The claim of C100 (and of C99) fails for a position beyond the array: `set_rng_state` accepts it, and from then on no result depends on the key: everything is read from memory behind the array.
* `C100_violated_words`: The claim of C100 fails for words over 32 bits: `set_rng_state` accepts them, and `local_rand` gives a number above 1.
* `C101_violated`: The claim of C101 fails before any state was set: whatever is called, every result is zero.
* `C102_violated_minpts`: C102, the part that fails. With 196 for `MINPTS` and `MAXPTS` there are 195 evaluations, and `IFAIL` is 1 although the error, 10, is far below the tolerance.
* `C102_violated_python_restart`: C102, the part that fails. A run ends with `IFAIL` 1, since its error 10 is above the tolerance 8; it is restarted from Python, and ends with `IFAIL` 0, though its error 9 is above the tolerance 6 (`EPSREL` is one and `RESULT` is 6; the running total of the errors began at zero, so that it was -1).
* `C102_violated_reversed_restart`: C102, the part that fails. The first limits are reversed, so that the sign is -1. A run ends with `IFAIL` 1; it is restarted with all the values it left, and ends with `IFAIL` 0, though its error 9 is above the tolerance 6: `RESULT` was passed on with its sign, while the values of the regions that are added to it are without it.
* `C108_violated_refused`: **C108 fails for a call that is refused**: the arrays it was given replace the old ones all the same, and a later call that returns normally can leave the predictor with locations, values and sigmas of different numbers.
* `C108_violated_rows`: **C108 fails for a list of triples**: construction always raises an exception, and a predictor that holds data (and was never given a table) loses them.
* `C108_violated_stale`: … and a predictor that was given a table before takes the table's columns instead of the rows, and returns normally.
* `C108_violated_table`: **C108 fails for a table** (the second documented form): a predictor cannot be constructed from it, and one that holds data ignores it and returns normally.
* `C109_violated_array`: **C109 fails for an array of times**: `v_rad` raises ValueError for every array that does not have two elements …
* `C109_violated_converges`: **C109 fails for nearly parabolic orbits**: there the solver can give up, and the scalar function then returns -99 as if it were the anomaly, the array functions (-1, -1).
* `C109_violated_globals`: … and where the module has such globals, they replace the parameters of every orbit: two orbits that differ only in these have the same velocities.
* `C109_violated_orbit`: **C109 fails for `Orbit`** in every program that imports the module: every call of every method raises an exception, whatever was called before.
* `C109_violated_two`: … and for two it mixes the two times: the first "velocity" has the cosine of the first and the cosine of the second true anomaly.
* `C109_violated_velocity`: **C109 fails for the velocity**: a circular orbit a quarter of a period after passing the reference point has the velocity `v0 - K` for `long = π/2`; `v_rad` returns `v0 + K`.
* `C110_violated_check`: **C110 fails for a check in `on_param_change`** (the documented place for one): if it refuses the new values by raising an exception, the assignment raises it, but the parameter has the refused value, and its status is not changed.
* `C110_violated_default`: … and a parameter whose default is refused at its first use keeps the refused default without a status: reading it again returns the value normally, and fixing it at that value raises ParamError.
* `C110_violated_del`: **C110 fails for removing a listener**: `del_listener` always raises AttributeError, and the object goes on listening.
* `C110_violated_documented`: **C110 fails for a listener with the documented methods** (`on_param_change`, `on_param_use`): every later assignment raises AttributeError, because other methods are called, and leaves the new value with the old status.
* `C110_violated_stepping`: **C110 is violated** when a parameter begins to step: the inference, told of the new status, sets the value once more before the other listeners are told of the status. They hear of two new values and then of the status, although the status changed between the values.
* `C111_violated_first`: **C111, violated** (first bin). Events before time zero: when the phase is less than a bin width below a whole number the event belongs to the last bin, but is counted in the first.
* `C111_violated_memory`: **C111, violated** (memory). Events before time zero: whenever the phase is a bin width or more below a whole number, the counts are written outside of their array.
* `C111_violated_range`: **C111, violated** (range). The phases are documented to lie in `[0, 1)`; they do not.
* `C113_violated_bins`: **C113, violated** (bins). The log likelihood for frequency, phase and bins should be `occam` plus the log of the inverse multiplicity, so that with one bin it is zero: the model is that of a constant rate. It adds `N · nb` in place of `N · log nb`, and for one bin is at least `N` minus the error of the log factorials.
* `C114_violated_bins`: **C114, violated** (no bins). Without bins every query should raise ValueError; it raises AttributeError. `set_qpts` raises it too, after it has changed `qpts`.
* `C114_violated_const`: **C114, violated** (constant model). The likelihood of the constant model is never returned: the call raises TypeError.
* `C114_violated_frequency`: **C114, violated** (no frequency). A frequency is required in a call or a previous one. If only zero derivatives are given to a new object, the missing frequency is not noticed and the answer is that for all events at phase zero.
* `C114_violated_point`: **C114, violated** (one point). A quadrature with one point is accepted; the quadrature then reads a second one, which is outside of its array.
* `C114_violated_rates`: **C114, violated** (rates). `rate_est` never returns rates, for a number of phases or for a sequence of them.
* `C115_violated_one`: **C115, violated** (one bin). With one bin the rate is constant: its estimate must be one, with uncertainty zero. For an event anywhere but at the start of the period the estimate is less than one (for an event in the middle of the period, two thirds), and so is the "uncertainty".
* `C116_violated_one`: **C116, violated** (one frequency). A grid of a single frequency must be that frequency and its power; there is no result, because of a division of zero or another number by zero.
* `C118_violated_equal`: **C118 fails** for frequencies that are not distinct: the singular metric is not reported with the ValueError of `metricAnalysis`; it contains quotients 0/0.
* `C118_violated_zero`: **C118 fails** for a frequency of zero (a constant offset), for the same reason.
* `C119_violated_dt`: **C119 fails** for a sampling interval that is an integer object: every frequency of the grid is divided down to zero.
* `C119_violated_ints`: **C119 fails** for a list of integers: the frequency is moved to the grid (0.75 here), stored as an integer (0), and the metric of that frequency has quotients 0/0; the same list of floating point numbers gives the fit.
* `C119_violated_negative`: **C119 fails** for a negative frequency: the transform is indexed from its end, so that the value returned for the frequency -1 is the one at another frequency.
* `C119_violated_stale`: **C119 fails** after an analysis that raises: `amplitudes` returns what an earlier one found.
* `C119_violated_top`: **C119 fails** for interpolation near the Nyquist frequency and a transform of odd size: there is no bracket and a ValueError is raised, although the frequency lies in the range that `f_range` reports; with exact projections there is a fit.
* `C120_violated_sigmas`: **C120 fails**: two samples of `cos(π k / 3) + sin(π k / 3)` have the fitted amplitudes 1 and 1; their covariance is `-√3/3`, and the uncertainty of the amplitude that `sigmas()` returns is `√(4/3)`, not the propagated `√(4/3 - √3/3)`.
* `C120_violated_variance`: **C120 fails**: whenever there are sinusoids (and enough samples, and the fit is not perfect), the variance estimate is smaller than the posterior mean of the variance.
* `C122_violated_orthog`: **C122, where it fails.** For the points (0,0), (1,1), (2,-1), whose orthogonal line has slope -1, the standard error of its intercept is a fifth of what it should be.
* `C123_violated_sign`: **C123, where it fails.** Four points whose covariance is 1, with errors of covariance 2: the covariance left is -1, and the orthogonal line gets slope 2 where -1/2 is right.
* `C124_violated_correlated`: **C124, where it fails (3).** Four points with errors of unit variance and covariance 1/2: the standard error of the slope of `xony` is half of what it should be.
* `C124_violated_ifab`: **C124, where it fails (2).** For the same points `serr_IFAB` of the orthogonal line is twice its `serr`, though there are no measurement errors.
* `C124_violated_orthog`: **C124, where it fails (1).** For three points with an orthogonal line of negative slope, and no measurement errors, the standard error of the intercept is a fifth of what it should be.
* `C125_violated_line`: **C125, where it fails (1).** For points on a line, and constant measurement errors, no number is finite: slope, intercept, standard errors and scatter are all `nan`.
* `C125_violated_negative`: **C125, where it fails (3).** Three points with one large measurement error: the estimated variances of the other two are negative, and the slope returned, 11/2, is greater than that of the best line for any positive weights, which is at most 1.
* `C125_violated_scatter`: **C125, where it fails (2).** When the residuals are smaller than the measurement errors explain, `scat` is `nan`, not zero.
* `C125_violated_yerr`: **C125, where it fails (4).** The result has no attribute `yerr`, which is documented.
* `C126_violated_uncorrelated`: **C126, where it fails.** Data with zero covariance have means, standard deviations and a correlation coefficient (zero), but `bistats` raises `ValueError`.
* `C127_violated_both`: An uncertainty and a concentration may both be given, although only one is documented to be allowed; the uncertainty is ignored.
* `C127_violated_unit`: A vector of length two is accepted as a direction, and the cosine of the angle it makes with itself is then four.
* `C128_violated_drxn`: The likelihood of a direction passed as an object, or as a vector, is never returned: both are a `ValueError`, whatever else is given.
* `C128_violated_small`: For a concentration of 1/100 the density integrates to less than a tenth.
* `C129_violated_opposite`: Two measurements in opposite directions, with concentration ten: the chance of one common source is a millionth of that of two, yet the log Bayes factor reported favours the common source infinitely.
* `C130_violated_cancel`: Two opposite measurements of equal concentration: the fit statistic exists, but the fit is a `TypeError`.
* `C131_violated_quarter`: A concentration of `log(683/317)` has 68.3% within a quarter turn; yet for a quarter turn the routine runs through its 25 steps and pauses.
* `C132_violated_llims`: **C132, violated.** Lower limits given as such are never analysed: the constructor raises `NameError`.
* `C132_violated_tied`: **C132, violated.** Where two limits tie above all detections, or a limit ties with the largest detection, a detection is lost.
* `C132_violated_upper`: **C132, violated.** Upper limits given as such are analysed as lower limits: for detections 1 and 3 and the upper limit 2 the estimated probability of values above 1 should be 1/3 and is 2/3.
* `C132_violated_zero`: **C132, violated.** A single detection of zero is lost, and construction fails.
* `C133_violated_bottom`: **C133, violated.** Where the smallest datum is an upper limit, it is reported as a detection, the largest detection is lost, and the limit is listed with the wrong sign: detections 2 and 3 with the upper limit 1.
* `C133_violated_indicator`: **C133, violated.** The indicators are documented the other way round, `1` for an upper limit and `-1` for a lower limit; data entered so are analysed with the limits pointing the wrong way.
* `C135_violated_weights`: **C135, violated.** For four detections and no limits the values have weights 1/4, 1/4, 1/4 and 0.
* `C136_violated_diff`: **C136, violated.** Four detections, one in each of four bins, are reported as 3, 1, 1 and 0.
* `C136_violated_overrun`: **C136, violated.** The element after the array of bins is set to zero, whatever it held.
* `C137_violated_origin`: **C137, violated.** For values below zero the first quartile can exceed every value: the data are -10 twice, -9, -8 and -7, and the first quartile is -25/4.
* `C137_violated_same`: **C137, violated.** Where the estimate falls past two quartiles at one value, the later ones are returned as zero: for 1, eight times 2, 3 and 4, the median is reported as 0 and so is the third quartile.
* `C138_violated_end`: **C138, violated.** Where the largest datum is a limit, the last point is put at probability zero although the estimate stays above it: detections 1 and 2 with the lower limit 3.
* `C139_violated_low`: The trapezoidal rule, order 1, and the rule of order 0 cannot be had: the constructor raises `IndexError`.
* `C142_violated_near`: The midpoint rule on [1, e] and the index 1.1: constants are integrated exactly by the rule, but the power law is not by the rule made to absorb it.
* `C144_violated_alias`: A composite rule of one Fejer rule on [0, 1], whose owner then sets its range to [0, 2]: the integral of x is neither that over the one nor that over the other.
* `C144_violated_factor`: Once a factor is set, every quadrature raises `TypeError`.
* `C144_violated_tuples`: Tuples are accepted although there is a gap between them: the result is not the integral over any interval that contains both.
* `C145_violated_state`: `get_transition` does not look at the state it is given: a machine in state 0 that knows what to do with x in state 1 says that it does not.
* `C146_violated_attached`: An operator or an equals sign that follows a number directly is a mistake to the calculator, which then has a string on its stack: what is printed is a complaint, and "23" instead of 5.
* `C146_violated_negative`: A negative number raises `IndexError`.
* `C147_violated_missing`: An input without a transition raises `UnboundLocalError`, a `NameError`, not the error the module defines for it.
* `C148_violated_inverse`: The object made from an inverse covariance does not depend on it: whatever the extension module makes of the `None` it is handed, the decomposition is not that of the inverse of the matrix given.
* `C150_violated_overwritten`: An array in Fortran order is replaced by its inverse: the caller's array and the attribute `hess` hold 1/2 after they held 2.
* `C151_violated_sample_q`: `sample_q` of the t distribution never returns a sample: it reads a variable that does not exist.
* `C152_violated_inverse`: An inverse covariance is never looked at: what the constructor does with it depends only on what the compiled routine makes of `None`.
* `C152_violated_norm`: The density is not that of the mixture, nor a density: for one node, one dimension, unit covariance and unit scale, it is 2 pi times too large everywhere.
* `C154_violated`: A function that vanishes at the 17 points of the first five rules gets the integral 0 without any message, however large its integral is: here 1/2 times the scale.
* `C155_violated`: The error is not below `eps`, nor below any bound: the first extrapolation is accepted if the function vanishes at the two limits and in the middle.
* `C156_violated_columns`: With one column or none the value is half the sum of the values at the limits, without the factor h: neither the integral nor the trapezoid rule, even for a constant.
* `C158_violated_age`: C158 fails: without matter the age is never a number, whatever the quadrature: the integrand is 0/0 at the start. For the empty universe the age is exactly one Hubble time.
* `C158_violated_volume`: C158 fails: the volume is inversely proportional to h, not to its cube: for h = 1/2 it is a quarter of what it should be relative to h = 1, whatever the rest.
* `C159_violated_curved`: C159 fails: curvature is ignored. In the empty universe, which is open, a candle at redshift 1 is at 3/2 Hubble distances; asked for a flux with that distance, and the cosmology being the right one, `flux2z` returns no value below 1.05.
* `C159_violated_stale`: C159 fails: the cosmology used is that of the last call on any object. With exact quadrature, a candle in the de Sitter universe of flux 1/4 is at redshift 1, and that is what `flux2z` returns after a call with this cosmology; but after a call with an object for the empty universe it returns no value below 1.2, however long it runs.
* `C160_violated_tanh`: C160 fails for `tanh` and `tanhp1`: a survey that detects with amplitude one is accepted, and its efficiency at every magnitude brighter than the cutoff is above one.
* `C161_violated_base`: C161 fails for models 3 and 4: their exponent is not converted to base ten, so a magnitude adds α / ln 10 decades where models 1 and 6 add α.
* `C162_violated`: C162 fails: the derivative by the exponent has the wrong sign of one term, at every magnitude and for every exponent; the derivative is `(m - m₀ + 1/α) σ`, the result is smaller by `2 σ/α`.
* `C163_violated_nan`: C163 fails at coinciding break points: with a cutoff whose smooth end reaches the upper limit of the quadrature, an accepted `tanh_cut` survey has an expected number that is not a number, whatever the quadrature.
* `C163_violated_tail`: C163 fails for `erfc2`: objects fainter than six widths beyond the cutoff are detected with positive probability but not expected, so the expected number is too small.
* `C165_violated`: C165 fails: the piecewise exponential cumulative starts each piece from the density at its end instead of its beginning, so with a rising density it is too large at every point after the first.
* `C165_violated_flat`: C165 fails for a constant density, model 2 with a perfect survey: the slope is zero, the increment is divided by it, and the cumulative is not a number.
* `C168_violated_tail`: C168 fails for a concentration of 250 or more at abscissas very close to -1, where the abscissa is not a direction cosine and the root of 1 - mu² is not a number.
* `C169_violated`: C169 fails as a Newton iteration, which the source says it is: below 250 the divisor is not the derivative of the probability (times the denominator); one term has the wrong sign, for every angle and every kappa.
* `C170_violated_flux`: C170 fails for one flux point: the result of `Flb_quad` does not depend on the flux of the burst but on what the variable happens to hold.
* `C170_violated_single`: C170 fails for one flux point: the rate is not divided by the solid angle, so the result is 4π times what two or more points give.
* `C171_violated_constant`: C171 fails for a chain that does not move: with its mean subtracted it is zero throughout, and the first coefficient is zero divided by zero.
* `C172_violated_bic`: C172 fails with respect to the description of `odiag`, which says that the order is determined by Schwarz's criterion: for the series 3, 0, 1 it is 1, while Schwarz's criterion is lower for order 2.
* `C173_violated_constant`: C173 fails for a chain that does not move, surely stationary: the variance is zero divided by zero and no result is defined.
* `C174_violated_short`: C174 fails for series shorter than 200: the description says that zero is returned, but from 100 on a variance is computed.
* `C175_violated_onedim`: C175 fails in one dimension: the same terms are used, and the second moment is the mean of an array that is never assigned, whatever the samples.
* `C176_violated_order`: C176 fails for the order written: it is that of the last autoregressive fit, whatever was requested.
* `C176_violated_room`: C176 fails with one run in equilibrium of 999 samples and a correlation length below two steps: all 999 samples are put in an array of 500.
* `C176_violated_runs`: C176 fails when a run that is not in equilibrium comes first: its samples are used in the place of those of the run that is.
* `C176_violated_sigma`: C176 fails for the uncertainty with more than one run: it is larger than that of the mean of independent runs.
* `C176_violated_zero`: C176 fails for a short run with a correlation length below one step: the spacing is zero and the remainder is undefined.
* `C177_violated_bound`: C177 fails for `corr` and `acorr`: the series 1, 0, -1 has an "autocorrelation" of -3/2 at lag 2.
* `C177_violated_wrap`: C177 fails for `fcorr` with a full transform: for the series of 512 samples that starts with 1 and ends with -1 the end is correlated with the start, giving -1/2 at lag 1 where there is no correlation.
* `C178_violated_below`: C178 fails for a sample below the range by less than a bin: it is counted in the element before the first bin.
* `C178_violated_upper`: C178 fails for a sample at the upper limit: it is counted in an element after the last bin.
* `C179_violated_first`: C179 fails when nothing is to be deleted: with a correlation length below half a step and a series stationary from the start the time is taken from an element before the first.
* `C181_violated_away`: C181 fails for directions away from the centre, even for a sphere: from distance 2 in a shell from 1 to 3 the range of distances in the opposite direction is empty, and so is the rate of bursts, although the shell extends to distance 1.
* `C181_violated_oblate`: C181 fails for an oblate spheroid seen from its centre: with axes 1 : 1/2 and boundaries 1 and 2 the range returned towards the pole is 2 to 4, while the shell extends from 1/2 to 1.
* `C181_violated_offcentre`: C181 fails for an oblate spheroid seen from a point in it: with axes 1 : 1/2, no inner boundary, the outer one at 2 and the observer at 1, at right angles to the centre towards the pole, the range returned reaches beyond the boundary.
* `C181_violated_unset`: C181 fails for the second range: whether it is found depends on a variable that is not assigned. From distance 2 towards the centre of a shell from 1 to 3 it extends from 3 to 5; with a large value left in that variable it is missing.
* `C183_violated_norm`: C183 fails for slopes other than 1: the integral of the "probability density" is the largest energy, so all rates are wrong by that factor.
* `C183_violated_stuck`: C183 fails for the choice of a density model: after an unknown model number has got into the common block (here 3, set before) every later choice is refused, although it exists.
* `C185_violated_miss`: C185 fails for a line of sight that does not meet the distribution: from outside a sphere, in a direction that passes it, the least flux is a number divided by zero.
* `C187_violated_cutoff`: C187 fails when the upper cutoff of the spectrum has been redshifted into the range of the detector: for index 2, a spectrum from 1 to 4, a detector from 1 to 2 and redshift 2 it is 2/27 instead of 1/9.
* `C188_violated_one`: C188 fails for slope 1, which `set_lfun` accepts: the rate is zero divided by zero for every redshift at which bursts are seen.
* `C189_violated_slope`: C189 fails above the cutoff for indices other than 1: for the spectrum and detector of `C187_violated_cutoff` the logarithmic derivative used at redshift 2 is -1, while that of `F_spec` is -5/3.
* `C191_violated_low`: C191 fails for one point up to the threshold: the lower limit is not in the grid.
* `C191_violated_order`: C191 fails if the last limit is below the second: nothing is refused and the grid turns back, here 1/2, 1, 3, 2.
* `C192_violated_second`: C192 fails for the second component of a superposition below the threshold: the grid there is filled with zeros and the interpolation divides zero by zero.
* `C194_violated_tail`: C194 fails for other fluxes: for a grid that ends with fluxes 1 and 4 and the slope -5/2 of a homogeneous distribution 1/384 is added instead of 1/12.
* `C194_violated_total`: C194 fails for the total rate: nothing sets it to zero, so that with every evaluation the same contribution is added again.
* `C197_violated_range`: C197 fails for mixtures: a dipole moment, the mean of a cosine, can exceed 1. Here it is 1 at flux 1 and 0 at flux 2, and the total is 4/3.
* `C198_violated_end`: C198 fails for an interval at whose end alone the rate vanishes: `lksetup` uses the trapezoid rule, `wmodel` the logarithm of zero.
* `C199_violated_descending`: C199 fails for a descending axis, which the prior allows for: the logarithm of a negative number is taken.
* `C199_violated_overlap`: C199 fails for grids that overlap: the same grid given twice doubles the global likelihood.
* `C201_violated_exact`: C201 fails if the level is met exactly at a point: for a tent through the level at the points, no boundary is found.
* `C201_violated_zero`: C201 fails if a point of the grid was set to zero, even though it is far below the level.
* `C202_violated_inverse`: C202 fails for the inverse: the matrix returned is not the inverse of minus the matrix of second derivatives that the description promises.
* `C202_violated_offset`: C202 fails if the point is not exactly the mode: with one parameter and a slope g there, the result is in error by 2g/dp, however small the step.
* `C204_violated_restore`: C204 fails for states set with `set_rng_state`: a deviate kept from before is the next one given, whatever the new state.
* `C205_violated_dens`: C205 fails for `prob2dens` in two dimensions: it is less than the density at the boundary of the region, by the factor 1-p, for every content p > 0.
* `C206_violated_point`: C206 fails for a range that is a point, which `vary` accepts: `check` raises `ZeroDivisionError`.
* `C207_violated_one`: **C207 fails** for a curve of one point: `ZeroDivisionError`.
* `C207_violated_phase`: **C207 fails**: the phase 0.99999 is written as 1.
* `C208_violated_alpha`: C208 fails for the argument `alpha`: with `alpha = 1` the mapped form at the image of 0 is not the integrand over its exponential there, which is 1.
* `C208_violated_mid`: C208 fails for the argument `mid`, which changes nothing.
* `C208_violated_mid_roll`: ... though the integrand depends on it.
* `C209_violated_list`: **C209 fails** for `list(flip_signs(seq))`: it holds the same list again and again.
* `C211_violated_few`: **C211 is violated.** For one burst or two nothing is written, although the program is for up to four.
* `C211_violated_memory`: **C211 is violated.** The sums over pairs include the diagonal, to which nothing is ever assigned: for any three or four bursts (whose factors are accurate), any number whatever can be written as the odds for one pair, depending on what the memory held before the program began.
* `C211_violated_opposite`: **C211 is violated.** Two of three bursts in opposite directions, with concentration ten: a common source of these two is less likely than two sources by a factor of a million, but infinite odds are written for them.
* `C212_violated_coord`: **C212 is violated.** Because `int` rounds towards zero, a pointer up to one and a half steps to the left of the grid is shown the value of its first column.
* `C212_violated_cross`: **C212 is violated.** Whenever crosshairs are asked for, a `NameError` follows the contours.
* `C212_violated_gscale`: **C212 is violated.** `gscale` is never passed on: whatever is asked for, no image is drawn of a grid of results.
* `C212_violated_image`: **C212 is violated.** The edges of the image are the first and last values of the arguments, so that of the columns only one in the middle is drawn where the contours have it.
* `C212_violated_label`: **C212 is violated.** The label that may be given for a grid over one parameter is a `TypeError` for one over two.
* `C212_violated_order`: **C212 is violated.** The default levels are passed on in decreasing order, but Matplotlib's `contour` asks for increasing ones.
* `C212_violated_overlay`: **C212 is violated.** `overlay=False` draws into the last figure just as `overlay=True` does.
* `C213_violated_check`: **C213 is violated: the checks of varying parameters.** In no state can one ask whether a varying parameter is near the end of its range, nor for its value on the unbounded scale.
* `C213_violated_default`: **C213 is violated: default.** A parameter made with the default value zero has no value that can be read; any other default can be read.
* `C213_violated_range`: **C213 is violated: the range.** A varying parameter may start, and a stepping one may step, outside its range.
* `C213_violated_single`: **C213 is violated: a single step.** Stepping with one step fails with a `ZeroDivisionError`, but the parameter counts as stepping and its dependents are told so.
* `C213_violated_told`: **C213 is violated: values are not announced.** Setting the value of a parameter with dependents changes it, then fails with a `NameError` before any of them is told; steps and changes on the unbounded scale change it and tell nobody.
* `C213_violated_vary`: **C213 is violated: a refused request changes the parameter.** Asking a parameter without range to vary is refused, but its value is the new start value.
* `C214_violated_missing`: **C214, other attributes.** What the predictor was given that is not a parameter is read as given; names it does not have raise a `KeyError`, where `AttributeError` is what `getattr` with a default, copying and pickling rely on.
* `C214_violated_stale`: **C214 is violated.** If the owner raises an exception when told of a value, the parameter has that value, but the predictor goes on with the old one.
* `C215_violated_leak`: **C215 is violated: leak.** Accelerated subsets of alternating sizes leave more and more blocks behind: after `2 k` calls at least `2 k` of them are never freed, not even when the population is deleted.
* `C215_violated_order`: **C215 is violated: order of calls.** On a new sampler, subsets and ratios before the weights were prepared read through a null pointer, as do subsets before there are ratios; fewer weights for the ratios than were prepared are read beyond their end.
* `C215_violated_reference`: **C215 is violated: references.** Every successful preparation of weights or ratios loses a reference to an array: the counter of references never given back grows by one.
* `C215_violated_weights`: **C215 is violated: weights without a positive sum.** Making a sampler from them gives the same object back twice.
* `C215_violated_zero`: **C215 is violated: empty subsets.** Asking a new population for a subset of size zero, plain or accelerated, reads through a null pointer.
* `C216_violated_bounds`: **C216 is violated: bounds.** A count of minus one on source, for any intervals and any count off source, writes before an array of no elements.
* `C216_violated_flag`: **C216 is violated: error flags.** With an exact log gamma function, a signal of 1000 with no counts: the scalar routine sets the error flag and no value, the vector routine returns an element that was never set and raises nothing.
* `C216_violated_fraction`: **C216 is violated: fractions.** A count that is not a whole number is cut to one without a word.
* `C216_violated_large`: **C216 is violated: large counts.** Counts are taken modulo `2 ^ 32` without a word: with `2 ^ 32` more counts on source the result is the same, and so is not one longer than their number.
* `C217_violated_docs`: **C217, violated.** After any history without reserved names, storing a parameter called `docs` succeeds; then storing any new name raises `TypeError` but the name counts as stored, so that storing it again raises `ParamError` although it has no value; and `str` raises `TypeError`.
* `C217_violated_names`: **C217, violated.** After any history without reserved names, storing a parameter called `names` succeeds, and from then on every call of `store` and every call of `str` raises `TypeError`.
* `C217_violated_store`: **C217, violated.** After any history without reserved names, storing a parameter called `store` succeeds, and then every call of `store` raises `TypeError`: the value has taken the place of the method.
* `C218_violated_empty`: **C218, violated.** For no bytes at all `rk_altfill` reports that the device is unavailable, although it works: `fread` of 0 bytes returns 0.
* `C219_violated_largest`: **C219, violated.** Where pointers have 64 bits, whatever the weights: no item of the heavier half of the order, except perhaps item 0, is among those that the sampler keeps; in particular, with two items or more, the heaviest one is never sampled by `subset_pps5` unless it is item 0.
* `C219_violated_probabilities`: **C219, violated.** The weights 1, 2 and 3 where pointers have 64 bits: the weights used are 2, 1, 1 for the items 1, 0 and 2, so that a sample of one contains the heaviest item with probability 1/4 instead of 1/2.
* `C219_violated_returned`: **C219, violated.** Where pointers have 64 bits, for every even number of items: the first half of the indices returned to Python are 2^32 (`base`) times the numbers of the lighter items, so that any of them but 0 is far outside the population, and `subset_pps` raises `IndexError` when it draws one.
* `C219_violated_total`: **C219, violated.** Where pointers have 64 bits, the total weight is that of the lighter half and as many times the weight of item 0; for two items of which the second is the heavier it is twice the first weight.
* `C220_violated_bounds`: **C220, violated.** For every array with fewer columns than rows `covar` reads and overwrites memory outside of its array: the offset of the last element of the square of the rows is touched.
* `C220_violated_rows`: **C220, violated.** For every array with more columns than rows, and at least two rows, no error is raised, the second row is taken to begin inside the first one, and the last element of the array, in its last row, is not used at all.
* `C221_violated`: **C221, violated.** For every single peak, `b` on both sides of `t` with the level between them, the part of the rising side is multiplied by `exp(b-t)` before that of the falling side is added: `amaxp` is not updated when the level is crossed. The value is too small.
* `C221_violated_empty`: **C221, violated.** An array without elements, for which the Fortran routine gives 0, raises an exception.
* `C222_violated_one`: **C222, violated.** For a Poisson mean of 0 the only entry is 2^30, which has six digits: all tables are empty and every call reads outside of them.
* `C222_violated_round`: **C222, violated.** Rounding each probability by itself does not make the sum 2^30: for two trials of probability 1/3 the sum is one less, and the last integer that may be drawn is looked up outside of the tables.
* `C222_violated_values`: **C222, violated.** The tables are of `short int`: every value from 32768 to 65535 is returned as a negative number.
* `C222_violated_word`: **C222, violated.** With an `unsigned long` of 64 bits, for all arrays (of numbers below 2^30 whose sum is at most 2^30) the first call of the program reads memory outside of the tables.
* `C223_violated_small`: **C223, violated.** For every `n ≥ 1` and every probability with `(n+1)p < 1` the loop for the largest probability never ends: its first step multiplies by `p`, since the product is 1, and passes the one state at which it would stop.
* `C224_violated_write`: **C224, violated.** One draw from one good and 2147483647 bad items: 0 is far more probable than 1, yet `mode` is 1, the loop up stops at once, and two cells are written to an array of one.
* `C224_violated_zero`: **C224, violated.** For samples of no items, which the program accepts, `HyperGeometricP` never ends, whatever the population: the conversion to `long int` cuts towards zero, so that `mode` is 1, above the sample size.
* `C225_violated_offset`: **C225, violated.** `offset` is static and is not set for means below 21.4: after a call with mean 100, a call with any such mean stores the entries of 0, 1, … as those of `offset`, `offset`+1, …, with `offset` > 0.
* `C226_violated_zero`: **C226, violated.** For 0 degrees of freedom (a test with a single class, `ke = kb`) the value is that for 2 degrees of freedom, at every `z`, and not 1.
* `C228_violated_single`: **C228, violated.** If one value in the middle has nearly all of the expectation there is a single class, with no degrees of freedom, and the expectation below it is counted twice.
* `C228_violated_upper`: **C228, violated.** If all values but the least have together an expectation of at most 10, and the least has more, `ke` keeps its initial value 1000: both arrays, of `size` elements, are read up to index 1000, for every size up to 1000.
* `C229_violated_never_returns`: **C229** (violated): used as documented, with `p` a vertex of the simplex and `func` its value, the routine never returns, for any function, any simplex and any positive criterion: the vertex at `p` is expanded about itself for ever.
* `C229_violated_uneven`: **C229** (violated): with `p` outside the simplex and one vertex nearer in value than `simp`, only that vertex is moved, the steps are no longer along the axes, and the matrix returned for `-x²-y²` has `20/9` and `-2/3` where minus its second derivatives are 2 and 0.
* `C230_violated_accuracy`: **C230** (violated): no number of digits gives any accuracy for all functions: for every `decdigs` and every scale there is a smooth function for which 0 is returned, and whose integral is the scale.
* `C230_violated_equal`: **C230** (violated): for equal limits, where the integral is 0, nothing is returned: the range of points is empty.
* `C231_violated_two`: **C231** (violated): with two points the nodes are not the ends of the interval but a quarter of it inside.
* `C232_violated_highest`: **C232** (violated): the highest polynomial itself, `T_M` with the values 1, -1, 1, ... at the nodes, comes back halved, for every number of nodes.
* `C233_violated_flat`: **C233** (violated): if the log posterior does not depend on one of the parameters, no scales are ever found, whatever it does in the others.
* `C233_violated_loop`: **C233** (violated): with a flat first parameter the loop never ends.
* `C233_violated_offset`: **C233** (violated): a log posterior that rises by any amount at the first trial point, one percent above a positive mode and 0.01 above another, stops the calculation, although the mode may be a local maximum.
* `C234_violated_dropped`: **C234** (violated): an eigenvalue that is not positive, for which the volume is infinite, is left out, and the factor returned is finite: the volume for the others times `√(2π)`, as if the eigenvalue were 1.
* `C234_violated_stale`: **C234** (violated): after a successful decomposition the flag is what the caller had in it, so that it can be false although all eigenvalues are positive.
* `C234_violated_tmode`: **C234** (violated): the row of the report for the transformed mode holds the mode itself, so that it is wrong for every transformation that moves one of the parameters.

Other behaviour noticed while reading the code and visible in the models, without a property of its own:

* `realparam.py`: a failed `linstep` with one step leaves the new limits in place; `n <= 0` steps are accepted; limits of `None` raise after part of the state has changed; the increment of `vary` and the step of `linstep` share one attribute.
* `param.py`: `del_listener` reads an attribute that does not exist, so it always raises.
* `gaussian.py`: `sim1` and `add_sim` treat a location or a sigma of zero as absent; `set_data` keeps the caller's arrays; a single array of rows makes the constructor raise; `add_sim` counts new data twice and never extends the values.
* `inference_base.py`: when the source of a class cannot be read the list of parameter names is the class's own list, and a second inference then reports a duplicated name.
* `nrmin.py`: `MinBracket` never returns for a function that is constant along the direction.
* `grid1d.py`: iterating over a grid always raises; `nmax = 0` maxima raise `IndexError`.
* `hpd.py`: with neighbouring minima the total content is underestimated, so that probabilities exceed one.
* `vecba.py`: the extension module is replaced by `object()` in the pinned text, so that no method works as it stands; the model takes the extension to be imported. `covar` does not check the number of columns; a pivot that is not a number passes the test for positive pivots.
* `_cbmlike.f`: the table of logarithms of `lppois` is neither initialised nor saved; `vslmlike` ignores the error flag; the value is not set after an underflow.
* `adapt_py.f`: four generators are single-precision constants; the number of evaluations may exceed the limit by one rule; the flag for "no convergence" of the rule is ignored; a half width is changed in place for reversed limits.
* `_ppssampler.c`: indices of NumPy's sort (8 bytes) are read as C integers (4 bytes); the ratio draws use the C library's `rand()`, which is not part of the saved state.
* `population.py`: a list of values raises; a longer list of weights is cut without warning.
* `pwlinear.py`: with the limits in reverse order the density is zero everywhere while sampling works.
