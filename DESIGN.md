# Design of the Lean model of mskashi/kv

The library in `/repo/kv` is a set of C++ headers for verified numerics: interval
arithmetic with directed rounding, elementary functions, automatic differentiation,
affine arithmetic, power series arithmetic, verified equation solvers.  This file says
what is modelled, how each property of `properties.jsonl` is proved, and what is trusted.

## Layers of the model

* **Float layer** (`Verif/Float/*`).  `Fl F` is the type of floating-point data of a
  binary format `F` (precision, least exponent, greatest exponent): NaN, +inf, -inf, or a
  finite value, a rational number carrying a proof that the format can represent it.
  `binary64` is the concrete instance.  Rounding (up, down, nearest-even) is a computable
  function on rationals; IEEE operations are "exact rational result, then round".
* **Directed-rounding layer** (`rop<T>`).  A class `Rop T` with exactly the static members
  of C++ `rop<T>` and the comparisons of `T`, and a class of laws `RopSem T`.  Instances:
  hardware-rounded double, emulated (round-to-nearest only) double, dd (as far as proved).
* **Interval layer**.  `Interval T` = pair of `T`; all operations branch exactly like
  `interval.hpp`.  C++ exceptions are `Except.error`.
* **Algorithm layer**.  Elementary functions, autodif, affine, psa, vleq, Krawczyk, allsol,
  optimize, LP, decimal conversion, complex, geoseries, ODE step.

## Property table

| id | what is modelled | how proved |
|----|------------------|------------|
| C01 | `operator+,-` (all overloads), unary minus | containment over reals for every lawful `T` |
| C02 | `operator*` (all overloads) with its 9+ sign branches | as C01, extended-real quadrant lemmas |
| C03 | `operator/` (all overloads), exception as error value | as C02; error iff zero in the divisor |
| C04 | same, at `binary64` | endpoints = directed rounding of exact min/max, best possible among floats |
| C05 | `sqrt` | containment, error iff lower < 0, correct rounding |
| C06 | comparisons | iff with "for all pairs of members" |
| C07 | `in, zero_in, subset, proper_subset, overlap, hull, intersect` | iff with set statements |
| C08 | `mid` in nearest arithmetic | monotonicity of rounding |
| C09 | `width, rad, midrad` | upper bounds |
| C10 | `norm, mag, mig, abs, max, min, floor, ceil` | exact image/extremum |
| C11 | `pow_point, pow(int)`, loops on the int | induction on the exponent |
| C12 | `division_part1/2` | case analysis |
| C13 | same | negation with witness; partial theorem for X without the exact zero case |
| C14-C18 | elementary functions; loops carry fuel, theorems say "if it returns" | Taylor/remainder lemmas over Mathlib reals |
| C19 | constants | numeric bounds of Mathlib + kernel-checked rational arithmetic |
| C20, C21 | `rdouble-nohwround.hpp` | exactness lemmas for twosum, twoproduct, succ/pred |
| C22 | `dd.hpp`, `rdd-hwround.hpp` | on top of C21; each directed operation is a directed-rounded error term added to an exact two-sum/two-product; witness for the failing division |
| C51, C52 | `dd.hpp` comparisons, `floor`, `ceil` | monotonicity of rounding to nearest; exact two-sum; witness for NaN |
| C26 | `autodif.hpp`: every overload, `init`, `split`, `compress`, `expand`; a template function is an `Expr`, its instantiations are `Expr.eval` in a scalar interface | one soundness theorem for any scalar type with a meaning (`ScalSem`), structural induction; instances: intervals of doubles, exact reals |
| C27 | `vleq.hpp` (matrix and vector right-hand side) | norm argument for arbitrary approximate inverse; witnesses for overflow |
| C28 | `kraw-approx.hpp`, `make-candidate.hpp`; the approximate inverse is an arbitrary function | mean value theorem per component, Brouwer-free: contraction in a weighted max norm; witness for unbounded boxes |
| C29, C30 | `allsol-simple.hpp` completely: tests, refinement, known solutions, division, work list | step lemmas and work-list invariant by induction on the fuel; witness for the lost zero |
| C33, C53 | `optimize.hpp` with the default options: `optimize`, `optimize_nd`, `minimize_value`, `minimize_nd_value`, `maximize`, `maximize_value`; not `OPTIMIZE_TRIM`, not the printing | tests never discard a minimiser (mean value theorem, descent direction), `delta` stays an upper bound, work-list invariant by induction on the fuel; non-termination by an invariant |
| C31, C62 | `Solver/Allsol.lean`: `allsol.hpp` with default macros: tests, trimming, inflation, division of unbounded boxes, known solutions, refinement, the list `rest`; printing, counters and the other macro settings not | the derivative of the untrimmed box serves for sub-boxes (a program restricted to the sub-box is sound, so the lemmas of `allsol_simple` apply); `recovery_inflation` stays inside the box by exact reasoning about rounding; `mid_infinity` is a finite point; work-list invariant by induction on the fuel; kernel-evaluated witnesses |
| C32 | `Solver/AllsolPar.lean`: the parallel region of `allsol_list` as a transition system; a thread's private computation and each critical section are one action; `count_unknown` unbounded; an exception leaving the region stops the thread (the program ends) | invariant `count = length of targets + number of busy threads` for every sequence of actions; zeros are in the work list, results, rest or held by a thread; simulation of the sequential loop |
| C34-C36 | `affine.hpp` | noise-assignment semantics; witnesses for atan and abs |
| C37-C39 | `Verif/Psa/*`: all of `psa.hpp` except printing, constructors; static members as state of a monad, history included | Hoare triples: every operation maps vectors standing for a formal power series (and, in mode 2, a value at a point of the domain) to such vectors, with or without use of the history; Taylor with Lagrange remainder; formal series of a composition = Taylor coefficients (big-O calculus); Cauchy mean value theorem for `integrate`; kernel-evaluated witnesses |
| C40 | `complex.hpp` except printing | from the interval theorems and identities of complex functions; witnesses for the branch cut and for a division that throws needlessly |
| C41 | `geoseries.hpp` | partial sums closed with a tail value stay in the range (induction), limit; distance of doubles from 1 for termination without exception |
| C42 | `Verif/Double/Mode.lean`: rounding-mode register as explicit state, all operations of interval.hpp with `begin/end` or ordinary arithmetic | state-passing version equals pure version on every exit; induction over programs |
| C43 | `Verif/Double/Conv.lean`: all of interval-conv.hpp; interval-converter.hpp without `_Float64x`/`ddx`; MPFR functions as correctly rounded | correct rounding; exactness of `x - double(x)`; `twosum` exact and without overflow; witnesses |
| C44 | `lp.hpp`: `lp_minimize_verified` completely (`lp_minimize` not) | spec in `Solver/LpSpec.lean`: `Feasible`, `linear` over the reals; invariant of the outer loop: basic columns are exact unit vectors, all entries finite; `relax_sol`: enlarging right-hand sides and diminishing coefficients keeps a solution with no larger objective, because the basic variables take up the slack; the chain of such steps and exact pivot steps gives the bounds |
| C45 | `Verif/Ode/`: `ode` statement by statement (history, step-size control, restarts, refinement loop) on the model of `psa` | formal solution = Picard iterates in mode 1; mode 2 encloses the right-hand side along all curves in the tube; inclusion of the remainder gives a tube that the Picard operator maps to itself; existence by Picard-Lindelöf for the right-hand side behind a projection to the tube, uniqueness by Grönwall (Mathlib) |
| C46 | `Verif/Ode/Model.lean`: `ode`, `highderiv` with the static members of `psa` as state | every normal return has mode 1 unless it was 0; kernel-evaluated witnesses for exceptions |
| C47, C48 | loops of `log_point`, range reduction of `sin`, `cos` | negation: `outOfFuel`/no result for every fuel |
| C49 | static cache of `constants::e()` as an interleaving transition system (`Verif/Solver/Cache.lean`) | invariant over schedules; two racing schedules as witnesses |
| C50 | `atan2` with its corner cases | monotonicity of the angle in each half plane |
| C54 | `operator+` with an integer operand, conversion in the current mode | exactness up to 2^53; witness |
| C55 | `+=, -=, *=, /=` with the operand a reference, perhaps into the target | equality with the binary operation; witnesses |
| C56 | `highderiv.hpp` complete | C37 for the identity series, factorials by induction, Taylor coefficients = derivatives of a smooth function (unique big-O expansion); `PartialDeriv` by turning the other arguments into constants |
| C57 | `odelong` without callback and affine arithmetic, on top of the model of `ode` | induction over the steps from C45_enclosed_partial and the continuation of solutions; `odelong_time` for the end, `odelong_bd`: a bounded result means bounded intermediate results |
| C34 | affine.hpp completely (AFFINE_SIMPLE 1, AFFINE_MULT 0), `maxnum()` as state | spec: `Noise`, `Form.lin`, `Form.Val`; rounding errors summed per coefficient, chord lemmas for the ranges of inv/sqrt/square/exp/log, mean value theorem for the others; a finite result forces finite operands |
| C35 | `atan`, `abs` | `C35_atan_violated` ([1,101]), `C35_abs_violated` (1.5·2⁻²⁶+1.5ε) by kernel evaluation; `C35_partial`: abs without change of sign |
| C36 | `to_interval`, constructors, `epsilon_reduce` (with `partial_sort` an arbitrary permutation), `epsilon_reduce2` | sums split along the permutation, one new noise value chosen for each component |
| C58 | `eval`, `evalBox`: expressions over affine forms | induction over the expression from the lemmas of C34 |
| C59 | `split`, `append` | `C59_split`, `C59_split_append`, `C59_append_partial`; `C59_append_violated` by kernel evaluation |
| C23 | `conv-double.hpp`: `dtostring` completely, `printI` | spec: `Lit` (grammar), `Lit.value`, `Denotes`; value of digit lists as invariant of the base-conversion loops, `Toward` for cutting digits with a carry |
| C24 | `conv-double.hpp`: `stringtod` completely; size of exponent + digits bounded by 10^8, above it `int` overflows | same spec; `Inv` of the bit loop, `accum_spec` for the additions; `C24_defined` / `C24_zero_violated` say exactly when it is undefined |
| C25 | composition | from C23, C24; the printed text is readable and short (`toDec_len`, `render_spec`) |
| C60 | `dtostring` | bound part of `Toward`; a text denotes one number (`text_value`) |
| C61 | `stringtod` | `C61_violated` by kernel evaluation; `C61_partial`: no rounding if at most 53 bits (`accum_exact`) |
| C63, C64, C65, C66 | `Ode/Defint.lean`: `defint`, `defint_autostep` with default macros, `besselj(int, interval)`; `std::pow` is an arbitrary function; base type `double`; negative orders of `defint_autostep` not | the integrated series encloses the antiderivative (C38); the rules for power series with history are proved for a history with one coefficient more than is used; steps end in finite points by exact reasoning about rounding, a step size NaN never ends; integrals of adjacent steps are added; kernel-evaluated runs |
| C67, C68 | `Complex/Dka.lean`: `eval_polynomial`, `smith_error`, `vdka` for `double`; `dka` is an arbitrary function, vectors have matching sizes | Lagrange interpolation gives 1 = -∑ w_i/(z - x_i) at a zero, so one disc contains it; a disc which meets no other one contains a zero by the open mapping theorem, at most n zeros; invariant of the unification; the number of boxes not unified decreases in every pass but the last |
| C69 | `Special/Hypergeom.lean`: `hypergeom` for four intervals; the loop has fuel | after k rounds the partial result, the term and the four shifted parameters enclose the partial sum, the k-th term and the parameters plus k; for offset ≤ all of them, the factor of every later term is in `ratio` because t ↦ (p - o)/(o + t) stays in the interval; the residual is then the term times a general product series, enclosed by C41 |
| C70 | `Ode/NewtonCotes.lean`: `defint_newtoncotes`; the derivative as a program for `minimize_value` (`HighDeriv` over intervals and over automatic differentiation); the tolerance and the estimated number of points are arbitrary | `Analysis/NewtonCotes.lean`: the error of each composite rule is κ (b-a) h^d K with K between the extreme values of the d-th derivative (Peano kernels of constant sign, by repeated integration); `Psa/Param.lean`, `Psa/ParamAD.lean`: power series over automatic differentiation enclose the derivatives of the coefficients with respect to the expansion point (parametricity of the series operations), so C33 applies to the derivative; every point of the interval is in a box on which the derivative was evaluated, hence f is smooth there; the sum by induction over the points |
| C71 | `Solver/Eig.lean`: all of eig.hpp for `double` except `invert_comp` and the overload for interval matrices; `complex<double>` with `std::pow(x, 2)` as the rounded square and the square root for real non-negative numbers only (others are a distinct outcome); the approximate inverse in `vleq` is arbitrary | runs of the model (`decide +kernel`) for three concrete matrices, with explicit eigenvectors over the reals; fixed point of the QR step for the permutation matrix and induction on the number of steps; `C71_silent` for all matrices |
| C72 | `Complex/Cardano.lean`: `cardano` line by line for `double`; `Complex/CardanoLemmas.lean` | the chosen square root is some root of the discriminant, the cube roots some cube roots (0 included: the logarithm of a box around 0 is unbounded below and results are closed); (mn)³ = (-p/3)³ gives a power of ω which the loop keeps, by induction on the passes; then Cardano's identity |
| C73 | `Complex/Cardano.lean`: `ferrari` line by line | C72 for the resolvent; (2mn)² = q² gives a sign which the loop keeps; factorisation into two quadratics. Violated: the test of the leading coefficient reads in(3).imag() |
| C74, C75 | `Ode/Singular.lean`: `div_tn`, `defint_power3`, `defint_power`, `defint_power2`, `defint_log3`, `defint_log`, `defint_log2` and the variants `_r`, for `double` with default macros; integrands are expressions without inverse functions | `Ode/Weighted.lean`: if at every t the value is a polynomial in t with coefficients from closed convex sets, and the weight has constant sign, the weighted integral is the same combination of the moments, by choosing coefficients (mean values with respect to the weight); `Ode/SingularLemmas.lean`, `SingularPower.lean`, `SingularLog.lean`: the shifted series gives f(x)/(x-a)^n at every point, Taylor coefficients below the order vanish; reversal by substitution. C75 is violated where log(x-a) changes sign |
| C76 | `Ode/SingularRem.lean`: integrands with quotients by `div_tn`, `defint_singular`, `defint_singular_r` | the shifted series represents the continuous extension of e(x)/(x-a)^n at every point of the domain (`cut_at`); the rest of the integrand by the mode-2 theorem for expressions in several series; then the theorem on integrals of enclosing series |
| C77 | `Ode/SingularAuto.lean`: all the variants with automatic step size, with the reuse of recorded coefficients (`DEFINT_FAST`) | violations: runs of the model for concrete integrands, the result misses the integral; positive part (`Ode/SingularAutoLemmas.lean`, `powerAuto_core`): the recorded coefficients of t·g(t) are those of the second evaluation, an invariant of the loop over step sizes; the rest of the interval by the proof of C64 |
| C78 | `Special/Gamma.lean`: `gamma_r`, `gamma_point`, `gamma`; `std::log(2.)`, `std::pow`, the order and `digamma_zero` are parameters | the integral by `C77_power_partial`; the tail ∫_θ^∞ t e^-t = e^-θ(θ+1) (`gamma_split`); the loops by induction with the recurrence of Γ; `floor` and `y-1` are exact; log\|Γ\| is convex between two poles (`sign_convex`, by induction from the Bohr-Mollerup lemma of Mathlib), so the hull of the values at the ends and at the zero of Γ' is enough (`gammaHull_mem`) |
| C79 | `Special/Gamma.lean`: `lgamma_point`, `lgamma` with the branch for poles | as C78 with sums of logarithms; violations: the branch for an integral lower end, for all parameters; a run of the model for an interval with a pole inside |
| C80 | `Special/Beta.lean`: `beta_r` (two calls of `defint_power_autostep`), `beta` with its shifts | the integrals by `C77_power_partial` and the symmetry of the beta integral; the shifts by induction with the recurrence of Γ; no pole can be passed, because a factor with 0 in the denominator throws (`shift_exact`) |
| C81 | `Ode/Lohner.lean`: `ode_lohner` for interval vectors | the candidate contains the initial value; a clamped solution exists and stays in the image of the candidate (`picard_mem`, mean value theorem), and is the only solution (`sol_box`), also for unbounded candidates; the refinement keeps it; the coefficient of first order by the theorem on `psa` in mode 1. Violation: a run of the model with order 2 |
| C82 | `Psa/AutodifPsa.lean`: `autodif` over `psa`; `Ode/General.lean`: `ode` for a right-hand side given as a function on power series (`odeG_evalF`: equal to the model of `ode` for expressions); `Ode/OdeAutodif.lean`: the variational equation and `ode` for `autodif` | if 2 is returned, both calls reached the end and the value part is that of the first call (`C45_partial`). The derivative part is a matrix product (`C82_product_partial`). Violation: a run of the model |
| C83 | `Double/DDNohw.lean`: `rop<dd>` of rdd-nohwround.hpp on top of the emulated `rop<double>` | the emulated operations are replaced by the directed ones (C20), the products by 0.5, 0.25 and 2 are shown to be exact where the branch is taken, so the results are bit-identical to rdd-hwround.hpp without FMA (`mulN_same`, `divN_same`, `sqrtN_same`); then C22 |
| C84 | `Conv/DDModel.lean`: `ddtostring` (bits of both components, their sum with carries, decimal digits, rounding, formats), output of `interval<dd>` | the addition of the bits is exact (`addBuf_val`, `ddBits_spec`), the rest as for C23 and C60 |
| C85 | `Conv/DDModel.lean`: `stringtodd` with and without `fast`, `interval<dd>(string)` | invariants of the two loops that distribute the bits (`part1_spec`, `part2_spec`); the discarded bits are rounded outward; overflow case, ties and `0e-5` refuted by evaluation |
| C86 | `Double/DDAvx.lean`: the ten operations of rdd-avx512.hpp with directed instructions, fused multiply-add and their overflow branches | `Double/DDAvxLemmas.lean`: every directed instruction bounds, error-free transformations are exact; overflow cases refuted by evaluation |
| C87 | `Ode/DoubleNewtonCotes.lean`: `double_newtoncotes` with its tables, the sum of the products of weights and values, the error terms in both directions by `minimize_value`/`maximize_value` of the partial derivatives; the estimate of m1, m2 (for m1 = 0, m2 = 0) and the tolerance of the error terms arbitrary | `Analysis/NewtonCotes2.lean` (product formula: error in `x` averaged over `y` plus error in `y` averaged over nodes), `Ode/DoubleNewtonCotesLemmas.lean`; the formulas and derivatives from C33. Violations by evaluation |
| C88 | `Ode/DoubleNewtonCotes.lean`: `curvedEdge`, `swapXy`, `doubleintCurvededge`, `doubleintCurvededgeS` (function objects as expressions, composition as substitution) | change of variables in the inner integral and C87 |
| C89 | `Double/DDMixed.lean`: the overloads of dd.hpp for built-in numbers (`Num`: double, signed and unsigned integers with their width), the negation of `c` in its own type | unfolding with `x + 0 = x`, `x * 0 = 0` for the second component 0 of `dd(c)`; violations by evaluation |
| C90 | `Solver/Kkt.lean`: `alpha_plus`, `alpha_minus`, their derivatives, the `autodif` overloads, `KKT_equation::operator()` with intervals, reading outside of the empty gradient of a constant as an outcome | monotonicity of the cubes, derivative of max(t, 0)^3 also at 0, C26 for the gradients; the equivalence with the Karush-Kuhn-Tucker conditions over the reals (cube roots) |
| C91 | `Special/Trigamma.lean`: `trigamma`, `trigamma_point` with its loops; `trigamma_plus` an arbitrary program | the recurrence of the series in both directions, monotonicity for positive arguments term by term; violation at a pole by evaluation |
| C92 | `Ode/Odescale.lean`: `Odescale::operator()` as a transformation of the right-hand side | real semantics of the new expressions; the last component has a positive derivative, so it is strictly increasing, its inverse is differentiable (also at the ends), chain rule; with C45 for the result of `ode` |
| C93 | `Special/Lobachevsky.lean`: `lobachevsky`, `lobachevsky_point`, `lobachevsky_origin`; `defint_log2_autostep` an arbitrary program | `Special/LobaReal.lean`: integrability of the logarithm of the absolute value of 2 sin u, period (the integral over a period is 0), symmetry, monotonicity between the extrema, the extreme value at π/6; the argument reduction as for `tan`; near an extremum the values differ by less than 2^-88 |
| C94 | `Ode/OdeQr.lean`: both versions of `odelong_qr` (and `odelong_qr_lohner`, the same program) with callback and `mat`; `ode`, `qr`, `invert` and the callback are arbitrary programs | `Props/OdeQr.lean`: mean value theorem in boxes, `vleq` by C27, invariant: all points have the form Q η + c with η in y, 0 is in y; chain rule for `mat`; a flow is given by its laws (`IsFlow`, with a domain, so that solutions may end). Missing: entries which are not finite |
| C95 | `Ode/Maps.lean`: `StroboMap`, `FixedPoint`, `Shooting_TPBVP`, `PoincareMap` for intervals and `autodif` over intervals; `odelong_maffine` and the user functions are arbitrary functions | `Props/Maps.lean`: the functions are sound for the solvers (`Prog.Sound`), including the derivative with respect to the time; with C28: an accepted box contains exactly one periodic solution. Missing in the last two theorems: unbounded results of the Krawczyk test, where C28 is false |
| C96 | `Ode/Maffine.lean`: `ode_maffine` and all versions of `odelong_maffine`, with callback, `mat` and both reductions of noise symbols; `ode`, `std::partial_sort` and the callback are arbitrary functions | `Props/Maffine.lean`: mean value theorem as in C94, C35/C59 for the forms; invariant: for each starting point there are values of the noise symbols for which the forms represent the solution. The last sentence is false (`C96_maxnum_violated`): the counter of noise symbols stays reset if the function throws. Missing: coefficients which are not finite |

## Trusted base

* The Lean kernel and the axioms `propext`, `Classical.choice`, `Quot.sound` only.
* That the C++ compiler honours `volatile` and the rounding mode, IEEE-754 binary64
  hardware, `FLT_EVAL_METHOD == 0`.
* The reading of C++ templates into Lean definitions; every definition cites file and lines.

What of /repo/kv is modelled:

| file | modelled | not modelled |
|------|----------|--------------|
| hwround.hpp | the rounding mode as state | the compiler-specific code that sets it |
| rdouble-hwround.hpp, rdouble-nohwround.hpp | all operations (hardware and emulated) | AVX-512 variant |
| dd.hpp, rdd-hwround.hpp, rdd-nohwround.hpp, rdd-avx512.hpp | + - * / sqrt, comparisons, also those with built-in numbers, floor, ceil, conversions | elementary functions of `dd`, frexp/ldexp, `ddx` |
| interval.hpp | arithmetic, comparisons, set operations, mid/rad/mag/..., division_part1/2, pow, all elementary functions, constants; string constructors and output for `double` | the generic `rop<T>` without rounding (lines 20-92); mixed operators with a string operand (they call the string constructor first) |
| conv-dd.hpp | `ddtostring`, `stringtodd`, output and input of `interval<dd>` | exponents above 10^8; non-finite second components of `ddtostring` are only modelled as undefined |
| conv-double.hpp | `dtostring`, `stringtod` | - |
| interval-vector.hpp, matrix-inversion.hpp | what vleq, Krawczyk and allsol use | LAPACK path |
| autodif.hpp, psa.hpp, affine.hpp, complex.hpp | all arithmetic and elementary functions | stream output, configurations other than the default macros |
| vleq.hpp, kraw-approx.hpp, make-candidate.hpp, allsol-simple.hpp, optimize.hpp, geoseries.hpp | completely (approximate inverses are arbitrary functions) | OpenMP, verbose output |
| allsol.hpp | completely with default macros, with and without OpenMP | other macro settings, printing |
| defint.hpp | `defint`, `defint_autostep` | macros other than default |
| bessel.hpp | `besselj(int, interval)` | `besselj(interval, interval)` |
| dka.hpp | `eval_polynomial`, `smith_error`, `vdka` | `dka` (arbitrary function) |
| hypergeom.hpp | `hypergeom(interval, interval, interval, interval)` | the integral formula disabled by `#if 0` (lines 26-90) |
| defint-singular.hpp | `div_tn`, `div_reduce`, `defint_power*`, `defint_log*`, `defint_singular` with fixed interval and the variants `_r`; the variants with automatic step size (`_r` of `defint_power_autostep` only) | the other reversed variants with automatic step size |
| gamma.hpp | `gamma`, `lgamma` and their parts, `trigamma`, `trigamma_point` | `digamma`, `trigamma_plus` and `digamma_zero` (parameters) |
| kkt.hpp | `KKT_equation` with interval arguments | `KKT_equation` with nested autodif arguments |
| odescale.hpp | all | - |
| beta.hpp | all | - |
| ode-qr.hpp, ode-qr-lohner.hpp | all | output; `ode` (see C45, C82) and `qr` are parameters |
| ode-maffine.hpp | all (base type double, `AFFINE_SIMPLE` 1, `AFFINE_MULT` 0) | output, `result_psa`; `ode` (see C45, C82) is a parameter |
| strobomap.hpp | interval and autodif-of-interval versions, Shooting_TPBVP for intervals | versions for T, autodif<T>, affine; `odelong_maffine` is a parameter |
| poincaremap.hpp | interval and autodif-of-interval versions | versions for T, autodif<T> |
| lobachevsky.hpp | all | `defint_log2_autostep` as used there (a parameter) |
| ode-autodif.hpp | `MakeVariationalEq`, `ode` for `autodif` | the variant for `ODE_AUTODIF_NEW != 1`, `odelong` for `autodif` |
| ode-lohner.hpp | `ode_lohner` for interval vectors | `ode_lohner` for `autodif`, `odelong_lohner` |
| defint-newtoncotes.hpp, double-newtoncotes.hpp, doubleint-curvededge.hpp | `defint_newtoncotes` | the estimate of the number of points for `m = 0` (lines 65-93) and `errorterm_div` with `std::pow` are arbitrary values |
| eig.hpp | `house`, `hess`, `francisQR`, `eig2by2`, `eig`, `veig` for point matrices | `veig` for interval matrices (the same code), `invert_comp`; the complex square root of negative or non-real numbers |
| cardano-ferrari.hpp | all, for `double` | - |
| lp.hpp | `lp_minimize_verified` | `lp_minimize` |
| highderiv.hpp, ode.hpp, ode-param.hpp, the odelong driver | completely | callbacks, `ode-affine*` |
| interval-conv.hpp, interval-converter.hpp | double, dd, mpfr conversions | ddx, float64x |

Every other file of /repo/kv is not modelled.

## Simplifications common to the whole model

* Signed zero is collapsed: there is one zero, and division by it behaves like division by +0.
* Floating-point status flags and NaN payloads are not modelled.

## Disagreements between code and properties found while reading

1. `division_part1/2` return `[0,0]` for an exactly zero numerator although the divisor
   contains zero (C13); through it the trimming step of `allsol.hpp` can lose a zero (C31).
   Solutions are lost as well when zero is an endpoint of both operands, e.g. X=[0,1], Y=[0,2],
   z=-1 (only [0,inf] is returned).
2. `affine.hpp` `atan` uses the slope 1/sqrt(1+x^2) (C35).
3. `affine.hpp` `abs` evaluates chord errors in plain floating point (C35).
4. `psa.hpp` `atan, asin, acos, asinh, acosh, atanh` in mode 2 set the domain to the range of
   x instead of x minus its constant term (C39); for a constant series they index out of range.
5. `ode.hpp`, `highderiv.hpp` save the integer mode in a `bool`, so mode 2 is restored as 1 (C46).
6. interval * NaN scalar is `[0,0]` (outside C02, which asks for a non-NaN scalar).
7. `conv_double::dtostring` with precision 0 and format 'g' reads outside its digit array.
8. `matrix-inversion.hpp` (LAPACK path) builds `cb` from `a` instead of `b`; `hwround.hpp`
   (MSVC) `roundchop` sets round-up.  Not modelled.
9. `log` never returns when the lower endpoint is >= 2^1023 (`pow(2., -1024)` underflows to a lower
   bound 0, then `while (x2 < ..) x2 *= 2.` spins) or the upper endpoint is in (0, 2^-1024) (C47).
   `asinh`, `acosh` of huge arguments and `pow(interval, interval)` inherit this.
10. `sin`, `cos` of DBL_MAX: the range reduction overflows, the lower bound becomes NaN and the
   series loop never meets its stopping test (C48).
11. `constants<interval<T>>::e()` and `ln2()` accumulate in the static cache variable; overlapping
   first calls from two threads return wrong values, possibly for the rest of the run (C49).
12. `rop<dd>::div_up` returns a value strictly below the exact quotient (`div_down` above it) when the
   operands are rescaled because x/y.a1 is near overflow and y.a2 is an odd multiple of the smallest
   subnormal, since `v8 *= 0.5` is then inexact: x=(DBL_MAX, 2^968), y=(1.5, -+2^-1074) (C22).
13. dd comparisons look at the second components unless the first are ordered, so `(NaN,0)`, which is
   what `inf - inf` gives, compares less than (1.5, 2^-1074) (C51); interval<dd> tests written with
   `<` do not reject NaN as they do for double.
14. `autodif::split` for functions of one variable and `expand` read outside the (empty) gradient when
   the function is constant; `split` into a matrix gives a matrix without columns when all components
   are constant (C26_constant_undefined, C26_split_columns).  `atan` of an autodif interval containing 0
   in its interior often throws, since x*x is not a square ([-1,1]*[-1,1]=[-1,1]); no wrong result.
15. `krawczyk_approx` may return true for a function without zeros when the candidate box is unbounded
   (C28_violated: a shifted tanh; the box is [.., inf], `proper_subset` accepts an infinite endpoint).
16. `vleq` returns true with NaN entries when intermediate products overflow (C27_violated), and returns
   true for an interval matrix containing a singular matrix because `max_norm` ignores NaN rows
   (C27_singular).
17. `allsol_simple` loses a zero without notice when the approximate inverse overflows: 2^-1060*x on
   [-1,1] (C29_violated): the Krawczyk box is NaN, `overlap` is false and the box is discarded.  The same
   happens for boxes whose width overflows.  In the refinement loops f(C) is evaluated outside any
   `try`, so an exception there ends the whole search.
18. `search_maxwidth` (allsol-simple.hpp, allsol.hpp, optimize.hpp) leaves its result uninitialised when
   all widths are 0 or NaN (outcome `undefined` in the model).
19. `minimize`/`optimize` (optimize.hpp) never returns if f raises `domain_error` on every box around some
   point of the initial box, e.g. `sqrt(x)` on `[-1,1]` (`C53_violated`): such boxes are never accepted and
   are divided for ever, also when they have become points (`mi` then keeps its old value).  The same happens
   for `limit <= 0`.
20. With an unbounded initial box `mid` may be infinite, f is then evaluated at an infinite point and
   `delta` is not a value of f; C33 is restricted to bounded boxes.
21. Division of complex intervals throws `domain_error` for divisors without 0, since `y.re*y.re` is not a
   square of an interval ([-1,1]*[-1,1]=[-1,1]) (C40_div_false_alarm).  `log` of a complex interval that reaches
   up to the negative real axis from below contains arguments above pi, not the principal ones (C40_log_not_principal).
22. `geoseries` does not check that its argument is inside (-1,1); `geoseries([2,3])` returns [-1,-1/2]
   (C41_unchecked).
23. Mixed operators convert an integer operand with `T(y)` in the mode that is set, once per endpoint:
   `interval<double>(0) + (2^53+1)` is the point 2^53+2 (C54_violated).  The constructor from an integer rounds to
   nearest and loses the value in the same way.
24. `x += y`, `x -= y` take `y` by reference and overwrite the lower endpoint first, so `x += x.lower()`
   for x=[-1,2] gives [-2,0] without 1 (C55_violated); `z *= z.real()` of complex numbers (C55_complex_violated) and
   `a *= a.v` of autodif numbers (not modelled) have the same defect.
25. interval operations set the rounding mode to nearest at the end instead of restoring the mode of the
   caller (C42_not_saved).
26. `impfrtoidd`/assignment of `interval<mpfr<N>>` to `interval<dd>` turns an infinite endpoint, or one beyond the
   range of double, into NaN (`inf - inf` in `mpfrtodd`), C43_mpfr_dd_violated.  The `_Float64x` version of the same
   function handles the case.
27. `idoubletoimpfr` assigns the endpoints with `mpfr::operator=`, which rounds to nearest; for N < 53 the
   result need not contain the argument (C43_idoubletoimpfr_violated).
28. psa in mode 2 with a domain that does not contain 0: the remainder is evaluated over the range of x on the domain,
   which need not contain the expansion point x(0); `log(1+t)` on [1,1] gives 0.5 instead of log 2 (C38_needs_zero).
   Nothing in the class checks the domain.
29. psa inverse functions (asin, .., atanh) of a series of one coefficient write outside a vector (`setorder(taylor, -1)`,
   C39_constant_undefined), so e.g. `ode` with a right-hand side containing `atan` has undefined behaviour in its first
   pass, where the series have one coefficient.
30. psa `operator*` of vectors of different sizes (both above 1) silently drops the coefficients of the longer second
   operand or reads outside the shorter one; `operator+` is undefined.  The model reports undefined reads as an error.
31. psa `pow(x, int)` with INT_MIN negates it (signed overflow).
32. highderiv of order 0 of a function containing an inverse trigonometric function has undefined behaviour (finding on
   constant series above): the argument series has one coefficient.
33. `ode` tests inclusion of the new remainder in the candidate with `subset`, which holds for `[-inf,inf]` in itself; with a
   long step the candidate overflows and `ode` returns 2 (success) although the solution blows up before the end (`C45_violated`).
34. `ode` with step-size control and an end before the start builds `domain = hull(0, deltat)` and steps backwards only when
   `end < start` holds for all members; with a start interval wider than the step the new end may lie before parts of the start
   interval, and the returned intervals then say nothing about those start times (the theorem asks for `t0 ≤ t1`).
35. `ode` and `odelong` never return normally when the right-hand side contains asin, acos or atan: the first evaluation is on
   series of length one, and the inverse functions then read `tmp.v(0)` of an empty derivative (`Expr.evalP_len1`).
36. affine.hpp:1502: `atan` uses the slope 1/√(1+x²) instead of 1/(1+x²); the returned form does not contain the exact values
   (`C35_atan_violated`).
37. affine.hpp:1303-1317: `abs` computes `u - a*u` and `-l - a*l` with rounding to nearest; the returned form may miss the exact
   value by half a unit in the last place (`C35_abs_violated`).
38. affine.hpp:278-306: `append` adds coefficients and errors with rounding to nearest and drops the rounding error.  The comment
   allows forms without common epsilons, but the centres are always common, and ode-affine.hpp calls it with two forms that both
   have a centre (`C59_append_violated`).
39. affine.hpp, not covered by theorems, seen while modelling: `sqrt` of a form that is exactly 0 gives NaN coefficients (0·∞);
   `resize()` reads beyond the vector if it is shorter than maxnum()+1; `epsilon_reduce` with an empty vector reads v(0) of an
   empty vector, and its comparator is not a strict weak order if a score is NaN; the static `constants<affine>::pi()` etc. keep
   the number of their noise symbol when `epsilon_reduce` renumbers the symbols; a coefficient in the place of the new symbol is
   overwritten if `maxnum()` was set back by hand; `x / y` with y = ∞ is a finite zero form.
40. conv-double.hpp:530-560, 600-624: a literal with zero mantissa and a negative exponent (`"0e-5"`) makes the code call `front()` and
   `pop_front()` on an empty list (`C24_zero_violated`).
41. conv-double.hpp: `"inf"` and `"nan"`, which `dtostring` prints, are read as 0 (`C25_infinite_bounds`).
42. conv-double.hpp:595-624: with more than 53 bits the direction is applied without looking whether the rest is zero:
   `stringtod("9007199254740992", 1)` is 9007199254740994 (`C61_violated`).  Likewise `dtostring` adds one unit of the last digit when only
   zeros are cut off: 1e8 with precision 6 upward is `1.00001e+08`.  Both are enclosures, but not the tightest.
43. conv-double.hpp:285-300: precision 0 with format 'g' prints 0.05 rounded up as `0` and reads outside of the digits for 5
   (`C23_precision0`).
44. `lp.hpp`, `lp_minimize_verified(.., -1)`: an intermediate overflow turns a coefficient of the objective row into NaN, which `a(0,i) > m` never selects; the function then returns 0 although a feasible point has the value -5 (`C44_overflow_violated`).
45. `lp.hpp`, `lp_minimize_verified(.., 1)`: the pivot's right-hand side is diminished by `denorm_min` until its ratio is the unique minimum; for a degenerate constraint (right-hand side 0) it becomes negative, the 'upper bound' is then about -100 where the optimum is -50 (`C44_upper_violated`).
46. `lp.hpp`: coefficients of a constraint beyond the length of the objective vector are ignored silently (the theorems assume there are none); `no optimal solution` is also thrown when every ratio is at least `max()` or NaN.
47. `allsol.hpp`, trimming: for f(x,y) = (x - 1 + y/8, x^3 - x) on [-2,2]^2 the regular zero (1,0) is lost in the first step, nothing is returned and `rest` stays empty (`C31_violated`).  The numerator of the second equation is [0,0] and the denominator contains zero; `division_part1/2` return [0,0], so the box is trimmed to x = 0, which has just been excluded by the first equation.
48. `allsol.hpp` loses zeros, like `allsol_simple`, if the approximate inverse overflows (`C31_overflow_violated`).  In the refinement loop the result of `invert` is not examined.
49. `allsol.hpp`, `recovery_inflation`: the inflated interval is meant to stay in the original one; the computation may overflow if bounds exceed 2^1023, the theorems exclude that.
50. `interval.hpp`, `overlap(x, y)`: NaN bounds of the second argument are ignored (the comparison selects the bound of the first), NaN bounds of the first are not.
51. `allsol.hpp` with OpenMP: an exception thrown by the function (or by an interval operation) inside the parallel region is caught only around the evaluation of the function; other exceptions leave the region, which ends the program (model: `crash`).  The message at line 1073 is printed outside the critical section `cout`.  Threads without work spin on the critical section `targets`.
52. `allsol.hpp` with OpenMP: no error found in the termination protocol; the result of every interleaving has the guarantees of the sequential search (`C32`), but the list of boxes may depend on the interleaving.
53. `defint.hpp`: for order 0 the variable is a constant series, so the value at the midpoint (`defint`) or the start (`defint_autostep`) is taken for the whole piece; the result need not contain the integral (`C63_order_zero_violated`, `C64_order_zero_violated`).  A negative number of pieces gives [0,0] (`C63_negative_pieces_violated`).
54. `defint.hpp` saves the integer mode in a `bool` and does not restore the switches when the integrand throws (C66).
55. `defint.hpp`, `defint_autostep`: if the step size becomes NaN (for example 0/0 in the resizing), the end of the step is NaN and the loop never ends (`autoLoop_nan`).  If the end is a wide interval containing the start in its interior, steps go downwards first.
56. `dka.hpp`, `smith_error`: the inner loop of the unification starts with `j = i`, so every box is marked as unified into itself in the first pass and the repetition `while (true)` never changes anything.  A box which overlaps only the box grown by a later unification is not unified: for (z+20)(z+3)(z+5) and the approximations -3, -13, 19 a box without a zero is returned, inside another box (`C68_violated`).
57. `dka.hpp`, `vdka` (read, not modelled): the result of `dka` is ignored; `dka` reads `a(n-1)` for a constant polynomial (n = 0), and for large coefficients such as 1e200 + 1e200 z, |p_n|² overflows and its Newton iteration for the radius runs with NaN and never ends.
58. `hypergeom.hpp`, `hypergeom`: if the interval `z` contains a number of absolute value at least 1, the loop never ends (`C69_no_return`), although the series converges at z = 1 for c > a + b and is a polynomial for a = 0, -1, ...; no exception is thrown.
59. `defint-newtoncotes.hpp:29-38`, table `errterm`: the entries for n = 3, 5, 7 are the constants of one panel and are not divided by the number n of subintervals of a panel, unlike those for n = 2, 4, 6; they should be -1/80, -55/12096, -1169/518400. The enclosures are wrong: for x^4 on [0,1] with n = 3, m = 3 the result is about 0.1926 instead of 0.2 (`C70_violated_3`, `C70_violated_5`, `C70_violated_7`). double-newtoncotes.hpp has the same table.
60. `defint-newtoncotes.hpp`: a negative `m` is not rejected; the sum is empty and the result is the error term only (`C70_violated_negative`); -n < m < 0 is rounded up to 0 and throws; with m close to INT_MAX `m++` and `i <= m` overflow. The estimate for `m = 0` tests `i == m` instead of `i == tm` (line 81), which affects the estimate only. For start == end (width 0) `minimize_value` uses an uninitialised variable.
61. `eig.hpp:401-419` (`eig2by2`): the system for the part of an eigenvector that belongs to a 2x2 block is solved with `b` instead of `-b` (the commented-out formula has the minus sign), so the approximate eigenvectors are wrong whenever such a block stands above another eigenvalue. Together with the next item `veig` returns wrong enclosures: for (0 1 0; 1 0 1; 0 0 3) about -2.3, -0.3, 3 instead of -1, 1, 3 (`C71_violated_sign`).
62. `eig.hpp:532-537` (`veig`): the radius of a Gershgorin disc is computed as the sum of the elements of the row instead of their absolute values, separately for real and imaginary parts, so the enclosures are not even right for exact data (`C71_violated_sum`).
63. `eig.hpp:518` (`veig`): the result of `vleq` is ignored; if it is `false` all enclosures are exactly 0 and `veig` returns `true` (`C71_silent`, `C71_violated_overflow`).
64. `eig.hpp` (`francisQR`): no exceptional shifts and no limit for the number of steps; for the cyclic permutation matrix the call never returns (`C71_no_return`). Line 180 has a bracket of `abs` at the wrong place. `eig2by2` reads the uninitialised `j` for 1x1 matrices (`C71_size_one`).
65. `cardano-ferrari.hpp:77` (`ferrari`): the test whether the leading coefficient may be zero uses `in(3).imag()` instead of `in(4).imag()`. A polynomial with leading coefficient i and real coefficients otherwise is refused (`C73_violated_refuses`); a zero leading coefficient with a non-real second coefficient leads to an exception instead of `false` (`C73_violated_throws`).
66. `defint-singular.hpp:250-253` (`defint_log3`): the coefficients, the last of which is an interval for the remainder, are multiplied by the integral of x^i log x over the whole interval. If the interval is longer than 1, log x changes its sign, and the mean value argument fails: for x² log x on [0, 105/64] with order 1 the result is below 1/8, the integral is about 0.238 (`C75_long_interval_violated`).
67. `defint-singular.hpp:166-173` (`defint_power3`): the condition n*power > -1 is not tested; for divergent integrals a finite interval is returned, for example one of negative numbers for the integral of x^(-3/2) from 0 to 1 (`C74_divergent_violated`).  As in defint.hpp the mode is saved in a `bool` and the switches are not restored when the integrand throws.
68. `defint-singular.hpp` (`defint_power3_autostep`, `defint_log3_autostep`, `defint_singular_autostep` with `DEFINT_FAST`): the first evaluation in mode 1 records all coefficients of the results, the second one in mode 2 reuses the recorded coefficients except the last one. But `div_tn(.., n)` moves the remainder down by n places, so the operations after it have fewer reliable coefficients in the second evaluation, and coefficients with a remainder are replaced by recorded ones without. Wrong results: x+x³ to the power 1 with order 2, below 5/8 instead of 3/4 (`C77_power2_violated`); (x+x³)/x with order 3, below 5/4 instead of 4/3 (`C77_singular_violated`); log(x+x⁴), below -15/16 instead of at least -7/8 (`C77_log2_violated`). `digamma` and `trigamma` in gamma.hpp use `defint_singular_autostep` with a quotient of two `div_tn` results and are exposed to this.
69. `defint-singular.hpp` (`div_tn`): called with n = order + 1 on a series of order + 1 coefficients the result is 0 (`C76_order_violated`); `defint_singular_autostep` evaluates the integrand for a series of order - 1, so with order 1 it is a constant series.
70. `gamma.hpp:201-203` (`lgamma`): an interval with an integral lower end, which is a pole, and an upper end below the next integer gives `[DBL_MAX, ∞]` as if it was only this number: `lgamma([0, 0.5])` does not contain log Γ(1/2) = 0.57.. (`C79_pole_end_violated`). `trigamma` (gamma.hpp:526-528) has the same branch. An interval with one number, a pole, is treated correctly.
71. `gamma.hpp:176-187` (`lgamma` for intervals with a pole inside): the hull with the value at the zero of the derivative in the first part (lines 176-179) is assigned to `tmp`, and line 184 overwrites `tmp` with the hull of the values at the ends only. The lower bound can be too large (`C79_pole_inside_violated`).
72. `ode-lohner.hpp:223`: the coefficients over the a-priori box start with `z = V2`, but the loop then computes `z = init + y` (as in the first loop), so the coefficient for the remainder is computed at the initial value and not over the box. It should be `z = V2 + y`. `x' = 1+x²`, `x(0)=0`, order 2, end 1/4 gives exactly `[1/4, 1/4]`, the solution is `tan t` (`C81_violated`). The even orders 4, 6, 8, 10 are wrong for this problem as well (evaluated with the model; the default order is 24). The overload for `autodif` has the same line.
73. `ode-lohner.hpp:251-505` (`ode_lohner` for `autodif`, found by reading, not modelled): the statics saved, set and restored are those of `psa< interval<T> >`, but the computation uses `psa< autodif< interval<T> > >`, so its mode is not restored and its history is not cleared before the second loop, which then uses recorded coefficients of the first loop; the inner loop of the refinement uses the same variable `j` as the outer one.
74. `ode-autodif.hpp:80-156` (`ode` for `autodif`): if the variational equation needs a shorter step, `end` is set to the shorter time, but the value is the one at the longer time of the first call. `x' = 1+(x-t)`, `x(0)=0`, order 2, end 2: the returned end is 1, the returned value `[2, 2]`, the solution is `x = t` (`C82_violated`). `odelong_qr` and `ode_maffine` recompute the value and are not concerned.
75. `rdd-nohwround.hpp:284-313, 359-388`: same defect of the division as in rdd-hwround.hpp: `y.a2 * 0.5` is not exact if `y.a2` is an odd multiple of the smallest subnormal number (`C83_div_up_fails`, `C83_div_down_fails`). `x.a2 * 0.5` is rounded to nearest here (in rdd-hwround.hpp in the current direction); no wrong result due to this is known.
76. `conv-dd.hpp:683-712` (`stringtodd`): the first component is rounded to nearest without a check for overflow. For `2^1024 - 2^970 <= |v| < 2^1024`, e.g. "1.7976931348623159e308", it becomes infinite, so the lower bound of interval<dd>(s) is +infinity plus a finite number, and the interval does not contain `v` (`C85_overflow_violated`).
77. `conv-dd.hpp:683-712`: at a tie the first component is rounded away from zero instead of to even, so dd("9007199254740993") is the pair (9007199254740994, -1), which is not normalised; `==` and `<` give wrong results for it (`C85_normal_violated`).
78. `conv-dd.hpp:629-643`: as in conv-double.hpp, `result2.front()` is called on an empty list for zeros with a negative exponent such as "0e-5" (`C85_zero_violated`).
79. `rdd-avx512.hpp:65-86` (`add_down`), `111-132` (`sub_down`), `320-442` (`div_down`): the overflow branches are copies of those of the functions `_up`. The lower bound of DBL_MAX + DBL_MAX is +infinity, and the lower bound of -2 DBL_MAX is -DBL_MAX (`C86_add_down_fails`, `C86_sub_down_fails`, `C86_div_down_fails`).
80. `rdd-avx512.hpp` (`add_up`, `sub_up`, `mul_up`, `div_up`, `mul_down`): when the leading parts overflow to -infinity (+infinity), the upper (lower) bound -(maximum) (maximum) is returned although the low parts are dropped and the exact result may lie on the other side of it (`C86_add_up_fails`, `C86_mul_fails`, `C86_div_up_fails`).
81. `rdd-avx512.hpp`: the last `twosum` of all operations has no check for overflow, so that the pair (infinity, -infinity) may be returned, which is no number (`C86_add_not_number`). In `div_up`, `div_down` the products `x.a2 * 0.5`, `y.a2 * 0.5` are rounded to nearest for subnormal low components.
82. `double-newtoncotes.hpp:42-51`: the error constants of the orders 3, 5 and 7 are those of `defint-newtoncotes.hpp` and wrong in the same way: the enclosures of the integrals of x^4, x^6, x^8 over the unit square do not contain 1/5, 1/7, 1/9 (`C87_violated_3`, `C87_violated_5`, `C87_violated_7`).
83. `double-newtoncotes.hpp`: negative `m1`, `m2` are not rejected; the result is then a wrong enclosure (`C87_violated_negative`).
84. `doubleintegral.hpp` (by reading, not modelled): with reversed limits (`end < start`) the domain of the power series becomes [-r, r] with negative upper end r, an inverted interval, so that the remainder terms are bounded over a wrong set.
85. `dd.hpp:247-261`: `x - c` is computed as the sum of x and `-c`, where `-c` is evaluated in the type of `c`. For unsigned types it wraps: `dd(5) - 1u` is 4294967300 and `x - v.size()` is x + 2^64 - v.size() (`C89_sub_unsigned`, `C89_sub_violated`); for the smallest `int` it is undefined behaviour (`C89_sub_undefined`). `ddx.hpp:235` has the same line.
86. `dd.hpp:446-469`: `c / x` does not recompute the check product with the halved divisor when it overflows (the other overloads do), so `DBL_MAX / dd(3)` is NaN although `dd(DBL_MAX) / dd(3)` is finite (`C89_rdiv_violated`). `ddx.hpp:444` is the same.
87. `kkt.hpp:172,202`: for a constant objective function (a feasibility problem) the gradient made by `split` has size 0 and `r(i) = fv(i)` reads outside of it (`C90_constant_undefined`); the same for `prod(trans(gm), b)` if all inequalities (or all equalities) are constants.
88. `gamma.hpp:527-529`: `trigamma` of an interval whose lower end is a pole returns [DBL_MAX, infinity], although the values at the other numbers of the interval are finite and small: trigamma([0, 1/2]) does not contain the value at 1/2, which is about 4.93 (`C91_pole_end_violated`). `lgamma` has the same defect (C79).
89. `lobachevsky.hpp:90-101`: an extreme value is included only if the whole enclosure of its place (19 units in the last place wide for π) is in the argument. If an end of the argument lies inside of this enclosure, beyond the exact place, the extreme value is not included; what is lost is below 2^-88 (`C93_near`), so that only an integrator with nearly exact results could show it. An infinite end of the argument makes the reduction loop end with NaN (`sin` and `cos` test for it before, `lobachevsky` does not).
90. `C96_maxnum_violated`: the interval and `autodif` versions of `odelong_maffine` (ode-maffine.hpp:213-287) set `affine<T>::maxnum()` to 0 and restore it only when the inner call returns. If the user's function throws (for example `std::domain_error`, which `krawczyk_approx` and `allsol` catch), the counter stays small, so affine variables made later share noise symbols with older ones and their dependencies are wrong.
