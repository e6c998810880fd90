{"id": "C01", "title": "Interval addition, subtraction and negation enclose", "statement": "For intervals X and Y and reals x in X, y in Y, the interval returned by X+Y contains x+y, X-Y contains x-y and -X contains -x; the mixed forms with a scalar operand behave as if the scalar were the point interval. Endpoints may be infinite.", "quantifier": "for all base types with correct directed rounding, all pairs of intervals (finite or infinite endpoints), all reals inside them", "why_tests_cant": "There are about 2^256 pairs of double intervals (plus infinities and NaN); tests sample a few of them and rounding bugs live in isolated points.", "anchors": ["kv/interval.hpp: operator+, operator-, unary operator-", "kv/rdouble-hwround.hpp: add_up, add_down, sub_up, sub_down"]}
{"id": "C02", "title": "Interval multiplication encloses, infinities included", "statement": "For intervals X and Y and reals x in X, y in Y the interval X*Y contains x*y, in every sign combination and also when endpoints are infinite or zero (no 0*inf leaks into an endpoint); scalar*interval and interval*scalar likewise for non-NaN scalars.", "quantifier": "for all base types with correct directed rounding, all pairs of intervals, all reals inside them", "why_tests_cant": "There are about 2^256 pairs of double intervals (plus infinities and NaN); tests sample a few of them and rounding bugs live in isolated points.", "anchors": ["kv/interval.hpp: operator*", "kv/rdouble-hwround.hpp: mul_up, mul_down"]}
{"id": "C03", "title": "Interval division encloses or throws", "statement": "X/Y throws domain_error whenever Y contains zero, and otherwise, for every x in X and y in Y, the result contains x/y; the same for scalar/interval and interval/scalar. It never throws when Y is a nonempty interval without zero.", "quantifier": "for all base types with correct directed rounding, all pairs of intervals, all reals inside them", "why_tests_cant": "There are about 2^256 pairs of double intervals (plus infinities and NaN); tests sample a few of them and rounding bugs live in isolated points.", "anchors": ["kv/interval.hpp: operator/", "kv/rdouble-hwround.hpp: div_up, div_down"]}
{"id": "C04", "title": "Basic interval operations are optimal for double", "statement": "For finite nonempty intervals of doubles each endpoint of X+Y, X-Y, X*Y, X/Y is the best possible: the lower endpoint is the largest double (or -infinity) not above the exact minimum of the operation over the box X x Y, and the upper endpoint the smallest double (or +infinity) not below the exact maximum.", "quantifier": "for all finite nonempty intervals of doubles", "why_tests_cant": "Optimality is a statement about every double between the computed endpoint and the exact bound, for every input.", "anchors": ["kv/interval.hpp: operator+, operator-, operator*, operator/"]}
{"id": "C05", "title": "Interval square root encloses or throws", "statement": "sqrt(X) throws domain_error exactly when the lower endpoint is negative; otherwise for every real x in X the result contains the square root of x, and for double each endpoint is the correctly rounded root of the corresponding endpoint.", "quantifier": "for all intervals with any endpoints and all reals inside", "why_tests_cant": "Tests compare against another floating-point sqrt and cannot cover all 2^64 endpoints.", "anchors": ["kv/interval.hpp: sqrt", "kv/rdouble-hwround.hpp: sqrt_up, sqrt_down"]}
{"id": "C06", "title": "Interval comparisons mean 'certainly'", "statement": "X<Y, X<=Y, X>Y, X>=Y return true exactly when the relation holds for every pair of reals in X and Y; X==Y returns true exactly when both are the same single point; X!=Y returns true exactly when the two have no common point (for nonempty intervals). If an endpoint involved is NaN every comparison except != is false.", "quantifier": "for all pairs of nonempty intervals and all pairs of reals in them", "why_tests_cant": "The claim quantifies over every pair of members of both intervals.", "anchors": ["kv/interval.hpp: operator<, operator<=, operator>, operator>=, operator==, operator!="]}
{"id": "C07", "title": "Set predicates and set operations", "statement": "in, zero_in, subset, proper_subset and overlap decide exactly membership, inclusion, strict inclusion and non-disjointness of the denoted sets; hull(X,Y) is the smallest interval containing both and intersect(X,Y) denotes exactly the common points (it may be an inverted, empty interval).", "quantifier": "for all intervals of non-NaN endpoints and all reals", "why_tests_cant": "Set equality quantifies over all reals.", "anchors": ["kv/interval.hpp: in, zero_in, subset, proper_subset, overlap, hull, intersect"]}
{"id": "C08", "title": "mid lies inside", "statement": "For every finite interval of doubles mid(X) is a finite double inside X: it neither overflows for huge endpoints of equal or opposite sign nor is pushed outside by underflow.", "quantifier": "for all finite doubles lower <= upper", "why_tests_cant": "Requires all 2^128 endpoint pairs, in particular subnormal and near-overflow combinations.", "anchors": ["kv/interval.hpp: mid, median"]}
{"id": "C09", "title": "rad, width and midrad bound the interval", "statement": "width(X) is an upper bound of the distance of any two points, rad(X) of half of it, and (m,r)=midrad(X) satisfies |x-m| <= r for every x in X.", "quantifier": "for all intervals and all reals in them", "why_tests_cant": "Rounded-up differences must dominate for all inputs.", "anchors": ["kv/interval.hpp: width, rad, midrad"]}
{"id": "C10", "title": "norm/mag, mig and abs", "statement": "mag(X) is the maximum and mig(X) the minimum of |x| over X, and abs(X) is exactly the set of |x|; max, min, floor and ceil of intervals contain the pointwise results.", "quantifier": "for all nonempty intervals and all reals in them", "why_tests_cant": "Needs a maximum over infinitely many points for every interval.", "anchors": ["kv/interval.hpp: norm, mag, mig, abs, max, min, floor, ceil"]}
{"id": "C11", "title": "Integer power encloses", "statement": "pow(X,n) contains x^n for every x in X and every int n other than INT_MIN, including negative n (throws if 0 is in X^|n|), even n over sign-changing X, and overflow to infinity.", "quantifier": "for all intervals, all ints n != INT_MIN, all reals in X (x != 0 if n<0)", "why_tests_cant": "All exponents and intervals; the repeated squaring accumulates rounding and overflow.", "anchors": ["kv/interval.hpp: pow, pow_point, ipower"]}
{"id": "C12", "title": "Extended division covers all quotients", "statement": "division_part1(X,Y) and division_part2(X,Y) together contain x/y for every x in X and every nonzero y in Y; they throw exactly when Y=[0,0].", "quantifier": "for all intervals X, Y, all x in X, nonzero y in Y", "why_tests_cant": "Quantifies over all real quotients including unbounded ones.", "anchors": ["kv/interval.hpp: division_part1, division_part2"]}
{"id": "C13", "title": "Extended division covers all solutions of y*z=x", "statement": "Every real z with y*z=x for some x in X and y in Y (including y=0) is in division_part1(X,Y) or division_part2(X,Y); this is what the trimming step of the solvers needs. (Turns out to be violated: when X=[0,0] and 0 is in Y the result is [0,0] although every z is a solution.)", "quantifier": "for all intervals X, Y with Y != [0,0], all reals z", "why_tests_cant": "A universal statement over real triples; its failure needs an exactly-zero numerator which random tests never produce.", "anchors": ["kv/interval.hpp: division_part1, division_part2", "kv/allsol.hpp: trim step"]}
{"id": "C14", "title": "exp encloses", "statement": "For every interval X of doubles and real x in X, if exp(X) returns, the result contains e^x (also for infinite endpoints and overflow); expm1 likewise.", "quantifier": "for all intervals of doubles and all reals in them", "why_tests_cant": "Needs truncation-error and rounding analysis for every argument; tests compare with an approximate value at sample points.", "anchors": ["kv/interval.hpp: exp, exp_point, expm1, expm1_origin"]}
{"id": "C15", "title": "log encloses or throws", "statement": "log(X) throws for negative lower endpoint and otherwise, when it returns, contains ln x for every x>0 in X; log1p likewise.", "quantifier": "for all intervals of doubles and all reals in them", "why_tests_cant": "As for exp.", "anchors": ["kv/interval.hpp: log, log_point, log1p, log1p_origin"]}
{"id": "C16", "title": "sin, cos enclose", "statement": "When sin(X) or cos(X) returns, the result contains sin x (cos x) for every x in X, including arguments far from zero, wide intervals covering several periods and intervals with an extremum strictly inside or exactly at a rounded endpoint.", "quantifier": "for all intervals of doubles and all reals in them", "why_tests_cant": "Range reduction and extremum detection must be right for every double; tests sample.", "anchors": ["kv/interval.hpp: sin, cos, sin_point, cos_point, sin_origin, cos_origin"]}
{"id": "C17", "title": "tan, atan, asin, acos enclose", "statement": "When they return, tan(X), atan(X), asin(X), acos(X) contain the exact image of every point of X in the domain; asin and acos throw outside [-1,1].", "quantifier": "for all intervals of doubles and all reals in them", "why_tests_cant": "As for sin.", "anchors": ["kv/interval.hpp: tan, tan_point, atan, atan_point, asin, asin_point, acos, acos_point"]}
{"id": "C18", "title": "sinh, cosh, tanh, asinh, acosh, atanh enclose", "statement": "When they return, the hyperbolic functions and their inverses contain the exact image of every point of X in the domain.", "quantifier": "for all intervals of doubles and all reals in them", "why_tests_cant": "As for exp.", "anchors": ["kv/interval.hpp: sinh, cosh, tanh, asinh, acosh, atanh and their _point/_origin helpers"]}
{"id": "C19", "title": "Built-in constants enclose", "statement": "constants<interval<double>>::pi(), e(), ln2() contain the mathematical constants pi, e, ln 2.", "quantifier": "a statement about real numbers, not sampled values", "why_tests_cant": "A test can only compare with another rounded value.", "anchors": ["kv/constants.hpp", "kv/interval.hpp: constants<interval<T>>"]}
{"id": "C20", "title": "Emulated directed rounding equals hardware directed rounding", "statement": "With KV_NOHWROUND the functions add_up, add_down, sub_up, sub_down, mul_up, mul_down, div_up, div_down, sqrt_up, sqrt_down of rop<double>, computed with round-to-nearest only, return an upper (lower) bound of the exact result for all operands, subnormal, huge and infinite ones included.", "quantifier": "for all pairs of doubles", "why_tests_cant": "2^128 operand pairs; the hard cases are isolated subnormal and overflow corners.", "anchors": ["kv/rdouble-nohwround.hpp: succ, pred, twosum, twoproduct, add_up, sub_up, mul_up, div_up, sqrt_up and _down versions"]}
{"id": "C21", "title": "Error-free transformations", "statement": "twosum(a,b) returns (x,y) with x=fl(a+b) and x+y=a+b exactly for all finite doubles without overflow; twoproduct(a,b) returns x=fl(ab), x+y=ab exactly when no underflow/overflow occurs.", "quantifier": "for all finite doubles in the stated range", "why_tests_cant": "All 2^128 pairs; exactness is an algebraic identity on bit patterns.", "anchors": ["kv/dd.hpp: twosum, split, twoproduct", "kv/rdouble-nohwround.hpp"]}
{"id": "C22", "title": "dd directed rounding bounds the exact result", "statement": "rop<dd>::add_up/sub_up/mul_up/div_up/sqrt_up return a value not below, and the _down versions not above, the exact result, so that interval<dd> encloses.", "quantifier": "for all pairs of finite dd values without overflow", "why_tests_cant": "2^256 operand pairs.", "anchors": ["kv/rdd-hwround.hpp", "kv/dd.hpp"]}
{"id": "C23", "title": "Decimal output rounds outward", "statement": "Printing an interval<double> with any precision prints a decimal interval containing the binary one: the printed lower number is <= lower and the printed upper number is >= upper, as exact decimal numbers.", "quantifier": "for all finite doubles, all output formats and precisions >= 1", "why_tests_cant": "Every double and every precision.", "anchors": ["kv/conv-double.hpp: dtostring", "kv/rdouble.hpp: print_up, print_down"]}
{"id": "C24", "title": "Decimal input rounds outward", "statement": "interval<double>(\"...\") built from a decimal literal contains the exact decimal value: stringtod with direction up (down) returns a double >= (<=) the value of the literal, including under- and overflow.", "quantifier": "for all decimal literals", "why_tests_cant": "Infinitely many literals of any length.", "anchors": ["kv/conv-double.hpp: stringtod", "kv/interval.hpp: string constructor"]}
{"id": "C25", "title": "Print-then-parse never loses points", "statement": "Reading back the printed form of an interval<double> with the string constructors yields an interval containing the original one.", "quantifier": "for all finite intervals of doubles and precisions >= 1", "why_tests_cant": "Composition over every double and precision.", "anchors": ["kv/conv-double.hpp: dtostring, stringtod"]}
{"id": "C26", "title": "Forward automatic differentiation is correct", "statement": "Evaluating a function built from the overloaded operators on autodif variables yields its exact value and gradient (over a field), and over intervals an enclosure of the value and of every partial derivative at every point of the box.", "quantifier": "for all expressions, all points and all boxes", "why_tests_cant": "Needs all expressions (structural induction) and all points.", "anchors": ["kv/autodif.hpp"]}
{"id": "C27", "title": "Verified linear solver encloses the solution", "statement": "If vleq(A,b,x) returns true then every matrix in A is nonsingular and x contains the solution of Mz=c for all M in A, c in b. (Turns out to be violated when intermediate results overflow; holds when the error matrix and x are bounded.)", "quantifier": "for all interval matrices and right-hand sides and every approximate inverse the LU step may produce", "why_tests_cant": "Quantifies over all matrices inside an interval matrix and over arbitrary (even wrong) approximate inverses.", "anchors": ["kv/vleq.hpp"]}
{"id": "C28", "title": "Krawczyk verification proves a unique zero", "statement": "If krawczyk_approx(f,c,result,..) returns true then f has exactly one zero in the verification box and it is in result. (Turns out to be violated when the verification box is unbounded; holds for bounded results.)", "quantifier": "for all C1 functions with sound interval extensions and all approximate starting points", "why_tests_cant": "Existence and uniqueness of a real zero cannot be observed by running the program.", "anchors": ["kv/kraw-approx.hpp"]}
{"id": "C29", "title": "allsol_simple loses no zero", "statement": "Every zero of f in the initial box is in one of the boxes returned by allsol_simple or in a box reported as too small. (Turns out to be violated when the approximate inverse overflows.)", "quantifier": "for all functions with sound extensions, all initial boxes of finite width, all executions", "why_tests_cant": "Zeros may lie anywhere in a continuum; non-existence tests prune boxes.", "anchors": ["kv/allsol-simple.hpp"]}
{"id": "C30", "title": "Boxes returned by the all-solutions search contain exactly one zero", "statement": "Each box returned by allsol_simple contains exactly one zero of f, which is the only one in the larger box where it was found; the returned boxes are disjoint.", "quantifier": "for all functions with sound extensions, all initial boxes of finite width, every approximate inverse", "why_tests_cant": "Uniqueness over a continuum.", "anchors": ["kv/allsol-simple.hpp"]}
{"id": "C31", "title": "The trimming all-solutions search loses no zero", "statement": "Every zero of f in one of the initial boxes (which may be unbounded) is in a box returned by allsol (default options) or in the give-up list. (Turns out to be violated: the trimming step may declare a box empty although it contains a regular zero, when a numerator is exactly [0,0]; and zeros are lost when the approximate inverse overflows.)", "quantifier": "for all functions with sound extensions, all nonempty initial boxes, every approximate inverse", "why_tests_cant": "The violation needs an exactly zero residual and an already trimmed component.", "anchors": ["kv/allsol.hpp: allsol, allsol_list"]}
{"id": "C32", "title": "Parallel work-list termination", "statement": "With OpenMP, no worker of allsol stops while there is an unprocessed box or another worker may still produce one, for every interleaving of the workers; so when all workers have stopped every box was processed.", "quantifier": "for all numbers of threads and all interleavings", "why_tests_cant": "Schedules cannot be enumerated by tests.", "anchors": ["kv/allsol.hpp: omp critical sections, count_unknown"]}
{"id": "C33", "title": "Global minimisation keeps every minimiser", "statement": "Every global minimiser of f over a bounded initial box is in a box returned by optimize/minimize; the returned boxes lie in the initial box, are narrower than the limit when they are not merged and have no common points when they are merged. minimize_value returns an interval containing the minimum. The same holds for maximize with maximisers.", "quantifier": "for all functions with sound interval extensions and derivatives, all bounded boxes, all width limits and both settings of unify, whenever the call returns", "why_tests_cant": "Quantifies over all functions and all points of a continuum.", "anchors": ["kv/optimize.hpp"]}
{"id": "C34", "title": "Affine arithmetic encloses (linear and nonlinear operations)", "statement": "For affine forms, the operations + - * / (form with form, form with number, number with form), unary minus, square, inv, sqrt, exp, log, sin, cos, tan, asin, acos, sinh, cosh, tanh, asinh, acosh, atanh and both versions of pow: if some values in [-1,1] of the noise symbols reproduce the exact operands, then the operation is defined for them and there are values in [-1,1] for the newly made noise symbols, the old ones keeping theirs, which reproduce the exact result (unless the returned form overflowed).", "quantifier": "for all finite affine forms, all noise assignments, all numbers of noise symbols and any accuracy of the C library's exp and log", "why_tests_cant": "Quantifies over all noise vectors.", "anchors": ["kv/affine.hpp"]}
{"id": "C35", "title": "Affine atan and abs enclose", "statement": "The affine forms returned by atan(x) and abs(x) contain the exact values for all noise assignments. (Both turn out to be violated: atan uses the slope 1/sqrt(1+x^2) and abs evaluates the chord error without directed rounding.)", "quantifier": "for all affine forms and all noise assignments", "why_tests_cant": "Violations of abs are one unit in the last place and need exactly representable operands.", "anchors": ["kv/affine.hpp: atan, abs"]}
{"id": "C36", "title": "Affine conversions and noise-symbol reduction keep enclosure", "statement": "to_interval(x) contains every value of the form; affine(I) contains every point of I with one new noise symbol; epsilon_reduce and epsilon_reduce2 keep every joint value of a vector of forms, whatever order std::partial_sort produces.", "quantifier": "for all forms and noise assignments", "why_tests_cant": "Quantifies over all noise vectors jointly for a vector of forms.", "anchors": ["kv/affine.hpp: to_interval, constructors, epsilon_reduce, epsilon_reduce2"]}
{"id": "C37", "title": "Power series arithmetic computes Taylor coefficients", "statement": "In mode 1 every function built from the psa operations and functions (including the inverse trigonometric and hyperbolic ones, pow and integrate) returns the truncated Taylor series: if the arguments have m coefficients containing the Taylor coefficients of functions g_i(t), every coefficient of the result contains the corresponding Taylor coefficient of e(g_1(t),..); with exact coefficients it equals it. Arguments of logarithms must be positive at t=0 if m = 1 (with m at least 2 only the constant ones; the others throw). Mode, domain and the history switches are as before.", "quantifier": "for all functions, series, orders and parameters", "why_tests_cant": "All orders and all coefficient intervals.", "anchors": ["kv/psa.hpp"]}
{"id": "C38", "title": "Power series arithmetic with remainder encloses the function", "statement": "In mode 2, for a domain that contains 0, the series returned by +,-,*,/,pow,integrate,setorder,exp,log,sqrt,sin.. (all functions but the inverse ones, see C39) encloses the exact function on the whole domain: there are fixed numbers in all coefficients but the last such that for every t the exact value is attained with some number in the last one; eval and evalrange contain the value. (For domains without 0 it is violated.)", "quantifier": "for all functions, series, orders, domains containing 0 and all t in the domain", "why_tests_cant": "All t of a continuum.", "anchors": ["kv/psa.hpp"]}
{"id": "C39", "title": "Power series atan family with remainder encloses", "statement": "In mode 2 atan, asin, acos, asinh, acosh, atanh of a series enclose the exact function for all t in the domain. (Turns out to be violated: the remainder is evaluated over the range of x instead of the range of x minus its constant term.)", "quantifier": "for all series, domains and t", "why_tests_cant": "Most tests use expansions around 0 where the two ranges agree.", "anchors": ["kv/psa.hpp: atan, asin, acos, asinh, acosh, atanh"]}
{"id": "C40", "title": "Complex interval arithmetic encloses", "statement": "complex<interval> +,-,*,/ (two complex operands or one real operand), pow(int), abs, arg, exp, sin, cos, tan, sinh, cosh, tanh enclose the exact complex results for all members, whenever they return; log, sqrt, pow, asin, acos, atan, asinh, acosh, atanh enclose a value of the (many-valued) function, the principal one for log unless the rectangle reaches from below up to the negative real axis.", "quantifier": "for all rectangles of doubles and all members", "why_tests_cant": "Quantifies over all complex members.", "anchors": ["kv/complex.hpp"]}
{"id": "C41", "title": "Geometric series bound", "statement": "geoseries(I) for I inside (-1,1) contains 1+r1+r2*r1+r3*r2*r1+... for every sequence r_i in I.", "quantifier": "for all intervals inside (-1,1) and all sequences in it", "why_tests_cant": "Quantifies over infinite sequences.", "anchors": ["kv/geoseries.hpp"]}
{"id": "C42", "title": "The floating-point rounding mode is restored on every exit", "statement": "Every interval operation on double leaves the hardware rounding mode at round-to-nearest, whether it returns or throws, and computes the same result as with ideal directed operations.", "quantifier": "for all operands, including those that throw", "why_tests_cant": "Throwing paths for all operands.", "anchors": ["kv/interval.hpp: begin/end calls", "kv/rdouble-hwround.hpp", "kv/hwround.hpp"]}
{"id": "C43", "title": "Interval base-type conversion encloses", "statement": "Converting an interval between base types (double, dd, mpfr<N>) by assignment or by the functions of interval-conv.hpp yields an interval containing the original; dd to double gives the smallest such interval. (Turns out to be violated for mpfr to dd when an endpoint is infinite or beyond the largest double: the endpoint becomes NaN; and for idoubletoimpfr with N < 53, which rounds both endpoints to nearest.)", "quantifier": "for all intervals, bounded or not, and all precisions N", "why_tests_cant": "All dd values.", "anchors": ["kv/interval-conv.hpp", "kv/interval-converter.hpp"]}
{"id": "C44", "title": "Verified LP bound", "statement": "lp_minimize_verified(objective, constraints, -1) returns a number that is not larger than the objective at any feasible point; with 1 it returns a number that is not smaller than the optimum. (Violated: overflow on the way gives a wrong lower bound; a degenerate constraint gives a wrong upper bound without any overflow.)", "quantifier": "for all objective and constraint data (constraints not longer than the objective) and any pivoting path", "why_tests_cant": "Bounds must hold for every program irrespective of rounding during pivoting.", "anchors": ["kv/lp.hpp: lp_minimize_verified"]}
{"id": "C45", "title": "ODE step with remainder encloses the solution", "statement": "If ode(f,init,start,end,..) returns nonzero and the returned intervals are bounded, then for every x0 in init, t0 in start and t1 in the returned end (t0<=t1) at which f is defined, the solution of x'=f(x,t), x(t0)=x0 exists up to t1, is unique, its value at t1 is in the returned interval and the power series returned through result_psa encloses it in between. (Without the boundedness the property is violated: the candidate may overflow to [-inf,inf], which is included in itself, and ode then reports success for solutions that blow up.)", "quantifier": "for all right-hand sides built from the psa operations, all initial boxes, all times, all orders and step-size settings", "why_tests_cant": "Existence of the exact solution and inclusion for all initial values.", "anchors": ["kv/ode.hpp", "kv/psa.hpp"]}
{"id": "C46", "title": "Nested evaluation leaves the power-series mode unchanged", "statement": "After a normal return, ode and highderiv leave the two history switches of psa as before the call and the global mode as before if it was 0 or 1. (The property for all modes and for exceptional exits is violated: the mode 1/2 is saved in a bool, so mode 2 comes back as mode 1, and nothing is restored when the right-hand side throws.)", "quantifier": "for all previous modes and all right-hand sides", "why_tests_cant": "State before the call and exceptional exits must be quantified.", "anchors": ["kv/ode.hpp: save_mode", "kv/highderiv.hpp: save_mode", "kv/psa.hpp: mode"]}
{"id": "C47", "title": "log returns for every positive finite argument", "statement": "log(X) returns for every interval with positive finite endpoints. (Turns out to be violated: it loops for ever when the lower endpoint is at least 2^1023 or the upper endpoint is below 2^-1024.)", "quantifier": "for all intervals with positive finite endpoints", "why_tests_cant": "Non-termination near the ends of the exponent range is not seen by sampled arguments, and a hanging test gives no verdict.", "anchors": ["kv/interval.hpp: log, log_point"]}
{"id": "C48", "title": "sin and cos return for every finite argument", "statement": "sin(X) and cos(X) return for every interval with finite endpoints. (Turns out to be violated: the argument DBL_MAX makes the range reduction overflow to NaN, and the series loop then never ends normally.)", "quantifier": "for all intervals with finite endpoints", "why_tests_cant": "As for C47.", "anchors": ["kv/interval.hpp: sin, cos, sin_origin, cos_origin"]}
{"id": "C49", "title": "Built-in constants are right in every thread", "statement": "Every call of constants<interval<double>>::e(), from any thread and at any time, returns an interval containing e. (Turns out to be violated for the first, overlapping calls: the static cache variable doubles as the accumulator, so another thread can return a partial sum, and two threads can leave a wrong value in the cache for good. Holds for calls that do not overlap and after a completed first call.)", "quantifier": "for all numbers of threads and all interleavings", "why_tests_cant": "Needs all schedules; a test sees a few.", "anchors": ["kv/interval.hpp: constants<interval<T>>::e"]}
{"id": "C50", "title": "atan2 encloses an argument of every point", "statement": "When atan2(Y, X) returns, the result contains a polar angle of every point (x,y) of the box X x Y other than the origin, including boxes that cross the branch cut or touch the axes.", "quantifier": "for all pairs of intervals of doubles and all points of the box", "why_tests_cant": "Case analysis over the position of the box and rounding of every corner; tests sample boxes.", "anchors": ["kv/interval.hpp: atan2, atan2_point"]}
{"id": "C51", "title": "dd comparisons agree with the order of the values", "statement": "For dd numbers produced by the library (normalised pairs), a<b, a<=b and a==b hold exactly when the real values of the pairs are so related; a NaN compares false.", "quantifier": "for all pairs of normalised finite dd values, and for NaN", "why_tests_cant": "2^256 operand pairs; the comparison looks at the second component only on ties of the first.", "anchors": ["kv/dd.hpp: operator<, operator<=, operator=="]}
{"id": "C52", "title": "dd floor and ceil are exact", "statement": "floor(x) (ceil(x)) of a dd number is the greatest integer not above (least integer not below) its value, returned as a normalised pair.", "quantifier": "for all normalised finite dd values", "why_tests_cant": "The borrow between the two components matters only for rare inputs, such as a leading component that is an integer and a tiny negative tail.", "anchors": ["kv/dd.hpp: floor, ceil"]}
{"id": "C53", "title": "Global minimisation ends", "statement": "For a bounded box and a positive width limit larger than the spacing of doubles in the box, minimize returns.", "quantifier": "for all functions, boxes and limits", "why_tests_cant": "Termination of a work list over an unbounded number of steps.", "anchors": ["kv/optimize.hpp: optimize"]}
{"id": "C54", "title": "Mixed operations with integers enclose", "statement": "X + n for a C++ integer n (any type convertible to double) contains x + n for every x in X. (Turns out to be violated for 64-bit integers above 2^53 in absolute value: n is converted to double in the mode that is set, and the rounded value is used for both endpoints.)", "quantifier": "for all intervals of doubles, members and integers", "why_tests_cant": "Needs large integers that are not doubles; tests use small constants.", "anchors": ["kv/interval.hpp: operator+ with a numeric operand", "kv/convert.hpp"]}
{"id": "C55", "title": "Compound assignment means the binary operation", "statement": "x += y, x -= y, x *= y, x /= y give the value of x + y etc. for every y, also when y is an endpoint or a part of x itself. (Turns out to be violated: x += x.lower() reads the endpoint after it was overwritten and loses points; z *= z.real() for complex z likewise.)", "quantifier": "for all targets and operands, including operands that are parts of the target", "why_tests_cant": "Aliasing of operand and target is not exercised by tests with separate variables.", "anchors": ["kv/interval.hpp: operator+=, operator-=", "kv/complex.hpp: operator*=, operator/="]}
{"id": "C56", "title": "highderiv, HighDeriv and PartialDeriv enclose the derivatives", "statement": "highderiv(f,x,n) returns n+1 intervals, and for every real point of x the k-th one contains the k-th derivative of f there (divided by k! with divfact); HighDeriv and PartialDeriv contain the n-th derivative and the partial derivative. f is smooth at all points of x.", "quantifier": "for all functions built from the psa operations, orders, intervals and points in them", "why_tests_cant": "Derivatives at all points of an interval, for every function and order.", "anchors": ["kv/highderiv.hpp: highderiv, HighDeriv, PartialDeriv", "kv/psa.hpp"]}
{"id": "C57", "title": "Integration over many steps encloses the solution", "statement": "If odelong(f,init,start,end,..) with a number as start and an end not before it returns nonzero, then the returned end is not before the start, it is the given end if 2 is returned, and for every x0 in init and every t1 in the returned end every solution of x'=f(x,t), x(start)=x0 on [start,t1] has its value at t1 in the returned interval and is unique; if the returned intervals are bounded, the solution exists.", "quantifier": "for all right-hand sides built from the psa operations and defined at the initial point, all initial boxes, all end times not before the start, all orders and tolerances, any number of steps", "why_tests_cant": "Existence and enclosure of the exact solution over an unbounded number of adaptive steps, for all initial values.", "anchors": ["kv/ode.hpp", "kv/psa.hpp"]}
{"id": "C58", "title": "Range bounding of whole functions with affine arithmetic", "statement": "If a function template built from the arithmetic operations and elementary functions (except atan) is called with the affine forms of a box and the interval of the result is taken, then that interval, if it is one (no NaN), contains the exact value at every point of the box; if it is bounded, the function is defined on the whole box.", "quantifier": "for all expressions, all boxes and all points in them", "why_tests_cant": "Quantifies over all expressions and over all real points of the box; correlation of noise symbols through arbitrarily many operations.", "anchors": ["kv/affine.hpp"]}
{"id": "C59", "title": "split and append of affine forms", "statement": "split(x,n,y,z) divides every value of x into a value of y (noise symbols up to n) and a value of z (the others); append(y,z) gives x back; append(x,y) of forms without common noise symbols represents the sum. (The last part is violated: the centres are added with rounding to nearest and the error is dropped.)", "quantifier": "for all finite forms and all noise assignments", "why_tests_cant": "The lost rounding error is half a unit in the last place, and only an exact argument shows that it is covered by nothing else.", "anchors": ["kv/affine.hpp: split, append", "kv/ode-affine.hpp", "kv/ode-affine-wrapper.hpp"]}
{"id": "C60", "title": "Decimal output is accurate", "statement": "The decimal number printed for a finite double differs from it by at most the distance of two neighbouring numbers that the chosen format and precision can print (fixed: 10^-p; scientific and general: one unit of the last digit of the double's decade), and by at most half of it with rounding to nearest.", "quantifier": "for all finite doubles, all formats, all precisions >= 1, all directions", "why_tests_cant": "Every double and every precision, including carries that run through all digits.", "anchors": ["kv/conv-double.hpp: dtostring"]}
{"id": "C61", "title": "Literals that are doubles are converted exactly", "statement": "interval<double>(\"s\"), for a decimal literal s whose value is a double, is the point interval of that double. (Violated: the rounding direction is applied whenever more than 53 bits are present, even if the rest is zero.)", "quantifier": "for all decimal literals whose value is a double", "why_tests_cant": "Infinitely many literals of any length.", "anchors": ["kv/conv-double.hpp: stringtod", "kv/interval.hpp: string constructor"]}
{"id": "C62", "title": "Boxes returned by the trimming all-solutions search contain exactly one zero", "statement": "Each box returned by allsol (default options) contains a zero of f, which is the only one in the larger box where it was found; the returned boxes are disjoint.", "quantifier": "for all functions with sound extensions, all nonempty initial boxes (also unbounded), every approximate inverse", "why_tests_cant": "Uniqueness over a continuum; derivatives of the untrimmed box are used for the trimmed and inflated box.", "anchors": ["kv/allsol.hpp: allsol, allsol_list"]}
{"id": "C63", "title": "defint encloses the integral", "statement": "If defint(f, start, end, order, n) returns, then f is defined and smooth between any a in start and b in end, and the result contains the integral of f from a to b, for all values of interval constants in f.", "quantifier": "for all integrands built from the operations of psa (without inverse functions asin, acos, atan ...), all intervals start and end, orders from 1, numbers of pieces from 1", "why_tests_cant": "The exact integral of an arbitrary integrand is not available to a test; remainder terms must cover all points of a continuum.", "anchors": ["kv/defint.hpp: defint"]}
{"id": "C64", "title": "defint_autostep encloses the integral whatever steps it takes", "statement": "If defint_autostep(f, start, end, order, epsilon) returns, then f is defined and smooth between any a in start and b in end, and the result contains the integral of f from a to b.", "quantifier": "for all integrands as in C63, start and end with bounds up to 2^1000, orders from 1, epsilon not negative, every implementation of std::pow which does not return negative numbers for nonnegative ones", "why_tests_cant": "The sequence of steps depends on rounding, on exceptions of the integrand and on std::pow; Taylor coefficients of an earlier evaluation are reused.", "anchors": ["kv/defint.hpp: defint_autostep"]}
{"id": "C65", "title": "besselj(n, x) encloses Bessel's integral", "statement": "If besselj(int n, interval x) returns, then the result contains 1/pi times the integral of cos(t sin s - n s) over s from 0 to pi for every t in x.", "quantifier": "for all integers n, all intervals x", "why_tests_cant": "Bessel functions at all points of an interval.", "anchors": ["kv/bessel.hpp: besselj(int, interval)"]}
{"id": "C66", "title": "Integration leaves the global switches of psa as they were", "statement": "After defint or defint_autostep the static members mode, use_history and record_history of psa have the values they had before. (Turns out to be violated in mode 2 and when the integrand throws.)", "quantifier": "for all integrands, intervals and states of the switches", "why_tests_cant": "Depends on the state left behind on every path, including exceptions.", "anchors": ["kv/defint.hpp: defint, defint_autostep"]}
{"id": "C67", "title": "smith_error and vdka lose no zero of the polynomial", "statement": "Every zero of every polynomial whose coefficients lie in the given boxes is in one of the boxes which smith_error(p, x) returns, whatever finite approximations x are passed; smith_error always returns. The same holds for vdka, which returns false if the leading coefficient may be zero.", "quantifier": "for all degrees from 1, all boxes for the coefficients, all polynomials within them, all finite approximations", "why_tests_cant": "The zeros of an arbitrary polynomial, and of all polynomials in a box of coefficients, are not known to a test; the approximations may be arbitrarily bad.", "anchors": ["kv/dka.hpp: smith_error", "kv/dka.hpp: vdka", "kv/dka.hpp: eval_polynomial"]}
{"id": "C68", "title": "Every box returned by smith_error contains a zero", "statement": "Every box returned by smith_error contains a zero of every polynomial with coefficients in the given boxes; if the boxes are pairwise disjoint, exactly one each. (The first part turns out to be violated if boxes overlap.)", "quantifier": "for all polynomials, all coefficients in the boxes, all finite approximations", "why_tests_cant": "Existence and uniqueness of zeros for all polynomials; needs arguments of complex analysis, and unlucky overlaps of several boxes.", "anchors": ["kv/dka.hpp: smith_error"]}
{"id": "C69", "title": "hypergeom encloses the Gauss hypergeometric function", "statement": "Whenever hypergeom(a, b, c, z) returns, the result contains the value of the Gauss hypergeometric series for all parameters in the four argument intervals; the series converges there and no value of c in its interval is a non-positive integer. (It turns out that the call never returns if z may have absolute value 1 or more, also where the series converges or is a polynomial.)", "quantifier": "for all argument intervals, all parameters in them, any number of rounds", "why_tests_cant": "The tail of the series is bounded by an interval version of the ratio of all later terms; a test compares a few values, for which a wrong tail bound is far below the rounding errors.", "anchors": ["kv/hypergeom.hpp: hypergeom", "kv/geoseries.hpp: geoseries"]}
{"id": "C70", "title": "Newton-Cotes integration encloses the integral", "statement": "Whenever defint_newtoncotes(f, start, end, n, m) returns an interval, f is smooth between all numbers a in start and b in end, and the interval contains the integral of f from a to b; for every order n from 1 to 7, every number m of subintervals (also the automatically chosen one), every tolerance for the error term, and also if b < a. (It turns out to be false for the orders 3, 5 and 7, and for negative m.)", "quantifier": "for all functions f built from the supported operations, all intervals start and end, all orders n and numbers of points m, and all numbers a and b in start and end", "why_tests_cant": "The error term is a bound of a high derivative over the whole interval times a constant per formula; a wrong constant is invisible for all functions and step sizes for which the range of the derivative is wide, and a test sees single functions only.", "anchors": ["kv/defint-newtoncotes.hpp: defint_newtoncotes", "kv/optimize.hpp: minimize_value", "kv/highderiv.hpp: HighDeriv"]}
{"id": "C71", "title": "veig encloses the eigenvalues of a matrix", "statement": "Whenever veig(A, v) returns true, every eigenvalue of the matrix A is contained in one of the complex intervals v(i); for matrices where the verification is impossible it returns false.", "quantifier": "for all real square matrices, all eigenvalues", "why_tests_cant": "The enclosure of the eigenvalues is a statement about the exact spectrum; a test with random matrices compares with the same approximate eigenvalues, and the failures need a block structure (a real or complex pair in front of another eigenvalue) or nearly defective matrices.", "anchors": ["kv/eig.hpp: veig", "kv/eig.hpp: eig", "kv/eig.hpp: francisQR", "kv/eig.hpp: eig2by2", "kv/vleq.hpp: vleq"]}
{"id": "C72", "title": "cardano encloses a complete system of roots of a cubic", "statement": "cardano(in, out) returns false iff `in` does not have four elements or the box of the leading coefficient contains 0. Whenever it returns true, `out` has three boxes, and for every choice of complex coefficients from the boxes in(0..3) the polynomial equals in3*(z-r0)(z-r1)(z-r2) with r0, r1, r2 in out(0), out(1), out(2); in particular every root is enclosed, double and triple roots included.", "quantifier": "for all vectors of complex intervals, all coefficients in them, all roots", "why_tests_cant": "The formula takes square and cube roots whose branches cannot be fixed on boxes, and recombines them by testing which products may be right; whether the right combination is always kept is a statement about all boxes including those around 0 and across branch cuts. Tests try some polynomials with known roots.", "anchors": ["kv/cardano-ferrari.hpp: cardano", "kv/complex.hpp: pow", "kv/complex.hpp: sqrt"]}
{"id": "C73", "title": "ferrari encloses a complete system of roots of a quartic", "statement": "ferrari(in, out) returns false iff `in` does not have five elements or the box of the leading coefficient contains 0. Whenever it returns true, `out` has four boxes which contain a complete system of roots, with multiplicities, for every choice of coefficients from the boxes.", "quantifier": "for all vectors of complex intervals, all coefficients in them, all roots", "why_tests_cant": "As for C72: the branches of the roots and the signs chosen on boxes; the test for the leading coefficient matters only for special complex coefficients.", "anchors": ["kv/cardano-ferrari.hpp: ferrari", "kv/cardano-ferrari.hpp: cardano"]}
{"id": "C74", "title": "defint_power* encloses the integral of f(x)^p g(x) with an algebraic singularity at an end", "statement": "Whenever defint_power3(f, g, start, end, order, power, n) returns, then for all a in start, b in end with a < b, all p in power with n*p > -1 and all values of the interval constants for which f has a zero of order n at a (as documented): f is positive on (a,b], the integral of f(x)^p g(x) from a to b exists, and it is in the result. The same holds for defint_power ((x-a)^p f(x), for every a in start) and defint_power2, and for the variants _r with the singularity at the right end.", "quantifier": "for all integrands, all intervals, all powers, all orders at least 1, all multiplicities", "why_tests_cant": "The integrand is unbounded or not smooth at the end, the series is shifted by the multiplicity and integrated with a non-integer weight; that the interval coefficients, which differ from point to point, may be integrated term by term is a statement about all integrands. Tests compare some digits of known integrals.", "anchors": ["kv/defint-singular.hpp: defint_power3", "kv/defint-singular.hpp: defint_power", "kv/defint-singular.hpp: defint_power2", "kv/defint-singular.hpp: defint_power3_r", "kv/defint-singular.hpp: div_tn"]}
{"id": "C75", "title": "defint_log* encloses the integral of log(f(x)) g(x)", "statement": "Whenever defint_log3(f, g, start, end, order, n) returns, then for all a in start, b in end with a < b and all values of the interval constants for which f has a zero of order n at a: f is positive on (a,b], the integral of log(f(x)) g(x) from a to b exists, and it is in the result. The same for defint_log (log(x-a) f(x)), defint_log2 (log(f(x))) and the variants _r.", "quantifier": "for all integrands, all intervals, all orders at least 1, all multiplicities", "why_tests_cant": "As for C74; in addition the weight log changes its sign at distance 1 from the singularity, and then the error shows only for integrands whose remainder matters: the tests use short intervals and high orders.", "anchors": ["kv/defint-singular.hpp: defint_log3", "kv/defint-singular.hpp: defint_log", "kv/defint-singular.hpp: defint_log2", "kv/defint-singular.hpp: defint_log3_r"]}
{"id": "C76", "title": "defint_singular encloses integrals with a removable singularity", "statement": "Whenever defint_singular(f, start, end, order) returns, where f uses div_tn(e(x), n) for expressions e which vanish to the order n at the left end (n not above the order), then for all a in start, b in end with a < b and all values of the interval constants: every operation of f is defined on (a,b], the integral from a to b of f with the quotients e(x)/(x-a)^n in place of div_tn exists, and it is in the result. The same for defint_singular_r with quotients e(x)/(b-x)^n.", "quantifier": "for all integrands without inverse functions, all intervals, all orders at least 1, all numbers of quotients", "why_tests_cant": "div_tn drops coefficients and shifts the remainder of a series to a lower coefficient; the values of the shifted series at all points of the domain, and of everything computed from it, have to be those of the continuous extension of the quotient.", "anchors": ["kv/defint-singular.hpp: defint_singular", "kv/defint-singular.hpp: defint_singular_r", "kv/defint-singular.hpp: div_tn"]}
{"id": "C77", "title": "The variants of the singular integrators with automatic step size enclose the integrals", "statement": "Whenever defint_power_autostep, defint_power2_autostep, defint_log_autostep, defint_log2_autostep, defint_singular_autostep (or a variant _r) returns, the result contains the integral of the function, as for the variants with fixed interval (C74, C75, C76) on the first step and for defint_autostep (C64) on the rest.", "quantifier": "for all integrands, all intervals, all orders, all epsilon", "why_tests_cant": "The automatic step size reuses the Taylor coefficients of a first evaluation; whether these are the coefficients that the second evaluation would compute can only be seen on integrands where the remainder was moved by div_tn and a later operation uses it.", "anchors": ["kv/defint-singular.hpp: defint_power3_autostep", "kv/defint-singular.hpp: defint_power_autostep", "kv/defint-singular.hpp: defint_power2_autostep", "kv/defint-singular.hpp: defint_log3_autostep", "kv/defint-singular.hpp: defint_log2_autostep", "kv/defint-singular.hpp: defint_singular_autostep"]}
{"id": "C78", "title": "gamma encloses the gamma function", "statement": "Whenever gamma(X) returns, the result contains Γ(x) for every x in X that is not a pole (0, -1, -2, ..), for intervals of any width and sign.", "quantifier": "for all intervals of double numbers, all step-size functions std::pow that keep non-negative numbers non-negative, all orders of at least 1, any approximation of log 2 with 53 log 2 at least 1", "why_tests_cant": "The value is an improper integral with a singular weight, cut off at a rounded number, times or divided by a product of up to 2^31 factors; over wide intervals the result is only the hull of values at the ends and at the minimum, which is right because log Γ is convex between the poles. No test covers all numbers between the ends.", "anchors": ["kv/gamma.hpp: gamma", "kv/gamma.hpp: gamma_point", "kv/gamma.hpp: gamma_r"]}
{"id": "C79", "title": "lgamma encloses the logarithm of the absolute value of the gamma function", "statement": "Whenever lgamma(X) returns, the result contains log|Γ(x)| for every x in X that is not a pole (0, -1, -2, ..), for intervals of any width and sign, also with poles inside or at the ends.", "quantifier": "for all intervals of double numbers, all step-size functions std::pow that keep non-negative numbers non-negative, all orders of at least 1, any approximation of log 2 with 53 log 2 at least 1", "why_tests_cant": "As for gamma; and the branches for intervals that contain poles are reached only by particular positions of the ends, where the result has to cover the values between several poles.", "anchors": ["kv/gamma.hpp: lgamma", "kv/gamma.hpp: lgamma_point", "kv/gamma.hpp: gamma_r"]}
{"id": "C80", "title": "beta encloses the beta function", "statement": "Whenever beta(X, Y) returns, then no x in X and no y in Y is a pole of Γ, and the result contains Γ(x)Γ(y)/Γ(x+y) for all x in X and y in Y (0 if x+y is a pole).", "quantifier": "for all pairs of intervals of double numbers, all step-size functions std::pow that keep non-negative numbers non-negative, all orders of at least 1", "why_tests_cant": "The value is the sum of two integrals with singular ends, multiplied by a rational function that shifts the arguments into the strip where the integrals are computed; the shifts depend on rounded floor and the number of steps is unbounded.", "anchors": ["kv/beta.hpp: beta", "kv/beta.hpp: beta_r"]}
{"id": "C81", "title": "ode_lohner encloses the solution of the initial value problem", "statement": "Whenever ode_lohner returns a value other than 0, then for all initial values in the initial box, all start and end times and all values of the interval constants, the value of the solution at the end lies in the returned box.", "quantifier": "for all right-hand sides, boxes, orders and other parameters", "why_tests_cant": "The box is an enclosure of uncountably many solutions with an a-priori bound of the remainder; a wrong remainder is visible only in the last digits when the step is chosen by the step size control.", "anchors": ["kv/ode-lohner.hpp: ode_lohner"]}
{"id": "C82", "title": "ode with autodif initial values encloses the solution", "statement": "Whenever ode for initial values of type autodif returns a value other than 0, then for all initial values in the value parts, all start and end times and all values of the interval constants, the solution exists, is unique, its value at the returned end lies in the value part of the result and its derivatives with respect to the parameters lie in the derivative part.", "quantifier": "for all right-hand sides, boxes, orders, step size settings and numbers of parameters", "why_tests_cant": "The value and the derivatives come from two independent calls with independent step sizes; a mistake shows only if the second call shortens the step more than the first one.", "anchors": ["kv/ode-autodif.hpp: ode", "kv/ode-autodif.hpp: MakeVariationalEq"]}
{"id": "C83", "title": "dd directed rounding without hardware rounding modes bounds the exact result", "statement": "Compiled with KV_NOHWROUND, rop<dd>::add_up/sub_up/mul_up/div_up/sqrt_up return a normalised value not below (or +infinity), and the _down versions a normalised value not above (or -infinity), the exact result.", "quantifier": "for all pairs of finite dd values, with and without KV_USE_TPFMA; overflow and underflow included (division: divisor normalised and not zero; square root: operand normalised and positive, or zero, or infinite)", "why_tests_cant": "2^256 operand pairs; the operations are chains of up to 20 emulated directed operations, some steps are rounded to nearest on purpose, which is right only if they are exact.", "anchors": ["kv/rdd-nohwround.hpp: rop<dd>", "kv/rdouble-nohwround.hpp"]}
{"id": "C84", "title": "Decimal output of dd bounds the exact value", "statement": "What operator<< of interval<dd> and rop<dd>::print_up/print_down write for finite values is a decimal literal whose value is not below (upper bound) or not above (lower bound) the sum of the two components, and differs from it by at most one unit of the last printed digit (half a unit with rounding to nearest); the format 'a' is exact.", "quantifier": "for all dd values with finite components of which the second is smaller in absolute value than the first (in particular all normalised ones) or zero, all precisions >= 1, all formats and rounding directions", "why_tests_cant": "2^128 pairs, with sums of up to 2100 bits whose bits are added with positive or negative carries; rounding of thousands of decimal digits goes wrong only for rare carries.", "anchors": ["kv/conv-dd.hpp: conv_dd::ddtostring", "kv/rdd-hwround.hpp: print_up, print_down", "kv/interval.hpp: operator<<"]}
{"id": "C85", "title": "Decimal input of dd bounds the value of the literal", "statement": "rop<dd>::fromstring_up/fromstring_down return a number not below / not above the exact value of the decimal literal; interval<dd>(s) contains that value; printing an interval<dd> and reading the strings back gives an interval that contains the original one. The result is normalised, so that it can be compared.", "quantifier": "for all decimal literals (up to 10^8 digits and exponents), both settings of fast", "why_tests_cant": "infinitely many literals; the errors are in the last of over 1000 bits, in over- and underflow and at ties of the first component.", "anchors": ["kv/conv-dd.hpp: conv_dd::stringtodd", "kv/rdd-hwround.hpp: fromstring_up, fromstring_down", "kv/dd.hpp: dd(std::string)", "kv/interval.hpp: interval(const std::string&)"]}
{"id": "C86", "title": "dd directed rounding with AVX-512 instructions bounds the exact result", "statement": "With KV_USE_AVX512 the operations rop<dd>::add_up/add_down, sub, mul, div, sqrt return upper and lower bounds of the exact results, as without it: interval<dd> encloses.", "quantifier": "for all finite operands (normalised divisors and radicands)", "why_tests_cant": "2^256 pairs of operands; the wrong results appear only when the leading components overflow or the low components are subnormal, and most build machines do not use this code path.", "anchors": ["kv/rdd-avx512.hpp: add_up, add_down, sub_up, sub_down, mul_up, mul_down, div_up, div_down, sqrt_up, sqrt_down"]}
{"id": "C87", "title": "double_newtoncotes encloses the double integral", "statement": "double_newtoncotes(f, start1, end1, start2, end2, n, m1, m2) returns an interval which contains the integral of f(x, y) for x from a to b and y from c to d, whatever the order n of the formula and the numbers m1, m2 of subintervals; a meaningless order is reported by an exception.", "quantifier": "for all functions f of two variables made of the elementary operations, all orders n, all m1, m2, all limits of the error-term division, all a in start1, b in end1, c in start2, d in end2 (also b < a or d < c)", "why_tests_cant": "The error term bounds partial derivatives of all functions of two variables on a rectangle; a wrong constant is hidden by overestimation for most functions and most rectangles.", "anchors": ["kv/double-newtoncotes.hpp: double_newtoncotes", "kv/highderiv.hpp: PartialDeriv", "kv/optimize.hpp: minimize_value, maximize_value"]}
{"id": "C88", "title": "doubleint_curvededge and doubleint_curvededge_s enclose integrals over regions with curved edges", "statement": "doubleint_curvededge(f, el, eh, start, end, n, m1, m2) returns an interval which contains the integral over x from a to b of the integral of f(x, y) over y from el(x) to eh(x); doubleint_curvededge_s the same with the roles of x and y exchanged.", "quantifier": "for all functions f of two variables and edges el, eh of one variable made of the elementary operations, all a in start, b in end", "why_tests_cant": "It is a statement on all functions and all edges; the transformation to a square and the exchange of the variables can be wrong for asymmetric functions only.", "anchors": ["kv/doubleint-curvededge.hpp: doubleint_curvededge, doubleint_curvededge_s, CurvedEdge, Swap_xy"]}
{"id": "C89", "title": "Mixed operators of dd and built-in numbers agree with converting the number to dd first", "statement": "x + c, c + x, x - c, c - x, x * c, c * x, x / c, c / x and the comparisons, for a dd x and a number c of a built-in arithmetic type, have the same result as the operation with dd(c).", "quantifier": "for all dd numbers x (finite ones for the product, all for the rest) and all numbers c of floating point, signed and unsigned integer types; with and without fused multiply-add", "why_tests_cant": "The overloads are separate code with their own overflow branches; whether all of them agree with the conversion for every type and every overflow case cannot be enumerated.", "anchors": ["kv/dd.hpp: operator+, operator-, operator*, operator/, operator<, operator<=, operator>, operator>=, operator==, operator!= (const C&)"]}
{"id": "C90", "title": "KKT_equation encloses the Karush-Kuhn-Tucker equation, whose zeros are the Karush-Kuhn-Tucker points", "statement": "KKT_equation(f, g, h) evaluated with intervals encloses the derivative of the Lagrange function with the multipliers alpha_plus(beta_i) = max(beta_i, 0)^3 and mu_k, the inequalities plus the slacks alpha_minus(beta_i) = max(-beta_i, 0)^3, and the equalities; the zeros of this equation are exactly the points which satisfy the conditions of Karush, Kuhn and Tucker.", "quantifier": "for all objective functions f, inequalities g <= 0 and equalities h = 0 made of the elementary operations, any number of them, all points of the argument box", "why_tests_cant": "It is a statement on all optimisation problems and all points of a box; a wrong sign of a multiplier or slack loses solutions only for problems with suitable active constraints.", "anchors": ["kv/kkt.hpp: KKT_equation, alpha_plus, alpha_minus, alpha_plus_d, alpha_minus_d"]}
{"id": "C91", "title": "trigamma encloses the trigamma function", "statement": "trigamma(x) returns an interval which contains the value of the trigamma function, the sum of 1/(t+k)^2 over k = 0, 1, ..., at each number t of x that is not a pole.", "quantifier": "for all intervals x with double ends (positive, negative, containing poles or not) and all numbers in them", "why_tests_cant": "The result is put together from a shift to [1, 2], a loop of reciprocal squares, monotonicity and a case distinction at the poles; a wrong case is visible only for particular positions of the ends.", "anchors": ["kv/gamma.hpp: trigamma, trigamma_point"]}
{"id": "C92", "title": "Odescale gives the same trajectories, with the arc length as the new time", "statement": "The system made by Odescale(f) has the right-hand side (f_1 c, ..., f_n c, c) with a factor 0 < c <= 1 for which the speed is 1; each of its solutions from (x0, t0) has a strictly increasing last component, and as a function of the last component the others are a solution of x' = f(x, t), x(t0) = x0. If ode() succeeds for Odescale(f), the returned intervals contain a time and the value of the original solution at this time.", "quantifier": "for all right-hand sides f made of the elementary operations, all dimensions, all initial values and times, all solutions; for all successful calls of ode", "why_tests_cant": "It is a statement about exact solutions of all differential equations; a wrong factor (for instance without the 1 of the time direction) still gives plausible trajectories.", "anchors": ["kv/odescale.hpp: Odescale", "kv/ode.hpp: ode"]}
{"id": "C93", "title": "lobachevsky encloses the Lobachevsky function", "statement": "lobachevsky(x) returns an interval which contains the value of the Lobachevsky function, minus the integral of log|2 sin u| from 0 to t, at each number t of x.", "quantifier": "for all intervals x with double ends and all numbers in them; for every correct integrator for arguments from 0 to pi/2", "why_tests_cant": "The result is put together from an argument reduction with an enclosure of pi, the symmetry, the values at the ends and four extrema; a wrong case shows only for particular positions of the ends.", "anchors": ["kv/lobachevsky.hpp: lobachevsky, lobachevsky_point, lobachevsky_origin"]}
{"id": "C94", "title": "odelong_qr encloses the solutions and their derivatives", "statement": "If odelong_qr(f, init, start, end, p, callback, &mat) returns a value other than 0, then for every starting time in start and every starting point in the old init the solution exists up to every time in the new end, its value there is in the new init, and its derivative with respect to the starting point is in mat; for the value 2 end is unchanged. For autodif arguments the new init contains the value and the derivatives of the composed function.", "quantifier": "for all differential equations, boxes, times and numbers of steps, and for every orthogonalisation, approximate inverse and callback", "why_tests_cant": "The coordinates of the enclosure change in each step by an approximately orthogonal matrix; a wrong product, a lost error term or a failure after some steps shows only as an enclosure which is slightly too small.", "anchors": ["kv/ode-qr.hpp: odelong_qr", "kv/ode-qr-lohner.hpp: odelong_qr_lohner"]}
{"id": "C95", "title": "Poincaré and stroboscopic maps enclose what the solvers need", "statement": "StroboMap(x) throws domain_error or returns an enclosure of all solutions at the end time; FixedPoint of it, PoincareMap and Shooting_TPBVP enclose the equations for periodic solutions and boundary values; applied to autodif they enclose the Jacobian, for PoincareMap including the derivative with respect to the time. If krawczyk_approx accepts one of these functions for periodic solutions with a bounded result, then its candidate box contains exactly one periodic solution, and it is in the result.", "quantifier": "for all differential equations with a differentiable flow, all boxes and times in start, all sections and all approximate inverses", "why_tests_cant": "A wrong column of the Jacobian usually still lets Newton iterations converge and the test succeed; uniqueness of a periodic solution cannot be tested.", "anchors": ["kv/strobomap.hpp: StroboMap, FixedPoint, Shooting_TPBVP", "kv/poincaremap.hpp: PoincareMap"]}
{"id": "C96", "title": "odelong_maffine encloses the solutions and their derivatives", "statement": "If odelong_maffine(f, init, start, end, p, callback) returns a value other than 0, then for every starting time in start the solutions from the old init exist up to every time in the new end, and their values there (for autodif also the derivatives with respect to the parameters) are in the new init; for the value 2 end is unchanged. For affine vectors the forms returned represent the values of the solutions, with the same values of the noise symbols which existed before if ep_reduce is 0. Calls for intervals and autodif have no effect on other affine variables of the program, whether they return or throw.", "quantifier": "for all differential equations, boxes or affine vectors, times, numbers of steps, values of ep_reduce and callbacks", "why_tests_cant": "The dependence of the forms on shared noise symbols over arbitrarily many steps with reductions cannot be observed for all starting points; the effect on other variables shows only after an exception in later, unrelated computations.", "anchors": ["kv/ode-maffine.hpp: ode_maffine, odelong_maffine", "kv/affine.hpp: epsilon_reduce, epsilon_reduce2, maxnum"]}
