{
 "claims": [
  {
   "property": "C01",
   "status": "proved",
   "theorems": [
    "Kv.C01_add",
    "Kv.C01_sub",
    "Kv.C01_neg",
    "Kv.C01_mixed",
    "Kv.C01_mixed_eq"
   ],
   "note": "for every base type satisfying the laws RopSem; hardware double is an instance"
  },
  {
   "property": "C02",
   "status": "proved",
   "theorems": [
    "Kv.C02_mul",
    "Kv.C02_mul_scalar"
   ],
   "note": "for every lawful base type, endpoints may be infinite"
  },
  {
   "property": "C03",
   "status": "proved",
   "theorems": [
    "Kv.C03_div",
    "Kv.C03_div_error_iff",
    "Kv.C03_div_only_error",
    "Kv.C03_div_scalar",
    "Kv.C03_divS_error_iff",
    "Kv.C03_sDiv_error_iff"
   ],
   "note": "containment and exact condition of the exception"
  },
  {
   "property": "C04",
   "status": "proved",
   "theorems": [
    "Kv.C04_add",
    "Kv.C04_sub",
    "Kv.C04_mul",
    "Kv.C04_div"
   ],
   "note": "hardware double (any binary format)"
  },
  {
   "property": "C05",
   "status": "proved",
   "theorems": [
    "Kv.C05_sqrt",
    "Kv.C05_sqrt_error_iff",
    "Kv.C05_sqrt_rounded"
   ],
   "note": "containment for every lawful base type, correct rounding for double"
  },
  {
   "property": "C06",
   "status": "proved",
   "theorems": [
    "Kv.C06_lt",
    "Kv.C06_le",
    "Kv.C06_gt",
    "Kv.C06_ge",
    "Kv.C06_eq",
    "Kv.C06_ne",
    "Kv.C06_mixed",
    "Kv.C06_nan"
   ],
   "note": ""
  },
  {
   "property": "C07",
   "status": "proved",
   "theorems": [
    "Kv.C07_in",
    "Kv.C07_zero_in",
    "Kv.C07_subset",
    "Kv.C07_proper_subset",
    "Kv.C07_overlap",
    "Kv.C07_intersect",
    "Kv.C07_hull_contains",
    "Kv.C07_hull_least",
    "Kv.C07_hull_mixed",
    "Kv.C07_hull_scalars"
   ],
   "note": ""
  },
  {
   "property": "C08",
   "status": "proved",
   "theorems": [
    "Kv.C08_mid"
   ],
   "note": "hardware double (any binary format)"
  },
  {
   "property": "C09",
   "status": "proved",
   "theorems": [
    "Kv.C09_midrad_double",
    "Kv.C09_width",
    "Kv.C09_rad",
    "Kv.C09_midrad"
   ],
   "note": "bounds for every lawful base type; for finite doubles the centre is shown finite"
  },
  {
   "property": "C10",
   "status": "proved",
   "theorems": [
    "Kv.C10_mag_bound",
    "Kv.C10_mag_attained",
    "Kv.C10_mig_bound",
    "Kv.C10_mig_attained",
    "Kv.C10_abs",
    "Kv.C10_max",
    "Kv.C10_min",
    "Kv.C10_floor_ceil"
   ],
   "note": ""
  },
  {
   "property": "C11",
   "status": "proved",
   "theorems": [
    "Kv.C11_pow",
    "Kv.C11_pow_returns",
    "Kv.C11_pow_zero_throws"
   ],
   "note": "n = INT_MIN is undefined behaviour in the code and is a separate outcome of the model"
  },
  {
   "property": "C12",
   "status": "proved",
   "theorems": [
    "Kv.C12_division_part",
    "Kv.C12_error_iff"
   ],
   "note": ""
  },
  {
   "property": "C13",
   "status": "partial",
   "theorems": [
    "Kv.C13_violated",
    "Kv.C13_violated_half",
    "Kv.C13_solutions_partial"
   ],
   "note": "the property is violated by the code: C13_violated and C13_violated_half are witnesses; C13_solutions_partial proves it when 0 is not in X, or strictly inside X, or strictly inside Y with X not [0,0]"
  },
  {
   "property": "C14",
   "status": "proved",
   "theorems": [
    "Kv.C14_exp",
    "Kv.C14_expm1"
   ],
   "note": "interval<double> with directed rounding; for every fuel: if the call returns, the result encloses"
  },
  {
   "property": "C15",
   "status": "proved",
   "theorems": [
    "Kv.C15_log",
    "Kv.C15_log1p",
    "Kv.C15_pow",
    "Kv.C15_log_throws",
    "Kv.C15_log1p_throws",
    "Kv.C15_pow_throws"
   ],
   "note": "also pow(interval, interval); domain errors for bad lower endpoints"
  },
  {
   "property": "C16",
   "status": "proved",
   "theorems": [
    "Kv.C16_sin",
    "Kv.C16_cos"
   ],
   "note": "for every fuel: if the call returns"
  },
  {
   "property": "C17",
   "status": "proved",
   "theorems": [
    "Kv.C17_tan",
    "Kv.C17_atan",
    "Kv.C17_asin",
    "Kv.C17_acos",
    "Kv.C17_asin_throws",
    "Kv.C17_acos_throws",
    "Kv.C17_asin_acos_domain"
   ],
   "note": "asin/acos return nothing when a point lies outside [-1,1]; the exception is shown for the endpoint evaluated first"
  },
  {
   "property": "C18",
   "status": "proved",
   "theorems": [
    "Kv.C18_sinh",
    "Kv.C18_cosh",
    "Kv.C18_tanh",
    "Kv.C18_asinh",
    "Kv.C18_acosh",
    "Kv.C18_atanh",
    "Kv.C18_acosh_throws",
    "Kv.C18_atanh_throws"
   ],
   "note": ""
  },
  {
   "property": "C19",
   "status": "proved",
   "theorems": [
    "Kv.C19_constants_enclose",
    "Kv.C19_constants_return"
   ],
   "note": "enclosure and concrete termination"
  },
  {
   "property": "C20",
   "status": "proved",
   "theorems": [
    "Kv.C20_add",
    "Kv.C20_sub",
    "Kv.C20_mul",
    "Kv.C20_div",
    "Kv.C20_sqrt",
    "Kv.C20_emulated_eq_hardware"
   ],
   "note": "rdouble-nohwround.hpp modelled line by line (succ, pred, twosum, split, twoproduct with and without FMA); every directed operation is the correctly rounded one for all operands and coincides with hardware rounding."
  },
  {
   "property": "C21",
   "status": "proved",
   "theorems": [
    "Kv.C21_twosum",
    "Kv.C21_twoproduct"
   ],
   "note": "twosum exact whenever the rounded sum is finite; twoproduct (Dekker and FMA versions) exact whenever the rounded product is finite and at least 2^-969 in modulus or a factor is zero."
  },
  {
   "property": "C22",
   "status": "partial",
   "theorems": [
    "Kv.DD.C22_add",
    "Kv.DD.C22_sub",
    "Kv.DD.C22_mul",
    "Kv.DD.C22_div_partial",
    "Kv.DD.C22_sqrt",
    "Kv.DD.C22_sqrt_special",
    "Kv.DD.C22_div_up_fails",
    "Kv.DD.C22_div_down_fails",
    "Kv.DD.C22_add_exact",
    "Kv.DD.C22_mul_exact"
   ],
   "note": "Upper/lower bounds proved for add, sub, mul, sqrt and all finite operands (overflow included), for both settings of KV_USE_TPFMA; exactness for doubles. Division: the claim is false as stated (C22_div_up_fails, C22_div_down_fails give operands whose upward-rounded quotient is below the exact one); C22_div_partial proves it when the second component of the divisor can be halved exactly or |x| is not in the rescaling range."
  },
  {
   "property": "C23",
   "status": "proved",
   "theorems": [
    "Kv.C23_dtostring",
    "Kv.C23_interval",
    "Kv.C23_precision0"
   ],
   "note": "Formats e, f, g and the one with all digits; precision 0 with the default format is wrong (C23_precision0)."
  },
  {
   "property": "C24",
   "status": "partial",
   "theorems": [
    "Kv.C24_string",
    "Kv.C24_interval",
    "Kv.C24_defined",
    "Kv.C24_zero_violated"
   ],
   "note": "Enclosure proved for every literal for which the function returns; a zero with a negative exponent is undefined behaviour (violated), all other literals up to 10^8 digits and exponents return."
  },
  {
   "property": "C25",
   "status": "proved",
   "theorems": [
    "Kv.C25_roundtrip",
    "Kv.C25_infinite_bounds"
   ],
   "note": "With finite bounds; infinite bounds are read back as 0 (C25_infinite_bounds)."
  },
  {
   "property": "C26",
   "status": "proved",
   "theorems": [
    "Kv.C26_value",
    "Kv.C26_gradient",
    "Kv.C26_constant",
    "Kv.C26_split",
    "Kv.C26_split_columns",
    "Kv.C26_exact",
    "Kv.C26_expand",
    "Kv.C26_split1",
    "Kv.C26_constant_undefined",
    "Kv.C26_atan_throws"
   ],
   "note": "All template functions built from the overloads of autodif.hpp (arithmetic, mixed scalar, 15 elementary functions, integer and general power), all boxes, all points; exact version over the reals; split, compress and expand. Constant functions are the documented boundary (empty gradient: split of one variable and expand read outside the vector)."
  },
  {
   "property": "C27",
   "status": "partial",
   "theorems": [
    "Kv.C27_partial",
    "Kv.C27_vector_partial",
    "Kv.C27_violated",
    "Kv.C27_singular"
   ],
   "note": "Proved when every entry of the error matrix I-RA and of the result is a bounded interval. Otherwise false: C27_violated (true returned with a NaN result), C27_singular (true returned for a matrix set containing a singular matrix)."
  },
  {
   "property": "C28",
   "status": "partial",
   "theorems": [
    "Kv.C28_partial",
    "Kv.C28_template_partial",
    "Kv.C28_violated"
   ],
   "note": "Proved for bounded results, for every approximate inverse and every function with sound enclosures. For unbounded boxes it is false: C28_violated."
  },
  {
   "property": "C29",
   "status": "partial",
   "theorems": [
    "Kv.C29_partial",
    "Kv.C29_C30_count_partial",
    "Kv.C29_violated"
   ],
   "note": "Proved for all runs in which no approximate inverse has an infinite entry. Otherwise false: C29_violated. C29_C30_count_partial: the number of zeros equals the number of returned boxes."
  },
  {
   "property": "C30",
   "status": "proved",
   "theorems": [
    "Kv.C30_simple"
   ],
   "note": "All initial lists of boxes of finite width, every approximate inverse (overflow included)."
  },
  {
   "property": "C31",
   "status": "partial",
   "theorems": [
    "Kv.C31_partial",
    "Kv.C31_rest_partial",
    "Kv.C31_violated",
    "Kv.C31_overflow_violated"
   ],
   "note": "Proved for runs in which no approximate inverse overflows, no numerator in trimming has zero as a bound while the denominator contains zero, and bounded boxes have bounds and widths up to 2^1023; the first two conditions are needed (C31_violated, C31_overflow_violated)."
  },
  {
   "property": "C32",
   "status": "proved",
   "theorems": [
    "Kv.C32",
    "Kv.C32_final",
    "Kv.C32_progress",
    "Kv.C32_zeros_partial",
    "Kv.C32_isolated_partial",
    "Kv.C32_sequential"
   ],
   "note": "For all numbers of threads and all interleavings of critical sections: when a thread stops, no box is left and none can appear; no deadlock. The results found (C32_zeros_partial, C32_isolated_partial) are under the conditions of C31 and C62. The counter is modelled as an unbounded integer."
  },
  {
   "property": "C33",
   "status": "proved",
   "theorems": [
    "Kv.C33",
    "Kv.C33_nd",
    "Kv.C33_boxes",
    "Kv.C33_nd_boxes",
    "Kv.C33_value",
    "Kv.C33_nd_value",
    "Kv.C33_template",
    "Kv.C33_template_value",
    "Kv.C33_maximize",
    "Kv.C33_maximize_value"
   ],
   "note": "All runs which end, bounded initial boxes, default options; minimize, minimize_nd, minimize_value, minimize_nd_value, maximize, maximize_value. The returned boxes lie in the initial box, are narrower than the limit (without unify) and pairwise disjoint (with unify). The value functions and the nd versions need the function to be defined on the whole box."
  },
  {
   "property": "C34",
   "status": "proved",
   "theorems": [
    "Kv.C34_un",
    "Kv.C34_bin",
    "Kv.C34_binC",
    "Kv.C34_cBin",
    "Kv.C34_square",
    "Kv.C34_inv",
    "Kv.C34_powI",
    "Kv.C34_pow"
   ],
   "note": "All operations except atan and abs, for which see C35."
  },
  {
   "property": "C35",
   "status": "partial",
   "theorems": [
    "Kv.C35_atan_violated",
    "Kv.C35_abs_violated",
    "Kv.C35_partial"
   ],
   "note": "Violated for atan (wrong slope) and for abs (rounding to nearest), with concrete forms; proved for abs of forms without sign change."
  },
  {
   "property": "C36",
   "status": "proved",
   "theorems": [
    "Kv.C36_to_interval",
    "Kv.C36_of_interval",
    "Kv.C36_of_scalar",
    "Kv.C36_reduce",
    "Kv.C36_reduce2"
   ],
   "note": ""
  },
  {
   "property": "C37",
   "status": "proved",
   "theorems": [
    "Kv.C37",
    "Kv.C37_exact",
    "Kv.C37_integrate"
   ],
   "note": ""
  },
  {
   "property": "C38",
   "status": "proved",
   "theorems": [
    "Kv.C38",
    "Kv.C38_weak",
    "Kv.C38_eval",
    "Kv.C38_evalrange",
    "Kv.C38_integrate",
    "Kv.C38_setorder",
    "Kv.C38_setorder_weak",
    "Kv.C38_needs_zero"
   ],
   "note": "Domains must contain 0 (C38_needs_zero shows that this is necessary). setorder to a higher order keeps only the weak enclosure (numbers may depend on t), for which the expression theorem holds too."
  },
  {
   "property": "C39",
   "status": "partial",
   "theorems": [
    "Kv.C39_violated",
    "Kv.C39_constant_undefined"
   ],
   "note": "Violated: witness atan(1+t) on [0,1/2]; of constant series the functions have undefined behaviour. Mode 1 is covered by C37."
  },
  {
   "property": "C40",
   "status": "proved",
   "theorems": [
    "Kv.C40_ring",
    "Kv.C40_div",
    "Kv.C40_div_real",
    "Kv.C40_real_div",
    "Kv.C40_pow_int",
    "Kv.C40_abs",
    "Kv.C40_arg",
    "Kv.C40_exp",
    "Kv.C40_log",
    "Kv.C40_sqrt",
    "Kv.C40_pow",
    "Kv.C40_sin",
    "Kv.C40_cos",
    "Kv.C40_tan",
    "Kv.C40_sinh",
    "Kv.C40_cosh",
    "Kv.C40_tanh",
    "Kv.C40_asin",
    "Kv.C40_acos",
    "Kv.C40_asinh",
    "Kv.C40_acosh",
    "Kv.C40_atan",
    "Kv.C40_atanh",
    "Kv.C40_log_not_principal",
    "Kv.C40_div_false_alarm"
   ],
   "note": "All functions of complex.hpp except printing, for every call that returns.  log and the functions built from it enclose a logarithm (..) of every member, principal unless the box crosses the cut; C40_log_not_principal and C40_div_false_alarm show that principal values and \"throws only if the divisor contains 0\" do not hold."
  },
  {
   "property": "C41",
   "status": "proved",
   "theorems": [
    "Kv.C41",
    "Kv.C41_returns",
    "Kv.C41_unchecked"
   ],
   "note": "Convergence and membership of the sum for every interval inside (-1,1); such calls always return (C41_returns); the condition itself is not checked by the code (C41_unchecked)."
  },
  {
   "property": "C42",
   "status": "proved",
   "theorems": [
    "Kv.C42_add",
    "Kv.C42_addS",
    "Kv.C42_sAdd",
    "Kv.C42_sub",
    "Kv.C42_subS",
    "Kv.C42_sSub",
    "Kv.C42_mul",
    "Kv.C42_mulS",
    "Kv.C42_sMul",
    "Kv.C42_div",
    "Kv.C42_divS",
    "Kv.C42_sDiv",
    "Kv.C42_width",
    "Kv.C42_rad",
    "Kv.C42_sqrt",
    "Kv.C42_mid",
    "Kv.C42_midrad",
    "Kv.C42_divisionPart1",
    "Kv.C42_divisionPart2",
    "Kv.C42_call",
    "Kv.C42",
    "Kv.C42_not_saved"
   ],
   "note": "Operations of interval.hpp with begin/end transcribed with the mode register as state; C42 is about every program made of them, of ordinary arithmetic and of exceptions thrown and caught.  Elementary functions are such programs but are not transcribed one by one."
  },
  {
   "property": "C43",
   "status": "partial",
   "theorems": [],
   "note": "All conversions among double, dd, mpfr proved except the two violated cases (proved with the necessary restriction, negations with witnesses); the _Float64x and ddx conversions are not modelled."
  },
  {
   "property": "C44",
   "status": "partial",
   "theorems": [
    "Kv.Lp.C44_lower_partial",
    "Kv.Lp.C44_upper_partial",
    "Kv.Lp.C44_refused",
    "Kv.Lp.C44_example",
    "Kv.Lp.C44_overflow_violated",
    "Kv.Lp.C44_upper_violated"
   ],
   "note": "Lower bound proved for runs without overflow; upper bound proved for runs without overflow that end with nonnegative right-hand sides; both conditions are needed (C44_overflow_violated, C44_upper_violated). Constraints with positive constant are refused (C44_refused)."
  },
  {
   "property": "C45",
   "status": "partial",
   "theorems": [
    "Kv.C45_partial",
    "Kv.C45_violated",
    "Kv.C45_enclosed_partial"
   ],
   "note": "Violated for unbounded candidates (C45_violated: x'=x^2 up to 2^600). C45_partial: bounded results, f defined at the initial point. C45_enclosed_partial: without boundedness, every solution that exists ends in the returned interval and is unique."
  },
  {
   "property": "C46",
   "status": "partial",
   "theorems": [
    "Kv.C46_highderiv_partial",
    "Kv.C46_highderiv_violated",
    "Kv.C46_highderiv_throw",
    "Kv.C46_ode_partial",
    "Kv.C46_ode_violated",
    "Kv.C46_ode_throw"
   ],
   "note": "Violated for mode 2 and for exceptions (C46_*_violated hold for every call in mode 2, C46_*_throw are witnesses); the rest is proved by C46_*_partial."
  },
  {
   "property": "C47",
   "status": "partial",
   "theorems": [
    "Kv.C47_log_huge_hangs",
    "Kv.C47_log_tiny_hangs"
   ],
   "note": "violated: infinite loops proved for all lower endpoints >= 2^1023 and for [0,c], c < 2^-1024; termination elsewhere only shown for concrete arguments"
  },
  {
   "property": "C48",
   "status": "partial",
   "theorems": [
    "Kv.C48_sin_max_never_returns"
   ],
   "note": "violated: witness DBL_MAX; termination elsewhere only shown for concrete arguments"
  },
  {
   "property": "C49",
   "status": "partial",
   "theorems": [
    "Kv.C49_sequential",
    "Kv.C49_warm",
    "Kv.C49_race_early",
    "Kv.C49_race_persistent"
   ],
   "note": "violated for overlapping first calls (two witnesses); proved for non-overlapping calls and for all schedules after a completed call; model is for e()"
  },
  {
   "property": "C50",
   "status": "proved",
   "theorems": [
    "Kv.C50_principal",
    "Kv.C50_atan2"
   ],
   "note": ""
  },
  {
   "property": "C51",
   "status": "partial",
   "theorems": [
    "Kv.DD.C51_compare",
    "Kv.DD.C51_nan_fails"
   ],
   "note": "Order proved for finite normalised values; the NaN clause is false (C51_nan_fails: (NaN,0), the result of inf-inf, compares less than a number)."
  },
  {
   "property": "C52",
   "status": "proved",
   "theorems": [
    "Kv.DD.C52_floor",
    "Kv.DD.C52_ceil"
   ],
   "note": "Exact for all finite normalised values, result normalised."
  },
  {
   "property": "C53",
   "status": "partial",
   "theorems": [
    "Kv.C53_violated"
   ],
   "note": "False: C53_violated (sqrt on [-1,1] never ends for any limit). No termination theorem for functions without domain errors yet."
  },
  {
   "property": "C54",
   "status": "partial",
   "theorems": [
    "Kv.C54_partial",
    "Kv.C54_violated"
   ],
   "note": "Holds for |n| <= 2^53; negation proved with 2^53+1.  Only operator+ is transcribed with an integer operand; the other mixed operators convert in the same way."
  },
  {
   "property": "C55",
   "status": "partial",
   "theorems": [
    "Kv.C55_partial",
    "Kv.C55_complex_partial",
    "Kv.C55_violated",
    "Kv.C55_complex_violated"
   ],
   "note": "Holds when the operand is not the lower endpoint (real part) of the target, and for *= and /= of intervals always; negations with witnesses."
  },
  {
   "property": "C56",
   "status": "proved",
   "theorems": [
    "Kv.C56",
    "Kv.C56_divfact",
    "Kv.C56_HighDeriv",
    "Kv.C56_PartialDeriv"
   ],
   "note": "Arguments of logarithms (and bases of pow) must be positive, as for C37."
  },
  {
   "property": "C57",
   "status": "proved",
   "theorems": [
    "Kv.C57"
   ],
   "note": "Starts that are numbers and ends not before the start; induction over the steps."
  },
  {
   "property": "C58",
   "status": "proved",
   "theorems": [
    "Kv.C58_eval",
    "Kv.C58_range"
   ],
   "note": "Induction over the expression; constants finite, atan excluded (C35)."
  },
  {
   "property": "C59",
   "status": "partial",
   "theorems": [
    "Kv.C59_split",
    "Kv.C59_append_partial",
    "Kv.C59_split_append",
    "Kv.C59_append_violated"
   ],
   "note": "append violated for two forms with a centre; proved if one coefficient of each pair is zero, and for the parts made by split."
  },
  {
   "property": "C60",
   "status": "proved",
   "theorems": [
    "Kv.C60_dtostring",
    "Kv.C60_denotes_unique"
   ],
   "note": ""
  },
  {
   "property": "C61",
   "status": "partial",
   "theorems": [
    "Kv.C61_violated",
    "Kv.C61_partial"
   ],
   "note": "Violated for 2^53; proved for plain integers below 2^53. Missing: literals with fraction or exponent that have few bits."
  },
  {
   "property": "C62",
   "status": "partial",
   "theorems": [
    "Kv.C62_partial"
   ],
   "note": "Proved for runs with bounds and widths up to 2^1023 (beyond that recovery_inflation may leave the original box) where no approximate inverse in the refinement of a solution overflows."
  },
  {
   "property": "C63",
   "status": "proved",
   "theorems": [
    "Kv.C63",
    "Kv.C63_order_zero_violated",
    "Kv.C63_negative_pieces_violated",
    "Kv.C63_no_pieces"
   ],
   "note": "Hypothesis: constant arguments of logarithms are positive at the start (see C38). For order 0 and for negative n the property fails (C63_order_zero_violated, C63_negative_pieces_violated); n = 0 throws (C63_no_pieces)."
  },
  {
   "property": "C64",
   "status": "proved",
   "theorems": [
    "Kv.C64",
    "Kv.C64_order_zero_violated"
   ],
   "note": "Hypothesis: arguments of logarithms are positive at the start (the first pass is in mode 1, where log does not check). For order 0 the property fails (C64_order_zero_violated). Termination is not claimed."
  },
  {
   "property": "C65",
   "status": "proved",
   "theorems": [
    "Kv.C65"
   ],
   "note": "The function is represented by Bessel's integral; its identity with the power series of J_n is not proved."
  },
  {
   "property": "C66",
   "status": "partial",
   "theorems": [
    "Kv.C66_defint",
    "Kv.C66_autostep",
    "Kv.C66_mode_two_violated",
    "Kv.C66_throw_violated"
   ],
   "note": "Proved for modes 0 and 1 and runs which return; otherwise violated (C66_mode_two_violated, C66_throw_violated)."
  },
  {
   "property": "C67",
   "status": "proved",
   "theorems": [
    "Kv.C67",
    "Kv.C67_returns",
    "Kv.C67_vdka",
    "Kv.C67_vdka_false",
    "Kv.C67_nan_violated"
   ],
   "note": "dka itself (the floating-point iteration) is an arbitrary function; if it returned NaN, the boxes would be NaN (C67_nan_violated)."
  },
  {
   "property": "C68",
   "status": "partial",
   "theorems": [
    "Kv.C68_partial",
    "Kv.C68_violated"
   ],
   "note": "C68_partial: pairwise disjoint results contain exactly one zero each. With overlapping boxes a box without any zero can be returned (C68_violated), because the unification stops after one pass."
  },
  {
   "property": "C69",
   "status": "proved",
   "theorems": [
    "Kv.C69",
    "Kv.C69_no_return"
   ],
   "note": "Whenever the call returns. C69_no_return: with some |z| >= 1 it never returns."
  },
  {
   "property": "C70",
   "status": "partial",
   "theorems": [
    "Kv.C70_partial",
    "Kv.C70_domain",
    "Kv.C70_violated_3",
    "Kv.C70_violated_5",
    "Kv.C70_violated_7",
    "Kv.C70_violated_negative"
   ],
   "note": "Proved for the orders 1, 2, 4, 6 and m >= 0, for expressions without log and pow. False for the orders 3, 5, 7 (C70_violated_3, C70_violated_5, C70_violated_7: the constant of the error term is too large by the factor n) and for negative m (C70_violated_negative)."
  },
  {
   "property": "C71",
   "status": "partial",
   "theorems": [
    "Kv.C71_violated_sign",
    "Kv.C71_violated_sum",
    "Kv.C71_silent",
    "Kv.C71_violated_overflow",
    "Kv.C71_no_return",
    "Kv.C71_size_one"
   ],
   "note": "Violated; no positive part is proved. C71_violated_sign, C71_violated_sum, C71_violated_overflow: wrong enclosures; C71_silent: a failed verification gives the value 0 for every matrix; C71_no_return: a matrix for which the call never returns; C71_size_one: undefined behaviour for 1x1 matrices."
  },
  {
   "property": "C72",
   "status": "proved",
   "theorems": [
    "Kv.C72_roots",
    "Kv.C72_all_roots",
    "Kv.C72_false"
   ],
   "note": "C72_roots for all boxes and coefficients, C72_all_roots, C72_false."
  },
  {
   "property": "C73",
   "status": "partial",
   "theorems": [
    "Kv.C73_roots",
    "Kv.C73_all_roots",
    "Kv.C73_violated_refuses",
    "Kv.C73_violated_throws"
   ],
   "note": "The enclosure is proved for all boxes (C73_roots, C73_all_roots). The claim about the return value false is violated (C73_violated_refuses, C73_violated_throws)."
  },
  {
   "property": "C74",
   "status": "proved",
   "theorems": [
    "Kv.C74",
    "Kv.C74_power2",
    "Kv.C74_power",
    "Kv.C74_power3_r",
    "Kv.C74_power2_r",
    "Kv.C74_power_r",
    "Kv.C74_divergent_violated"
   ],
   "note": "C74, C74_power, C74_power2 and the variants _r. C74_divergent_violated: without the condition on the power a finite interval is returned for a divergent integral."
  },
  {
   "property": "C75",
   "status": "partial",
   "theorems": [
    "Kv.C75_partial",
    "Kv.C75_log2",
    "Kv.C75_log_partial",
    "Kv.C75_log3_r_partial",
    "Kv.C75_log2_r",
    "Kv.C75_log_r_partial",
    "Kv.C75_long_interval_violated"
   ],
   "note": "C75_log2, C75_log2_r for all intervals; C75_partial, C75_log_partial, C75_log3_r_partial, C75_log_r_partial for intervals of length at most 1 or constant g. Missing: longer intervals, where the claim is false (C75_long_interval_violated)."
  },
  {
   "property": "C76",
   "status": "proved",
   "theorems": [
    "Kv.C76",
    "Kv.C76_r",
    "Kv.C76_order_violated"
   ],
   "note": "C76, C76_r. C76_order_violated: with n = order + 1 the result is wrong (the condition n ≤ order is needed)."
  },
  {
   "property": "C77",
   "status": "partial",
   "theorems": [
    "Kv.C77_power2_violated",
    "Kv.C77_singular_violated",
    "Kv.C77_log2_violated",
    "Kv.C77_power_partial",
    "Kv.C77_power_r_partial"
   ],
   "note": "The claim is false in general: C77_power2_violated, C77_log2_violated, C77_singular_violated give integrands for which the result does not contain the integral. C77_power_partial, C77_power_r_partial: the claim holds for defint_power_autostep and defint_power_autostep_r, whose weight is not affected. Missing: the positive statement for defint_log_autostep (C75 limits the first step to lengths of at most 1, too)."
  },
  {
   "property": "C78",
   "status": "partial",
   "theorems": [
    "Kv.C78_partial",
    "Kv.C78_point"
   ],
   "note": "C78_point: for single numbers the claim is proved in full. C78_partial: for wide intervals it is proved under the assumption that digamma_zero returns an interval with 0 or an enclosure of the zero of Γ' (without an integer above its integral part), and that the constant in the code encloses the minimum. Missing: a proof of this assumption (digamma_zero rests on defint_singular_autostep, which is wrong in general, C77)."
  },
  {
   "property": "C79",
   "status": "partial",
   "theorems": [
    "Kv.C79_partial",
    "Kv.C79_point",
    "Kv.C79_pole_inside_violated",
    "Kv.C79_pole_end_violated"
   ],
   "note": "The claim is false for intervals with poles: C79_pole_end_violated ([0, 1/2] gives [DBL_MAX, inf], for all parameters), C79_pole_inside_violated (from -2+2^-20 to -1+2^-20 all numbers of the result are above 1, log|Γ(-3/2)| is below). C79_point: proved for single numbers. C79_partial: proved for intervals without poles, under the assumption on digamma_zero as in C78."
  },
  {
   "property": "C80",
   "status": "proved",
   "theorems": [
    "Kv.C80"
   ],
   "note": "C80: whenever the call returns. Termination of the step size control of the integrals is not claimed. The value std::pow and the order are parameters."
  },
  {
   "property": "C81",
   "status": "partial",
   "theorems": [
    "Kv.C81_partial",
    "Kv.C81_violated"
   ],
   "note": "C81_violated: false for order 2; x'=1+x^2, x(0)=0, end 1/4 gives [1/4,1/4], but the solution is tan. The same happens in the model for the orders 4, 6, 8, 10. C81_partial: for order 1 and right-hand sides smooth everywhere, every solution ends in the returned box. Missing: the other orders (false for even orders), existence of the solution."
  },
  {
   "property": "C82",
   "status": "partial",
   "theorems": [
    "Kv.C82_partial",
    "Kv.C82_product_partial",
    "Kv.C82_violated",
    "Kv.C82_deriv_example"
   ],
   "note": "C82_violated: if the equation for the derivatives needs a shorter step, the returned end is the shorter one, but the value belongs to the longer one. C82_partial: if the call returns 2, the solution exists, is unique and lies in the value part (under the conditions of C45_partial). C82_product_partial: the derivative part is the product of the solution of the second call and the derivatives of the initial values; C82_deriv_example: a run with known derivatives. Missing: return value 1 (false), that the solution of the second call encloses the derivatives."
  },
  {
   "property": "C83",
   "status": "partial",
   "theorems": [
    "Kv.DDN.C83_add",
    "Kv.DDN.C83_sub",
    "Kv.DDN.C83_mul",
    "Kv.DDN.C83_div_partial",
    "Kv.DDN.C83_sqrt",
    "Kv.DDN.C83_sqrt_special",
    "Kv.DDN.C83_div_up_fails",
    "Kv.DDN.C83_div_down_fails"
   ],
   "note": "C83_div_up_fails, C83_div_down_fails: division is wrong if the quotient times the divisor overflows and the low component of the divisor is an odd multiple of the smallest subnormal number. C83_add, C83_sub, C83_mul, C83_sqrt, C83_sqrt_special are complete. Missing in C83_div_partial: dividend above 2^1022 with a low component of dividend or divisor that cannot be halved exactly."
  },
  {
   "property": "C84",
   "status": "proved",
   "theorems": [
    "Kv.C84_print",
    "Kv.C84_normal",
    "Kv.C84_all",
    "Kv.C84_interval"
   ],
   "note": "C84_print (literal, bound, accuracy), C84_all (format a is exact), C84_interval, C84_normal (normalised numbers satisfy the condition)."
  },
  {
   "property": "C85",
   "status": "partial",
   "theorems": [
    "Kv.C85_string_partial",
    "Kv.C85_interval_partial",
    "Kv.C85_defined",
    "Kv.C85_zero_violated",
    "Kv.C85_roundtrip",
    "Kv.C85_overflow_violated",
    "Kv.C85_normal_violated"
   ],
   "note": "Violated for literals between 2^1024-2^970 and 2^1024 (C85_overflow_violated), for zeros with a negative exponent (C85_zero_violated); results may be not normalised (C85_normal_violated). Proved: C85_string_partial, C85_interval_partial for all other values, C85_defined, C85_roundtrip."
  },
  {
   "property": "C86",
   "status": "partial",
   "theorems": [
    "Kv.DDAvx.C86_add_partial",
    "Kv.DDAvx.C86_sub_partial",
    "Kv.DDAvx.C86_mul_partial",
    "Kv.DDAvx.C86_div_partial",
    "Kv.DDAvx.C86_sqrt",
    "Kv.DDAvx.C86_operands",
    "Kv.DDAvx.C86_add_down_fails",
    "Kv.DDAvx.C86_sub_down_fails",
    "Kv.DDAvx.C86_div_down_fails",
    "Kv.DDAvx.C86_add_up_fails",
    "Kv.DDAvx.C86_mul_fails",
    "Kv.DDAvx.C86_div_up_fails",
    "Kv.DDAvx.C86_add_not_number"
   ],
   "note": "Violated when the leading part of the result overflows: C86_add_down_fails, C86_sub_down_fails, C86_div_down_fails (lower bounds too large), C86_add_up_fails, C86_mul_fails, C86_div_up_fails, C86_add_not_number. C86_add_partial, C86_sub_partial, C86_mul_partial, C86_div_partial: if the leading part does not overflow and the result is finite. C86_sqrt without restriction."
  },
  {
   "property": "C87",
   "status": "partial",
   "theorems": [
    "Kv.C87_partial",
    "Kv.C87_domain",
    "Kv.C87_violated_3",
    "Kv.C87_violated_5",
    "Kv.C87_violated_7",
    "Kv.C87_violated_negative"
   ],
   "note": "C87_partial: true for the orders 1, 2, 4, 6, and then f is smooth on the rectangle; in either order of integration. C87_domain: other orders than 1..7 are reported. Violated for the orders 3, 5, 7 (C87_violated_3, C87_violated_5, C87_violated_7) and for negative m1, m2 (C87_violated_negative). Missing: functions with log or pow."
  },
  {
   "property": "C88",
   "status": "partial",
   "theorems": [
    "Kv.C88_partial",
    "Kv.C88_s_partial"
   ],
   "note": "C88_partial, C88_s_partial: for the orders 1, 2, 4, 6. The orders 3, 5, 7 have the same defects as in C87. Missing: functions with log or pow."
  },
  {
   "property": "C89",
   "status": "partial",
   "theorems": [
    "Kv.C89_add",
    "Kv.C89_rsub",
    "Kv.C89_sub_partial",
    "Kv.C89_sub_unsigned",
    "Kv.C89_sub_violated",
    "Kv.C89_sub_undefined",
    "Kv.C89_mul",
    "Kv.C89_div",
    "Kv.C89_rdiv_partial",
    "Kv.C89_rdiv_violated",
    "Kv.C89_compare"
   ],
   "note": "C89_add, C89_rsub, C89_mul, C89_div, C89_compare: true. C89_sub_partial: x - c for floating point numbers and signed integers other than the smallest. C89_rdiv_partial: c / x if the check product does not overflow. Violated: x - c for every positive unsigned c (C89_sub_unsigned, C89_sub_violated), undefined for the smallest signed integer (C89_sub_undefined), DBL_MAX / dd(3) is NaN (C89_rdiv_violated)."
  },
  {
   "property": "C90",
   "status": "partial",
   "theorems": [
    "Kv.C90_alpha",
    "Kv.C90_alpha_deriv",
    "Kv.C90_alpha_autodif",
    "Kv.C90_encloses_partial",
    "Kv.C90_zeros",
    "Kv.C90_excludes_partial",
    "Kv.C90_constant_undefined"
   ],
   "note": "C90_alpha, C90_alpha_deriv, C90_alpha_autodif: the functions alpha and their derivatives for intervals and autodif. C90_encloses_partial: the equation. C90_zeros: its zeros are the Karush-Kuhn-Tucker points with all their multipliers. C90_excludes_partial: a box whose value excludes 0 has none. Missing: unbounded intervals of the beta_i, nested automatic differentiation (the Jacobian matrix). Undefined for a constant objective function (C90_constant_undefined)."
  },
  {
   "property": "C91",
   "status": "partial",
   "theorems": [
    "Kv.C91_partial",
    "Kv.C91_pole_end_violated"
   ],
   "note": "C91_partial: true if the lower end is not a pole and trigamma_plus (the integral for arguments between 1 and 2) encloses its value. Violated if the lower end is a pole: trigamma([0, 1/2]) is [DBL_MAX, infinity] (C91_pole_end_violated). Missing: the integral in trigamma_plus, whose integrator is wrong in general (C77_singular_violated)."
  },
  {
   "property": "C92",
   "status": "partial",
   "theorems": [
    "Kv.C92_rhs",
    "Kv.C92_dom",
    "Kv.C92_solutions",
    "Kv.C92_encloses_partial"
   ],
   "note": "C92_rhs, C92_dom, C92_solutions: the new system, for all f. C92_encloses_partial: the result of ode for it, if the returned intervals are bounded (as C45_partial)."
  },
  {
   "property": "C93",
   "status": "partial",
   "theorems": [
    "Kv.C93_near",
    "Kv.C93_partial",
    "Kv.C93_noreduce"
   ],
   "note": "C93_near: up to 2^-88 for all arguments. C93_partial: exactly, if no end of the reduced argument is nearer than 2^-45 to an extremum; C93_noreduce: arguments between -3/2 and 3/2 are not reduced. Missing: an argument reduction which overflows to NaN, and the integrator (defint_log2_autostep), which is assumed to be correct."
  },
  {
   "property": "C94",
   "status": "partial",
   "theorems": [
    "Kv.C94_partial",
    "Kv.C94_ad_partial"
   ],
   "note": "Both versions of odelong_qr, for calls in which the argument and the results of the linear systems are finite. odelong_qr_lohner is the same program with other one-step solvers. The one-step solvers (ode; ode_lohner, which is not always correct, see C81) are assumed to enclose the flow and its derivative. Missing: infinite or NaN entries in the argument or in the results of vleq."
  },
  {
   "property": "C95",
   "status": "partial",
   "theorems": [
    "Kv.C95_strobo",
    "Kv.C95_strobo_sound",
    "Kv.C95_strobo_periodic_partial",
    "Kv.C95_poincare_sound",
    "Kv.C95_poincare_periodic_partial",
    "Kv.C95_shooting"
   ],
   "note": "C95_strobo, C95_strobo_sound, C95_poincare_sound, C95_shooting hold in full for a correct solver. The two theorems about periodic solutions need a bounded result of the Krawczyk test (see C28). The versions for double and affine arguments and Shooting_TPBVP for autodif are not modelled."
  },
  {
   "property": "C96",
   "status": "partial",
   "theorems": [
    "Kv.C96_affine_partial",
    "Kv.C96_partial",
    "Kv.C96_maxnum",
    "Kv.C96_maxnum_violated"
   ],
   "note": "C96_affine_partial and C96_partial: calls in which the coefficients and ranges of the forms of all steps are finite, with one-step solvers that enclose the flow and its derivative. C96_maxnum: the counter of noise symbols is restored on return. C96_maxnum_violated: it is not restored if the function throws. Missing: forms with infinite or NaN coefficients; the claim about exceptions is false."
  }
 ]
}