"""Writes /verif/MANIFEST.json from the table below; checks that each theorem exists in Verif/Props."""
import json, re, glob, os
ROOT = os.path.dirname(os.path.dirname(os.path.abspath(__file__)))
have = {}
dup = set()
for f in glob.glob(ROOT + "/lean/Verif/Props/*.lean"):
    ns = []
    for line in open(f):
        m = re.match(r"(namespace|end|theorem) (\S+)", line)
        if not m:
            continue
        if m[1] == "namespace":
            ns.append(m[2])
        elif m[1] == "end":
            if ns and ns[-1] == m[2]:
                ns.pop()
        else:
            full = ".".join(ns + [m[2]])
            dup |= {m[2]} if have.get(m[2], full) != full else set()
            have[m[2]] = full

def P(note, *th): return ("proved", note, th)
def Q(note, *th): return ("partial", note, th)

CLAIMS = {
"C01": P("Value of every constructor.", "surd_new_value", "surd_new_value_real", "surd_fromCoeffs_value", "surd_ofInt_value", "surd_ofRat_value"),
"C02": P("Normal form and exact panic conditions of the constructors; every surd reachable through the public API is normal. (Re-constructing from parts may still shrink the root: witness surd_new_not_idempotent.)",
  "surd_reach_ok",  "surd_new_returns_iff", "surd_new_panics", "surd_new_normal", "surd_fromCoeffs_normal", "surd_ofInt_normal", "surd_ofRat_normal", "surd_new_not_idempotent"),
"C03": Q("False as stated (sqrt(8) == -2*sqrt(2)); the partial theorem characterises == exactly.", "surd_eq_refuted", "surd_eq_complete", "surd_eq_partial", "surd_eq_same_root"),
"C04": Q("Transitivity and Hash agreement are false (witnesses); true for surds with a common root.", "surd_eq_refl", "surd_eq_symm", "surd_eq_trans_refuted", "surd_hash_refuted", "surd_eq_equivalence_partial"),
"C05": P("All operands for which the sum/difference returns.", "surd_add_value", "surd_sub_value", "surd_add_value_real", "surd_sub_value_real"),
"C06": Q("False for two purely imaginary operands with different roots (sign); exact otherwise.", "surd_mul_value_refuted", "surd_mul_value_partial", "surd_mul_pure_imaginary", "surd_mul_value_real"),
"C07": Q("Reciprocal exact; quotient false for two purely imaginary operands with different roots (sign); exact otherwise.", "surd_recip_value", "surd_recip_returns_iff", "surd_div_value_refuted", "surd_div_value_partial", "surd_div_pure_imaginary", "surd_div_value_real"),
"C08": Q("Exact return conditions for all four operators; the claim is false for 0/irrational, which panics.", "surd_add_returns_iff", "surd_sub_returns_iff", "surd_mul_returns_iff", "surd_binop_panics", "surd_div_returns_refuted", "surd_div_returns_iff", "surd_div_returns_partial"),
"C09": P("Integer and rational right operands.", "surd_addRat_value", "surd_subRat_value", "surd_mulRat_value", "surd_divRat_value", "surd_divRat_zero", "surd_addInt_value", "surd_subInt_value", "surd_mulInt_value", "surd_divInt_value", "surd_divInt_zero"),
"C10": P("Conjugate, norm, negation, numerator and denominator.", "surd_conj_value", "surd_conj_ok", "surd_conj_conj", "surd_conj_complex", "surd_conj_sum", "surd_norm_value", "surd_neg_value", "surd_numer_denom"),
"C11": P("Sign tests decide the sign of the real number.", "surd_isPositive", "surd_isNegative", "surd_isZero", "surd_isOne"),
"C12": P("floor is the mathematical floor.", "surd_floor"),
"C13": Q("False (5-sqrt(2) gives 4); exact condition for correctness and error < 1 proved; Exact iff integer; complex trunc exact.", "surd_trunc_refuted", "surd_trunc_partial", "surd_trunc_complex", "surd_toInteger"),
"C14": P("trunc and fract return and add up to the number, also with the library's own + and ==.", "surd_trunc_add_fract"),
"C15": Q("False for b < 0 (-sqrt(2) gives 1/1); proved for rational surds and for b > 0; for irrational surds the claim holds exactly if b > 0.", "surd_toRational_iff", "surd_toRational_refuted", "surd_toRational_partial"),
"C16": Q("from_rationals exact; from_equation returns a root and None only when there is none; 'conjugate is the other root' is false for rational roots (x^2-3x+2), true for irrational ones.", "surd_fromRationals_value", "surd_fromEquation_root", "surd_fromEquation_none", "surd_fromEquation_conj_refuted", "surd_fromEquation_conj_partial"),
"C17": P("Integers and rationals, any integer range.", "surd_fromSqrtInt", "surd_fromSqrtRat"),
"C18": Q("Value, error data, completeness of Unrepresentable; the result can be negative (witness), non-negative exactly if the rational part of the true root is positive.", "surd_fromSqrt_part", "surd_fromSqrt_nonneg_iff", "surd_fromSqrt_value", "surd_fromSqrt_unrepresentable", "surd_fromSqrt_error", "surd_fromSqrt_complex", "surd_fromSqrt_complete", "surd_fromSqrt_nonneg_refuted", "surd_fromSqrt_nonneg_partial"),
"C19": Q("False: reduced() of a rational surd never returns, and panics for i8; everything else proved.", "surd_reduced_hangs", "surd_reduced_i8_panics", "surd_reduced_partial"),
"C20": Q("is_rational, is_integer, is_complex, is_pure exact; is_quadint and is_gaussint false (witnesses) with exact partial results.", "surd_isRational", "surd_isInteger", "surd_isComplex", "surd_isPure", "surd_isQuadint_refuted", "surd_isQuadint_partial", "surd_isGaussint_refuted", "surd_isGaussint_partial", "surd_isQuadint_exact", "surd_isQuadint_missed", "surd_isGaussint_exact"),
"C21": Q("False: to_quadint panics for rational surds and negative roots divisible by 4, to_gaussint maps sqrt(2) to Exact(i); exact return condition and exactness otherwise.", "surd_toQuadint_refuted", "surd_toQuadint_partial", "surd_toGaussint_refuted", "surd_toGaussint_partial", "surd_toGaussint_exact"),
"C22": P("The printed text is read back as an expression with exactly the value of the surd, in both formats; different values print differently.", "surd_display_reads", "surd_display_inj"),
"C23": Q("False: sign errors ([-1,4] gives +3/4), panics on admissible input ([2,0,-5]) and an empty result for infinity; the absolute value is always right, and the result is exact for non-negative coefficients and for coefficients of absolute value at least 2.", "new_value_up_to_sign", "new_nonneg_value_partial", "new_large_value_partial", "new_sign_wrong", "new_panics", "new_infinite", "new_panic_kinds", "new_large_value_exact", "new_large_value_iff"),
"C24": Q("Canonical form proved for every finite value, uniqueness of canonical forms proved; equal values give equal coefficients, but the sign can differ (witness).", "new_canonical", "canonical_unique", "new_unique_partial", "new_not_unique"),
"C25": Q("False for negative coefficients: the period is not negated along with the aperiodic part, and the result need not be canonical. Exact for non-negative coefficients with a positive period. Every result has, up to sign, the value of the input or of the input with its period negated; for coefficients of absolute value at least two the result is computed exactly, and right exactly when the last aperiodic coefficient is not negative.", "new_periodic_value_partial", "new_periodic_wrong", "new_periodic_not_canonical", "new_periodic_up_to_sign", "new_periodic_large_exact", "new_periodic_one_exact", "valOf_negated_period_ne", "new_periodic_one_iff", "new_periodic_large_iff", "new_unimplemented_iff", "new_zeros_period", "new_period_kept"),
"C26": P("Expansion exact and canonical, value exact, both round trips, is_rational and is_integer exact on standard forms; to_rational of a periodic fraction is an approximation.", "cf_ofRat", "cf_ofInt", "cf_toRational_finite", "cf_rat_roundtrip", "cf_ofRat_toRational", "cf_toRational_periodic", "cf_isRational", "cf_isInteger", "cf_isInteger_needs_std", "cf_toInteger"),
"C27": Q("coeffs, generalized and unsigned iterators yield exactly the coefficients; into_coeffs repeats only the first periodic coefficient (witness [1;(1,2)]); it is right iff all periodic coefficients are equal.", "cf_coeffsUnsigned", "cf_coeffs", "cf_generalized", "cf_intoCoeffs", "cf_intoCoeffs_refuted", "cf_intoCoeffs_partial", "cf_intoCoeffs_iff"),
"C28": P("Convergents are the true ones in order, denominators increase, errors alternate and obey the classical bounds, limit and last convergent.", "cf_convergents", "cf_convergents_nth", "cf_conv_den_mono", "cf_conv_alternate", "cf_conv_error", "cf_conv_error_next", "cf_conv_tendsto", "cf_conv_last"),
"C29": Q("False: values between the signed and unsigned range wrap into wrong convergents, and the iterator continues after None; exact up to the first value outside the signed range, and it stops there if outside the unsigned range; while the convergents fit the unsigned type the item is given exactly, and it is right exactly if its own numerator and denominator fit the signed type.", "cf_conv_prim_partial", "cf_conv_prim_item", "cf_conv_prim_right_iff", "cf_conv_prim_stops", "cf_conv_prim_wrong", "cf_conv_prim_not_fused"),
"C30": Q("False: the bound 1/limit^2 fails (sqrt(2), limit 169) limit 0 returns a value of the wrong sign for -sqrt(2), and an overflow of fixed-width integers is reported as Exact; value and the bound 1/(q*limit) proved.", "cf_approximated_partial", "cf_approximated_refuted", "cf_approximated_small_limit", "cf_approximated_overflow"),
"C31": Q("Negation exact. Integer shift false for purely periodic tails with a sign change and for a0+k = -1 (1/4 - 1 = 3/4), exact otherwise; in the excluded cases always wrong. For every finite fraction the result is described exactly: the sum, except that a positive number which becomes one between -1 and 0 loses its sign; for periodic ones the value is given in all cases too.", "cf_neg", "cf_addInt_exact", "cf_addInt_value", "cf_addInt_partial", "cf_subInt_partial", "cf_addInt_wrong", "cf_addInt_refuted", "cf_addInt_not_wf"),
"C34": P("Printing returns exactly for fractions with a first coefficient; equal texts come from equal fractions. Reading a printed fraction back always panics (FromStr is not implemented).", "cf_display_returns_iff", "cf_display_inj", "cf_display_parse_panics"),
"C37": Q("Right whenever it returns; the only panic is the one for incompatible roots, with a witness, and none occurs for rational fractions, with at most two aperiodic coefficients, or for a square-free root of the period. In the other cases it returns exactly if, of the square factors which the numerator and the denominator lose from the root of the period, one divides the other.", "cf_toSurd_value", "cf_toSurd_partial", "cf_toSurd_panics", "cf_toSurd_refuted", "cf_toSurd_no_head", "cf_toSurd_returns_iff"),
"C35": Q("Exact value of every computed fraction: the number itself, except that some numbers are replaced by their conjugate and some lose their sign (witnesses); right outside these two cases, in particular when the number and its irrational part have the same sign.", "surd_toContfrac_value", "surd_toContfrac_value_partial", "surd_toContfrac_value_same_sign", "surd_toContfrac_refuted"),
"C36": Q("False for rationals (panic) and for some irrationals (3 - sqrt(2) loops for ever); never a panic on irrationals, an exact condition for returning, and three sufficient ones.", "surd_toContfrac_returns_of_split", "surd_split_of_le", "surd_toContfrac_returns_iff", "surd_toContfrac_returns_partial", "surd_toContfrac_returns_of_not_dvd", "surd_toContfrac_returns_refuted", "surd_toContfrac_rational", "surd_toContfrac_complex"),
"C38": P("from_sqrt, conversion to a fraction of the value sqrt(n), and conversion back, for every non-square n; more generally for numbers whose conjugate has the opposite sign.", "sqrt_round_trip", "surd_round_trip"),
"C32": P("Canonical fraction of the exact result for all six operations with numbers and four with fractions; division by zero panics.", "cf_num_rational", "cf_bin_rational"),
"C33": Q("False (sqrt(2) - sqrt(2) panics, sqrt(7) - 3 loses its sign, 3 - sqrt(2) loops); exact value of every returned fraction, results that are rational are never returned, right value and return under sign conditions on the result; exact condition for returning, panicking and running for ever.", "cf_num_periodic_value", "cf_bin_periodic_value", "cf_num_periodic_value_partial", "cf_bin_periodic_value_partial", "cf_num_periodic_returns_partial", "cf_bin_periodic_returns_partial", "cf_bin_periodic_returns_apart", "cf_num_periodic_returns_apart", "cf_num_rational_result", "cf_bin_rational_result", "cf_num_periodic_exact", "cf_bin_periodic_exact", "cf_arith_refuted"),
"C59": Q("The bound, rationals, and the numbers the conversion to a fraction gets wrong refute it; error at most 1/(q*limit) for numbers whose conjugate has the opposite sign or is farther away than the fractional part, and exact behaviour for all irrationals in terms of the value of the converted fraction.", "surd_approximated_partial", "surd_approximated_apart", "surd_approximated_value", "surd_approximated_complex", "surd_approximated_refuted"),
"C39": P("Value after any number of outputs in homogeneous coordinates for all entries (in the reals for irrational values), regular expansion for non-negative entries; homo_pole shows what fails for other signs.", "homo_value", "homo_value_irrational", "homo_regular", "homo_pole"),
"C40": P("Every call returns for irrational x > 0, non-negative entries and non-zero determinant.", "homo_productive"),
"C42": Q("False as stated: a zero denominator on the way panics, and an overflow loses a step (gconv_refuted). Proved: whatever is yielded, for every integer type, is the nested fraction; all are yielded for positive streams and unbounded integers; the exact panic condition.", "gconv_partial", "gconv_all", "gconv_positive", "gconv_panics_iff", "gconv_refuted"),
"C43": P("Value for all streams, regular expansion and productivity for positive streams.", "simplify_value", "simplify_regular", "simplify_productive"),
"C44": Q("False for numbers from ten on (decimals_refuted: 12.6 starts with '<'). For numbers below ten: digits for positive streams, unbounded integers or fixed width with overflow checks; productivity. For all positive numbers: what is emitted instead, exactly.", "decimals_partial", "decimals_productive", "decimals_refuted", "decimals_all", "decimals_all_productive", "decimals_all_panics", "decimals_first_iff"),
"C60": Q("False: the pairs are emitted in the wrong order (coefficient, 1); for sqrt(2) they denote 2. Right only when all coefficients are 1.", "generalize_pairs", "generalize_partial", "generalize_refuted", "generalize_value_refuted"),
"C62": Q("False: the unchecked multiplication by 10 panics or wraps to a wrong digit on u8; correct as long as it does not overflow (decimals_partial); the capacity check of the moves ends the digits without a panic.", "decimals_capacity_refuted", "decimals_capacity_partial", "decimals_partial"),
"C41": Q("False: panics on the first call for every polynomial function (x+y, x-y, xy) and x/y, never returns for y/x and 1/(x+y); a move right is wrong (exact condition), the flags are exchanged. Proved: moves down and outputs keep the value, outputs are integer parts for non-negative entries.", "bihomo_partial", "bihomo_polynomial_refuted", "bihomo_quotient_refuted", "bihomo_hangs", "bihomo_quotient_hangs", "bihomo_flags_hang", "rmoveRight_value_iff", "rmoveDown_value", "reduceRecip_floor"),
"C45": P("Convergents for every integer t and integer type; all of them are computed for unbounded integers; limit e^t.", "exp_pairs", "exp_convergents", "exp_convergents_all", "exp_limit"),
"C46": P("Closed form, value e, regular expansion of e; with C40 the homographic function of e.", "e_coeffs", "e_value", "e_regular", "e_homo"),
"C47": P("Closed form, value pi, all convergents, regular coefficients and decimal digits for unbounded integers; digits on bounded types with overflow checks.", "pi_pairs", "pi_value", "pi_convergents", "pi_simplify", "pi_decimals", "pi_decimals_bounded"),
"C48": P("No panic, no end and no rounding loss for unbounded integers; also Eq (22) from Eq (21) of the cited paper.", "gamma_exact", "gamma_q_recurrence"),
"C61": Q("False: the error bound fails (value 2, limit 4, result 5/3), Exact is said wrongly after an overflow on u8, an empty sequence panics. Proved for positive fractions and unbounded integers: which convergent is returned, its error is at most the distance to the next convergent, and that the call returns.", "gapprox_partial", "gapprox_returns", "gapprox_refuted"),
"C63": P("Refinement of the arbitrary-precision operations for every function, read as exact values, and representability of everything stored.", "fixed_new_refines", "fixed_arith_refines", "fixed_scalar_refines", "fixed_unary_refines", "fixed_arith_value", "fixed_new_value", "fixed_floor_value", "fixed_new_holds", "fixed_arith_holds"),
"C64": P("Bounds in B for every operation, in both build modes.", "fixed_new_safe", "fixed_fromRationals_safe", "fixed_arith_safe", "fixed_int_safe", "fixed_rat_safe", "fixed_div_safe", "fixed_unary_safe", "fixed_eq_safe"),
"C65": Q("False for every primitive width: the square of a common divisor wraps and new returns another number (with checks the same call panics although the result fits); == of 2^k sqrt 2 and 2^k sqrt 3 is true at every width; sign tests are wrong for sqrt 2 - 2^(w-2). Proved: release agrees with arbitrary precision whenever the checked run does not overflow.", "fixed_release_refuted", "fixed_spurious_overflow", "fixed_eq_refuted", "fixed_sign_refuted", "fixed_release_partial"),
"C66": P("Step-by-step refinement into the arbitrary-precision model, read also as exact values; everything stored is representable in both modes.", "fixed_qint_unary_refines", "fixed_qint_arith_refines", "fixed_gint_refines", "fixed_qint_value", "fixed_gint_value", "fixed_qint_holds", "fixed_gint_holds"),
"C67": P("Bounds tracked through every operator; the bounds hold with and without overflow checks.", "fixed_qint_arith_safe", "fixed_qint_unary_safe", "fixed_gint_safe"),
"C68": Q("False at every width for Gaussian division (2^k / 2^k divides by zero), == (2^k sqrt 2 == 2^k sqrt 3) and the norm for discriminant MIN+1. Proved: ring operations, conjugate and norm return the exact result whenever it fits (equal discriminants or a rational operand), and every operation agrees with arbitrary precision whenever the checked run does not overflow.", "fixed_gint_ring_partial", "fixed_qint_ring_partial", "fixed_gint_div_refuted", "fixed_qint_eq_refuted", "fixed_qint_norm_refuted", "fixed_qint_release_partial"),
"C69": Q("Checked runs refine BigInt when periodic coefficients are not negative; everything stored fits; exact in both builds when the sum of the aperiodic part fits (sharp). False for negative periodic coefficients (stored silently as huge ones in both builds), for [MIN] with the sign flag in release builds, and for unsigned coefficients with the sign flag (panic or 2^w - a).", "fixed_cf_new_partial", "fixed_cf_new_fits", "fixed_cf_new_exact", "fixed_cf_new_unsigned", "fixed_cf_new_sharp", "fixed_cf_new_refuted", "fixed_cf_new_unsigned_refuted", "fixed_cf_new_period_refuted", "fixed_cf_new_release_partial"),
"C70": Q("Exact for everything except numerator MIN: checked builds panic there; release builds are right for integers and wrong for ratios (witness at every width).", "fixed_cf_ofInt_partial", "fixed_cf_ofInt_unsigned", "fixed_cf_ofInt_refuted", "fixed_cf_ofRat_partial", "fixed_cf_ofRat_min", "fixed_cf_ofRat_refuted"),
"C71": Q("Checked runs refine BigInt when the coefficients after the first fit the signed type; otherwise false in both builds at every width ([1; 2^w-2] - 3 = -5/2). Exact ranges, representability, sign-preserving shifts; 0 - MIN is wrong in release builds.", "fixed_cf_add_partial", "fixed_cf_add_exact", "fixed_cf_add_same_sign", "fixed_cf_add_fits", "fixed_cf_add_release", "fixed_cf_add_refuted", "fixed_cf_sub_refuted"),
"C72": Q("Exact at every index whose coefficient fits the signed type; at every other coefficient the exact wrong value is given (both builds).", "fixed_cf_coeffs_partial", "fixed_cf_coeffs_refuted"),
"C73": Q("Exact in both builds if the returned number fits the signed type. False otherwise: to_rational silently returns an earlier convergent marked exact, or a ratio with negative denominator; to_integer of 2^w-1 is -1.", "fixed_cf_conv_refines", "fixed_cf_conv_partial", "fixed_cf_to_rational_partial", "fixed_cf_to_rational_refuted", "fixed_cf_conv_den_min", "fixed_cf_to_integer_partial", "fixed_cf_to_integer_refuted"),
"C74": P("Every entry of the state stays representable; yielded convergents of non-negative pairs are representable.", "gconv_block_fits", "gconv_fits", "decimals_block_fits"),
"C75": Q("False without overflow checks (witness for the widths 16, 32, 64, 128, ...); proved with overflow checks, and without them the result is the checked one unless that is an overflow; the coefficients always fit.", "fixed_surd_to_cf_partial", "fixed_surd_to_cf_fits", "fixed_surd_to_cf_release", "fixed_surd_to_cf_refuted"),
"C76": P("All states of the two loops are bounded by the discriminant; exact in both kinds of build.", "fixed_surd_to_cf_exact", "fixed_surd_to_cf_small"),
"C77": Q("False if an integer read off the fraction exceeds the signed type (witness in both kinds of build, all widths >= 6) and in release builds (witness for all even widths >= 6); otherwise proved with overflow checks, the fields always fit, and the ranges are proved in both kinds of build.", "fixed_cf_to_surd_partial", "fixed_cf_to_surd_value_partial", "fixed_cf_to_surd_fits", "fixed_cf_to_surd_release", "fixed_cf_to_surd_finite", "fixed_cf_to_surd_exact", "fixed_cf_to_surd_refuted", "fixed_cf_to_surd_release_refuted"),
"C78": Q("False if an integer read off a fraction exceeds the signed type (witness in both kinds of build) and in release builds (witness); otherwise proved with overflow checks, the coefficients always fit, and the range for finite fractions is proved in both kinds of build.", "fixed_cf_num_partial", "fixed_cf_bin_partial", "fixed_cf_num_value_partial", "fixed_cf_bin_value_partial", "fixed_cf_periodic_value_partial", "fixed_cf_arith_fits", "fixed_cf_arith_release", "fixed_cf_num_exact", "fixed_cf_bin_exact", "fixed_cf_arith_refuted", "fixed_cf_arith_release_refuted"),
"C79": Q("False with overflow checks (from_sqrt panics on every positive non-square ratio whose squared denominator does not fit) and in release builds (wrong root, witnesses for all widths); errors of the ratio version exact in both builds, value and error claims proved with checks, results representable, explicit ranges in both builds.", "fixed_sqrt_rat_errors", "fixed_sqrt_rat_partial", "fixed_sqrt_rat_exact", "fixed_sqrt_rat_refuted", "fixed_sqrt_surd_partial", "fixed_sqrt_fits", "fixed_sqrt_release_partial", "fixed_sqrt_surd_exact", "fixed_sqrt_rat_release_refuted", "fixed_sqrt_release_refuted"),
"C80": Q("False for widths 16 to 128 in both kinds of build (witness); never returns on rational surds and never returns a surd for i8; proved with overflow checks up to an overflow panic, and in an explicit range in both builds.", "fixed_reduced_partial", "fixed_reduced_fits", "fixed_reduced_release_partial", "fixed_reduced_exact", "fixed_reduced_refuted", "fixed_reduced_hangs", "fixed_reduced_i8"),
"C81": Q("False with cancellation (to_f64 = 1.0 for a negative i64 surd) and beyond the range of floats (NaN); error bound relative to the terms for all fields up to 2^128, relative error 2^-50 and sign without cancellation, nearest float for small rationals, and both parts of to_complex64.", "surd_toF64_none", "surd_toF64_error", "surd_toF64_partial", "surd_toF64_rational", "surd_toF64_sign_refuted", "surd_toF64_nan_refuted", "surd_toComplex64_error", "surd_toComplex64_real"),
"C82": P("Both constants are the correctly rounded floats (bounds of e and pi from Mathlib); from_f64 relative to Ratio::from_f64.", "e_float", "pi_float", "float_nearest", "surd_fromF64"),
"C83": Q("False without overflow checks for signed and unsigned types (witnesses for every width); with checks the outputs are exact, the exact range in both builds, state invariants, bihomo refines the run over BigInt.", "prim_homo_call", "prim_homo_exact", "prim_homo_regular_partial", "prim_homo_range", "prim_homo_state", "prim_homo_signed_refuted", "prim_homo_unsigned_refuted", "prim_bihomo_call", "prim_bihomo_state"),
"C84": Q("False without overflow checks for signed and unsigned types (witnesses for every width); with checks the outputs are exact, the exact range in both builds, state invariants.", "prim_simplify_call", "prim_simplify_exact", "prim_simplify_regular_partial", "prim_simplify_range", "prim_simplify_state", "prim_simplify_signed_refuted", "prim_simplify_unsigned_refuted"),
"C85": Q("Exact item ranges in both builds and panics otherwise; false: e panics two items early and is wrong without checks, exp panics on a representable pair, pi gets partial numerators 0 without checks.", "prim_e", "prim_e_count_partial", "prim_e_early_refuted", "prim_e_unsigned_refuted", "prim_e_signed_refuted", "prim_pi", "prim_pi_release", "prim_pi_refuted", "prim_exp", "prim_exp_early_refuted", "prim_coeffs_rel"),
"C86": Q("With checks every item is exact or an overflow panic, with the exact numbers of items for i8 to i128; false: panics on representable items, wrong items without checks for every type.", "prim_gamma_partial", "prim_gamma_rel", "prim_gamma_count", "prim_gamma_early_refuted", "prim_gamma_refuted"),
"C87": Q("With checks only coefficients of pi and (ae+b)/(ce+d), with the exact numbers of coefficients of pi; false without checks for every width (witnesses).", "prim_pi_simplify_partial", "prim_pi_simplify_count", "prim_pi_simplify_refuted", "prim_e_homo_partial"),
"C88": Q("The period is always the shortest. False for the part before it, and equal surds can give different fractions (30 - sqrt(7) written in two ways); both hold if no complete quotient has its integer part computed too large, in particular for numbers with a conjugate of opposite sign, or, if the irrational part has the sign of the number, farther away than the fractional part.", "surd_toContfrac_period", "surd_toContfrac_shortest_partial", "surd_toContfrac_shortest_neg_conj", "surd_toContfrac_same_partial", "surd_toContfrac_same_neg_conj", "surd_toContfrac_shortest_apart", "surd_toContfrac_same_apart", "surd_toContfrac_shortest_refuted"),
"C89": Q("Equivalence relation, sound, exact for finite fractions and between finite and periodic ones; false for periodic fractions written in a longer way (witnesses), exact for those written in the shortest way.", "cf_eq_equiv", "cf_eq_sound", "cf_eq_finite", "cf_eq_mixed", "cf_val_periodic_iff", "cf_eq_partial", "cf_shortest_one", "cf_eq_refuted"),
"C90": Q("The way back gives the value of the fraction or panics on incompatible roots (witness); for numbers with a conjugate of opposite sign both round trips work, and the fraction is the same exactly if it was written in the shortest way.", "surd_cf_surd_value", "surd_cf_surd_partial", "surd_cf_surd_refuted", "cf_surd_cf_partial", "surd_cf_surd_apart", "cf_surd_cf_apart", "surd_round_trip"),
"C91": Q("Commutativity and inverses hold, including panics. Associativity and distributivity are false (panic on one side only; wrong values with the complex feature) and hold for real numbers whenever both sides return.", "surd_comm_fields", "surd_add_comm", "surd_mul_comm", "surd_sub_self", "surd_div_self", "surd_laws_partial", "surd_laws_refuted"),
"C92": Q("Proved for GaussianInt and within one ring Z[w] (same discriminant, rationals stored with discriminant zero), even as equality of representations. False across rings (witnesses); there the laws hold up to == when both sides return.", "qint_ring_ops", "qint_ring_laws", "qint_mul_div", "gint_ring_laws", "gint_mul_div", "qint_laws_partial", "qint_laws_refuted"),
"C93": Q("Never None; exact for Gaussian integers of 24 bits; nearest up to a relative error of 2^-49 with exact overflow threshold. 'Nearest' itself is false: 2^60+2^36+1 (double rounding).", "surd_toComplex32_some", "surd_toComplex32_partial", "surd_toComplex32_real_partial", "surd_toComplex32_gauss", "surd_toComplex32_nearest_refuted"),
"C94": Q("Commutativity and x - y = x + (-y) hold for all fractions; all laws of a field hold for rational ones. x - x and x / x panic for every irrational x; the other laws are proved for results with a conjugate of opposite sign and refuted otherwise.", "cf_add_comm", "cf_mul_comm", "cf_sub_eq_add_neg", "cf_neg_neg", "cf_rational_field", "cf_sub_self_refuted", "cf_bin_shortest_partial", "cf_bin_same_partial", "cf_bin_shortest_apart", "cf_bin_same_apart", "cf_laws_partial", "cf_laws_refuted"),
"C95": Q("The nested fractions are defined, converge to Euler's constant and are what convergents() yields. False for simplify (the coefficients are not regular) and decimals (0578, then a panic); whatever simplify yields together with its state still represents Euler's constant.", "gamma_src", "gamma_nested", "gamma_value", "gamma_convergents", "gamma_above", "gamma_simplify_partial", "gamma_simplify_refuted", "gamma_decimals_refuted"),
"C96": Q("Proved for all negative t (including that e^t is irrational, so that the streams never end), the digits for t = 0, and the coefficients for t = 1 (they are those of e at every position). Otherwise false for positive t (the 13th digit of e, negative coefficients of e^2, first coefficient of e^3), and simplify hangs for t = 0.", "exp_neg_simplify_partial", "exp_one_simplify_partial", "exp_one_agrees_partial", "exp_neg_decimals_partial", "exp_neg_decimals_productive", "exp_zero_decimals", "exp_zero_simplify_refuted", "exp_pos_refuted"),
"C97": Q("Proved for the moves, the checked moves, and what the two outputs leave behind. The digits are exact if the entries of the denominator have the same sign; with a pole at a positive argument a digit can be wrong, and is wrong at some argument unless the block stands for a constant.", "block_moves", "block_gmove_coprime", "block_checked_moves", "block_outputs", "block_digit_partial", "block_digit_refuted", "block_digit_iff"),
"C98": Q("Square roots proved for every integer but the least, which panics. to_i64 and to_u64 never return a wrong number and never miss one, but can panic instead of returning None.", "fixed_sqrt_int", "fixed_toPrim_partial", "fixed_toPrim_refuted"),
"C99": P("", "cf_rebuild", "cf_collect", "cf_collect_periodic"),
"C100": Q("Proved for surds. False for quadratic integers: a rational one stored over a non-zero discriminant breaks 0+x == x and is_one; the exact condition is proved.", "surd_zero_one", "qint_zero_one_partial", "qint_zero_one_refuted"),
"C101": Q("Proved, also for builds without overflow checks, if the convergents that are read fit, in particular if (A+1)(B+1)*limit fits, A and B bounds of the coefficients. Otherwise the iterator ends on overflow and the last convergent that fitted is reported as Exact, or a wrong fraction is.", "fixed_cf_approximated_partial", "fixed_cf_approximated_range", "fixed_cf_approximated_refuted", "fixed_surd_approximated_partial", "fixed_surd_approximated_refuted"),
"C102": P("The answer of approximated need not be the closest fraction up to the limit, since a convergent whose denominator is the limit is not taken (C30).", "cf_conv_best", "cf_conv_closest", "cf_approximated_which", "cf_approximated_best", "surd_approximated_best", "surd_approximated_best_val"),
"C103": P("", "cf_good_is_convergent", "cf_good_sharp"),
"C104": P("", "cf_sqrt_period", "surd_sqrt_period"),
"C105": P("", "cf_pell", "surd_pell"),
"C106": P("", "cf_conv_fib", "cf_conv_fib_sharp", "cf_ofRat_length", "cf_approximated_steps", "cf_approximated_steps64"),
"C107": P("", "surd_period_length", "surd_head_length", "surd_toContfrac_steps", "surd_toContfrac_rounds"),
"C108": Q("Shape, existence and uniqueness of the value, equality of finite fractions and the exact panics are proved for everything that can be built. Well-formedness is false: an integer subtraction or new leaves a zero before the period (then convergents can divide by zero), and new builds fractions without coefficients; it is proved without these steps.", "cf_reach_tame", "cf_reach_value", "cf_reach_finite_eq", "cf_reach_toSurd", "cf_reach_num_panics", "cf_reach_bin_panics", "cf_reach_refuted", "cf_built_wf_partial"),
"C109": P("Equivalence for fractions, value of the reversed period, and both directions for the conversion of surds.", "cf_galois", "cf_galois_reverse", "cf_pure_shape", "surd_galois", "surd_galois_converse"),
"C110": Q("Exact up to 64 bits, with round trips. False for 128 bits (None for 2^63 as i128 and 2^64 as u128, also from BigInt) and for to_f32 (double rounding); there the exact condition and the error are proved.", "surd_toPrimW", "surd_toPrimW_partial", "surd_prim128_refuted", "surd_fromPrimW", "surd_toF32", "surd_toF32_partial", "surd_toF32_nearest_refuted"),
"C111": P("For the fractions given by QuadraticSurd::to_contfrac; the bound is sharp in the sense of cf_small_norm_sharp.", "cf_small_norm", "cf_norms", "surd_norms", "cf_small_norm_sharp"),
"C112": P("The computed fraction must have the value of the surd; C35 proves exactly when it has.", "cf_homo", "surd_homo"),
"C113": Q("False: when its source ends the iterator ends too, and the coefficients not yet decided are lost (the identity on [2] yields nothing). Proved exactly: the outputs are the common beginning of the expansions of f([a0;...,an]) and f([a0;...,an-1]), and after them None for ever; so they are a beginning of the right answer, complete iff that answer is a beginning of the other expansion; the identity function loses exactly the last coefficient, or the last three if the last but one is 1.", "homo_finite", "homo_finite_prefix", "homo_identity_finite", "homo_identity_finite_one", "homo_finite_refuted", "expansion_exists_unique"),
"C114": Q("False: both end with their source and lose what is still undecided (1 + 3/(2 + 5/4) = 25/13 simplifies to nothing; 2 + 1/2 prints 2 instead of 25). Proved exactly: simplify gives the common beginning of the expansions of the last two convergents, decimals the digits before the first position at which the last two convergents differ, and then None for ever.", "simplify_finite", "simplify_finite_prefix", "simplify_finite_refuted", "decimals_finite", "decimals_finite_one", "decimals_finite_refuted"),
"C115": P("The theorem of Serret for the expansion by integer parts, for the outputs of homo() in both directions, and for the periods of fractions and of those computed from surds, including those replaced by their conjugate.", "equivalent_iff", "homo_unimodular", "homo_unimodular_converse", "cf_equivalent_period", "cf_conj_period", "surd_equivalent_period", "surd_shift_period", "surd_period_swapped"),
"C116": P("The two iterators yield the same outputs, as many as wanted.", "homo_compose"),
"C117": P("Results modulo 2^w, the laws without checks, the laws with checks, and a counterexample for == at every width of at least 4 bits.", "fixed_qint_mod", "fixed_qint_laws", "fixed_qint_laws_checked", "fixed_qint_distrib_eq_refuted", "fixed_gint_laws", "fixed_gint_laws_checked", "fixed_qint_norm_conj", "fixed_gint_norm_conj"),
"C118": Q("Commutativity holds in every build, including the panics. x - x is zero except for the root MIN, where it panics; both are proved. Associativity and distributivity hold with overflow checks; without them they are false at every width of at least 7 bits.", "fixed_surd_add_comm", "fixed_surd_mul_comm", "fixed_surd_sub_self", "fixed_surd_sub_self_min", "fixed_surd_laws_partial", "fixed_surd_assoc_refuted", "fixed_surd_distrib_refuted"),
"C119": Q("True of sums, of products without overflow checks, of products with discriminants other than 1 modulo 4, and of Gaussian integers. False of products with discriminant 5 in checked builds, at every width.", "fixed_qint_add_comm", "fixed_qint_mul_comm", "fixed_qint_mul_comm_partial", "fixed_qint_mul_comm_refuted", "fixed_gint_comm"),
"C120": P("Which of two panics is raised may differ unless both fractions are finite. Readability is asked only of the finite fraction of a mixed pair.", "fixed_cf_add_comm", "fixed_cf_mul_comm", "fixed_cf_comm_finite", "fixed_rational_to_cf"),
"C121": Q("False as stated: x / y and x * y.recip() may each panic where the other returns, and over primitive integers so may x - y and x + (-y); without checks the last two may return different numbers, in every primitive width. Proved: wherever both return (with checks on, for primitive integers) the results agree. Over unbounded integers the claim for differences holds with the panics.", "surd_div_mul_recip_refuted", "surd_zero_div_mul_recip", "surd_div_mul_recip_partial", "fixed_div_mul_recip_partial", "surd_comm_fields", "cf_sub_eq_add_neg", "fixed_sub_add_neg_partial", "fixed_sub_add_neg_refuted", "fixed_sub_add_neg_release_refuted", "fixed_cf_sub_add_neg_partial", "fixed_cf_sub_add_neg_refuted"),
"C122": Q("False as stated with complex numbers enabled (1/(i*i+1) returns 1/2), for a root that is not square-free (the summands of (2+sqrt 72)/2 + (3+sqrt 72)/3 are stored with the roots 18 and 8, and adding them panics), and where zero is divided by an irrational number. Proved: without the complex feature every returned surd is the number denoted and calculations of one number compare equal; over one square-free root a calculation returns exactly if its formula is defined and divides no zero by an irrational number, and the fields returned are equal exactly if the numbers are. With overflow checks a calculation over primitive integers that returns returns the same.", "formula_value", "formula_eq", "formula_returns_iff", "formula_root", "formula_same", "formula_fixed", "formula_fixed_value", "formula_returns_refuted", "formula_complex_refuted"),
"C123": P("Both directions, with the panic, for arbitrary precision. Over primitive integers with checks on and literals that fit the type. Without checks it is false, with a witness in i8.", "cf_formula", "cf_formula_same", "cf_formula_fixed", "cf_formula_fixed_same", "cf_formula_release_refuted"),
"C124": Q("False for roots that are squares (1 + sqrt 9 is calculated as 6). Proved for all other roots the constructor accepts, and for GaussianInt without restriction; over primitive integers with checks the result is the same or an overflow, and without checks it is the exact result modulo 2^w, hence exact whenever the exact result is representable.", "qformula_partial", "qformula_same_partial", "qformula_refuted", "qformula_fixed", "gformula", "qformula_release_partial", "gformula_release"),
"C125": Q("Proved for GaussianInt, with the number of rounds; over primitive integers with checks the same or an overflow, and no overflow in a range. False for QuadraticInt: the loop never ends for 6 and 4, panics for 7+3w and 2+w over the discriminant -3, and returns -3 for 5+w and 8+w, which divides neither; all because the remainder by a rational divisor is the quotient. Proved for it wherever no rational divisor comes up.", "gint_gcd", "fixed_gint_gcd", "fixed_gint_gcd_safe", "qint_gcd_partial", "qint_gcd_endless_refuted", "qint_gcd_panics_refuted", "qint_gcd_wrong_refuted"),
"C126": Q("False for the digits of a negative number: decimals prints the leading zeros and then panics (witnesses, and proved for every negative irrational). Proved: the symmetry for simplify and convergents for all streams; generalized().simplify() = coeffs() for both signs; the digits of positive periodic fractions and surds below ten, for a surd unless the conversion swaps it with its conjugate (C35).", "simplify_neg", "convergents_neg", "decimals_neg_partial", "decimals_neg_refuted", "cf_generalized_simplify", "cf_generalized_decimals", "surd_decimals_partial"),
"C127": Q("False: sqrt(7) - 3 + 3 returns 6 - sqrt(7), and 3 - sqrt(2) never returns. Proved: the exact number every returned fraction stands for, for all formulas; the number denoted if every result with an irrational operand has an irrational part of its own sign; equal fractions for equal numbers with a conjugate of opposite sign; and that a fraction changed by numbers step after step is returned if all results have a conjugate of opposite sign.", "pformula_stored", "pformula_value_partial", "pformula_same_partial", "pformula_chain_partial", "pformula_chain_apart_partial", "pformula_refuted"),
"C128": Q("False for every negative r: sqrt(r)*sqrt(r) is -r with surds and r with quadratic integers; and to_quadint panics on a surd that became an integer. Proved: same number, denominator 1 and exact conversion for all positive non-square r, and for negative r whenever no product is one of two multiples of sqrt(r); same equalities between formulas; the same over primitive integers with overflow checks whenever both return.", "surd_integral_partial", "agree_partial", "agree_same_partial", "agree_gauss_partial", "agree_refuted", "runSurd_fixed", "agree_fixed_partial"),
"C129": Q("False: new(30,-3,12,60) has trunc 0 and fract equal to itself, but that fract is stored as (5-sqrt 15)/2 and has trunc 1, so trunc depends on the stored form and fract is not idempotent; trunc of 5-sqrt 2 exceeds its floor. Proved for all real surds: everything claimed of floor, oddness of trunc (panics included) and of fract, idempotence of floor and trunc; idempotence of fract for every surd reduce() leaves alone, in particular over square-free roots.", "floor_laws", "trunc_neg", "fract_neg", "fract_fract_partial", "fract_fract_squarefree", "fract_refuted", "trunc_floor_refuted"),
"C130": Q("False: new(12,-2,18,18) == new(2,-1,3,2), but only the first converts to a continued fraction of its value; new(6,3,6,12) == new(1,1,1,3), but only the second is an exact quadratic integer, and their rational approximations are 5/2 and 2; equal surds have different trunc. Proved: over square-free roots, over equal roots and for rationals the stored form is unique, so every function agrees; in general the sign tests, floor, and the tests for rationals, integers, zero and one agree, and so does to_contfrac when the conjugate has the opposite sign.", "stored_unique", "stored_same_partial", "stored_contfrac_partial", "stored_refuted"),
"C131": Q("False in general: sqrt(8) == -2*sqrt(2) sends a program into the wrong branch, (2+sqrt 72)/2 + (3+sqrt 72)/3 panics, and so does 0/sqrt 2. Proved for all programs without complex numbers: a program without == that finishes has done what real numbers would do; over one square-free root this holds with ==, the program finishes exactly if it would with real numbers (where 0 divided by an irrational counts as a failure), and ends with canonical fields; over primitive integers with overflow checks every program does the same, step by step, or panics with an overflow; in a range there is no overflow, in both kinds of build.", "prog_value", "prog_iff", "prog_panic", "prog_canonical", "runs_unique", "prog_fixed", "prog_fixed_refines", "prog_fixed_range", "prog_fixed_range_value", "prog_refuted"),
"C132": P("For every real surd with a non-zero root: every step returns, the n-th surd is the n-th complete quotient, its root divides the root of the first one, its floor is the n-th coefficient, and the sequence of stored surds is eventually periodic; a well-formed periodic fraction with this value exists.", "hand_value", "hand_contfrac", "hand_periodic", "hand_lagrange"),
"C133": P("For every well-formed fraction, finite or periodic, of either sign.", "cf_vahlen", "cf_borel", "cf_borel_two", "cf_hurwitz_sharp"),
"C134": P("For the fraction of every surd with the value sqrt(N), also over roots that are not square-free, and for every other fraction with this value that is written in the shortest way.", "cf_pell_powers", "surd_pell_powers"),
"C135": P("The number of remainders is at most 1 + log2(x^2+1).", "gint_two_squares", "fixed_two_squares", "fixed_two_squares_safe", "gint_two_squares_prime"),
"C136": P("The bound cannot be dropped: over i8 and without checks the expansion of sqrt(118) goes wrong (fixed_hand_refuted).", "fixed_hand", "fixed_hand_sqrt", "fixed_hand_refuted"),
"C137": P("The items between the signed and the unsigned range are wrong fractions, see C29 (cf_fib_prim_refuted).", "qint_fib", "surd_fib", "cf_fib", "cf_fib_prim", "cf_fib_prim_stops", "cf_fib_prim_refuted", "fixed_qint_fib"),
"C138": P("The differences that remain are proved as well: square roots of negative numbers (surd_config_sqrt_refuted, prog_config_refuted) and the kinds of three panics (surd_config_toContfrac_refuted, cf_config_binary_refuted, qint_config_rem_refuted); the theorems named _partial are the ones without those panics.", "surd_config_binary", "surd_config_root", "surd_config_unary", "surd_config_number", "surd_config_new", "surd_config_sqrt", "surd_config_sqrt_refuted", "prog_config", "prog_config_refuted", "cf_config_new", "cf_config_int", "cf_config_toSurd", "surd_config_toContfrac", "surd_config_toContfrac_refuted", "surd_config_toContfrac_partial", "cf_config_number_partial", "cf_config_binary_partial", "cf_config_binary_refuted", "qint_config_binary", "qint_config_new", "qint_config_rem_refuted", "surd_config_toQuadint"),
"C139": Q("True with overflow checks; false with wrap-around (fixed_config_mul_refuted: sqrt(13)*sqrt(11) over i8).", "fixed_config_binary", "fixed_config_mul_refuted", "fixed_config_unary", "fixed_prog_config"),
"C140": P("Exact condition, stated with the imaginary part of the number.", "surd_refuses_complex", "fixed_refuses_complex"),
"C141": Q("False for purely imaginary numbers, which the library multiplies with the wrong sign: x^2+1 at i gives 2. Proved for all other numbers; the round trip through from_equation holds for all.", "horner_value_partial", "horner_value_refuted", "equation_check_partial", "equation_check_conj_partial", "equation_roundtrip"),
"C142": P("Exact lists; for N = 1 modulo 4 the units are located among the convergents.", "qint_unit_iff", "qint_unit_inverse", "qint_units_imaginary", "qint_units_real", "qint_units_half", "gint_units"),
"C143": P("Unbounded integers and checked primitive integers; without overflow checks it is false (fixed_less_refuted).", "surd_less", "surd_less_order", "surd_sort", "fixed_less", "fixed_sort", "fixed_less_refuted"),
"C144": Q("Proved, except for % with rational operands: 3 divides 6, but 6 % 3 is 2, and 6 % sqrt(2) panics.", "gint_divides_iff", "qint_divides_iff", "qint_divides_rem_partial", "qint_divides_refuted"),
"C145": Q("Quadratic integers: proved in full. Real surds: whatever is returned is right, for all roots; that it returns is proved for square-free roots and is false in general: the 15th power of (24375+sqrt(455625000))/6000 panics. False for complex surds: (1+i)^4 gives 4 instead of -4; multiplying again and again by the number is right unless it is purely imaginary.", "qint_pow", "surd_pow_value", "surd_pow_partial", "surd_pow_slow", "surd_pow_panics", "surd_pow_refuted", "fixed_pow", "fixed_qint_pow", "fixed_qint_pow_release"),
"C146": Q("Proved in full for finite fractions. Periodic ones: what is returned is right if the irrational part of every power has the sign of the power, as for all A + B*sqrt(R) with positive A and B. False for square roots: no power but the first is ever returned; and the cube of (6+sqrt 6)/4 panics because its powers have roots that are not multiples of each other. For A + B*sqrt(R) with A >= 1 and 2B*sqrt(R) >= 1 every power ends, with the right fraction or with that panic, and the powers 2^j are always returned. Missing: whether powers of other periodic fractions end.", "cf_pow_ends_partial", "cf_pow_two_partial", "cf_pow_panics", "cf_pow_finite", "cf_pow_value_partial", "sameSign_pow", "cf_pow_refuted"),
"C147": Q("Proved in full for finite fractions, with the panic for zero. Periodic ones: proved if the irrational part of the reciprocal has the sign of the number, in particular for numbers with a conjugate of opposite sign; with at most two coefficients before the period, the reciprocals of these are always returned, and so are the reciprocals of the reciprocals, which are the same numbers. False otherwise: 1/((3+sqrt 2)/7) never returns.", "cf_recip_finite", "cf_recip_periodic_partial", "cf_recip_periodic_returns_partial", "cf_recip_recip_partial", "sameSign_recip", "cf_recip_refuted"),
"C148": Q("Proved for Gaussian integers, with the number of rounds, and for quadratic integers over the discriminants -3, -2, -1, 2, 3, 5 and 13. For all discriminants it never panics and whatever is returned is right. False in that it need not end over other discriminants: 1+sqrt(-5) and 2.", "gint_ext", "gint_ext_inverse", "fixed_gint_ext", "qint_ext_value", "qint_ext_returns_partial", "qint_ext_refuted"),
"C149": Q("Proved for programs that do not use both / and ==; without / every number also stays stored in the documented way. False with both: (5+sqrt(2))/3 is rounded to 2 but is not == 2, so a branch goes the wrong way. Over primitive integers with overflow checks a program does the same or panics with an overflow; without checks it is false. In a range there is no overflow, in both kinds of build. What programs with both / and == do is described exactly: rational numbers carry a mark, and == compares the marks.", "qint_prog_partial", "qint_prog_exact", "qint_prog_panic_partial", "qint_prog_stored", "qint_prog_refuted", "fixed_qint_prog", "fixed_qint_prog_value_partial", "fixed_qint_prog_range", "fixed_qint_prog_refuted"),
"C150": P("Over primitive integers with overflow checks a program does the same or panics with an overflow; in a range there is no overflow, in both kinds of build.", "gint_prog", "gint_prog_panic", "fixed_gint_prog", "fixed_gint_prog_value", "fixed_gint_prog_range"),
"C151": Q("Proved for programs without integers added or subtracted and without is_one. False with either: 1/4 - 1 gives 3/4, and is_one is true for -1, so a branch goes the wrong way. Over primitive integers with overflow checks a program does the same or panics with an overflow; without checks it is false. In a range there is no overflow, in both kinds of build. What programs do with these two operations is described exactly.", "cf_prog_partial", "cf_prog_exact", "fixed_cf_prog_range_partial", "cf_prog_refuted", "fixed_cf_prog_partial", "fixed_cf_prog_refuted"),
"C58": Q("is_zero exact; is_one is also true for -1 (witness), and with the sign flag checked it is exact.", "cf_zero_one", "cf_isOne_refuted"),
"C49": Q("False for square roots/discriminants (new(1,1,9) = 6) and root 0 (panic); exact return conditions and the value otherwise.", "qint_fromCoeffs_returns_iff", "qint_fromCoeffs_value_refuted", "qint_fromCoeffs_value_partial", "qint_new_returns_iff", "qint_new_returns_refuted", "qint_new_value_refuted", "qint_new_value_partial"),
"C50": P("Exact values and exact return conditions; every reachable quadratic integer satisfies the invariant used.", "qint_reach_ok", "qint_int_ops", "qint_add_value", "qint_sub_value", "qint_mul_value", "qint_add_returns_iff", "qint_sub_returns_iff", "qint_mul_returns_iff", "qint_add_same_field_panics"),
"C51": Q("Division exact as claimed; % is false for rational operands (5 % 3 = 2, 5 % sqrt(2) panics) and proved for irrational ones.", "qint_divInt", "qint_div_returns_iff", "qint_div_value", "qint_rem_refuted", "qint_rem_rational", "qint_rem_partial"),
"C52": Q("Fully proved for GaussianInt (remainder norm at most half); for QuadraticInt false with rational divisors and proved for irrational operands over D = -3, -2, -1, 2, 3, 5, 13, and for no other D.", "gint_ring_ops", "gint_euclid", "gint_div_zero", "qint_eisenstein_refuted", "qint_euclid_partial", "qint_euclid_iff"),
"C53": P("Conjugation, norm, multiplicativity.", "qint_conj", "qint_norm", "qint_norm_mul"),
"C54": Q("False in both directions (witnesses); never panics, equal operands are equal or conjugate, equal normalised numbers compare equal, exact for equal discriminants.", "qint_eq_refuted", "qint_eq_returns", "qint_eq_same_discr_partial", "qint_eq_sound_partial", "qint_eq_complete_partial", "qint_eq_exact"),
"C55": P("Nearest integer division with ties away from zero; the conditions determine the result.", "qint_divRemRound", "qint_divRemRound_round", "roundAway_unique", "qint_divRemRound_zero"),
"C56": Q("is_rational exact; is_pure false for D = 2, 3 mod 4 and panics for rationals; right for D = 1 mod 4.", "qint_isRational", "qint_isPure_refuted", "qint_isPure_partial"),
"C57": P("Round trip and exactness for any target range.", "surd_toPrim", "surd_prim_roundtrip", "surd_fromPrim_none"),
}

def main():
    out = []
    for k in sorted(CLAIMS):
        st, note, th = CLAIMS[k]
        for t in th:
            assert t in have and t not in dup, t
        out.append({"property": k, "status": st, "theorems": [have[t] for t in th], "note": note})
    with open(ROOT + "/MANIFEST.json", "w") as f:
        json.dump({"claims": out}, f, indent=1)
        f.write("\n")
main()
