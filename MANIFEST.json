{
 "claims": [
  {
   "property": "C01",
   "status": "proved",
   "theorems": [
    "NumIrr.surd_new_value",
    "NumIrr.surd_new_value_real",
    "NumIrr.surd_fromCoeffs_value",
    "NumIrr.surd_ofInt_value",
    "NumIrr.surd_ofRat_value"
   ],
   "note": "Value of every constructor."
  },
  {
   "property": "C02",
   "status": "proved",
   "theorems": [
    "NumIrr.surd_reach_ok",
    "NumIrr.surd_new_returns_iff",
    "NumIrr.surd_new_panics",
    "NumIrr.surd_new_normal",
    "NumIrr.surd_fromCoeffs_normal",
    "NumIrr.surd_ofInt_normal",
    "NumIrr.surd_ofRat_normal",
    "NumIrr.surd_new_not_idempotent"
   ],
   "note": "Normal form and exact panic conditions of the constructors; every surd reachable through the public API is normal. (Re-constructing from parts may still shrink the root: witness surd_new_not_idempotent.)"
  },
  {
   "property": "C03",
   "status": "partial",
   "theorems": [
    "NumIrr.surd_eq_refuted",
    "NumIrr.surd_eq_complete",
    "NumIrr.surd_eq_partial",
    "NumIrr.surd_eq_same_root"
   ],
   "note": "False as stated (sqrt(8) == -2*sqrt(2)); the partial theorem characterises == exactly."
  },
  {
   "property": "C04",
   "status": "partial",
   "theorems": [
    "NumIrr.surd_eq_refl",
    "NumIrr.surd_eq_symm",
    "NumIrr.surd_eq_trans_refuted",
    "NumIrr.surd_hash_refuted",
    "NumIrr.surd_eq_equivalence_partial"
   ],
   "note": "Transitivity and Hash agreement are false (witnesses); true for surds with a common root."
  },
  {
   "property": "C05",
   "status": "proved",
   "theorems": [
    "NumIrr.surd_add_value",
    "NumIrr.surd_sub_value",
    "NumIrr.surd_add_value_real",
    "NumIrr.surd_sub_value_real"
   ],
   "note": "All operands for which the sum/difference returns."
  },
  {
   "property": "C06",
   "status": "partial",
   "theorems": [
    "NumIrr.surd_mul_value_refuted",
    "NumIrr.surd_mul_value_partial",
    "NumIrr.surd_mul_pure_imaginary",
    "NumIrr.surd_mul_value_real"
   ],
   "note": "False for two purely imaginary operands with different roots (sign); exact otherwise."
  },
  {
   "property": "C07",
   "status": "partial",
   "theorems": [
    "NumIrr.surd_recip_value",
    "NumIrr.surd_recip_returns_iff",
    "NumIrr.surd_div_value_refuted",
    "NumIrr.surd_div_value_partial",
    "NumIrr.surd_div_pure_imaginary",
    "NumIrr.surd_div_value_real"
   ],
   "note": "Reciprocal exact; quotient false for two purely imaginary operands with different roots (sign); exact otherwise."
  },
  {
   "property": "C08",
   "status": "partial",
   "theorems": [
    "NumIrr.surd_add_returns_iff",
    "NumIrr.surd_sub_returns_iff",
    "NumIrr.surd_mul_returns_iff",
    "NumIrr.surd_binop_panics",
    "NumIrr.surd_div_returns_refuted",
    "NumIrr.surd_div_returns_iff",
    "NumIrr.surd_div_returns_partial"
   ],
   "note": "Exact return conditions for all four operators; the claim is false for 0/irrational, which panics."
  },
  {
   "property": "C09",
   "status": "proved",
   "theorems": [
    "NumIrr.surd_addRat_value",
    "NumIrr.surd_subRat_value",
    "NumIrr.surd_mulRat_value",
    "NumIrr.surd_divRat_value",
    "NumIrr.surd_divRat_zero",
    "NumIrr.surd_addInt_value",
    "NumIrr.surd_subInt_value",
    "NumIrr.surd_mulInt_value",
    "NumIrr.surd_divInt_value",
    "NumIrr.surd_divInt_zero"
   ],
   "note": "Integer and rational right operands."
  },
  {
   "property": "C10",
   "status": "proved",
   "theorems": [
    "NumIrr.surd_conj_value",
    "NumIrr.surd_conj_ok",
    "NumIrr.surd_conj_conj",
    "NumIrr.surd_conj_complex",
    "NumIrr.surd_conj_sum",
    "NumIrr.surd_norm_value",
    "NumIrr.surd_neg_value",
    "NumIrr.surd_numer_denom"
   ],
   "note": "Conjugate, norm, negation, numerator and denominator."
  },
  {
   "property": "C100",
   "status": "partial",
   "theorems": [
    "NumIrr.surd_zero_one",
    "NumIrr.QInt.qint_zero_one_partial",
    "NumIrr.QInt.qint_zero_one_refuted"
   ],
   "note": "Proved for surds. False for quadratic integers: a rational one stored over a non-zero discriminant breaks 0+x == x and is_one; the exact condition is proved."
  },
  {
   "property": "C101",
   "status": "partial",
   "theorems": [
    "NumIrr.fixed_cf_approximated_partial",
    "NumIrr.fixed_cf_approximated_range",
    "NumIrr.fixed_cf_approximated_refuted",
    "NumIrr.fixed_surd_approximated_partial",
    "NumIrr.fixed_surd_approximated_refuted"
   ],
   "note": "Proved, also for builds without overflow checks, if the convergents that are read fit, in particular if (A+1)(B+1)*limit fits, A and B bounds of the coefficients. Otherwise the iterator ends on overflow and the last convergent that fitted is reported as Exact, or a wrong fraction is."
  },
  {
   "property": "C102",
   "status": "proved",
   "theorems": [
    "NumIrr.CF.cf_conv_best",
    "NumIrr.CF.cf_conv_closest",
    "NumIrr.CF.cf_approximated_which",
    "NumIrr.CF.cf_approximated_best",
    "NumIrr.Surd.surd_approximated_best",
    "NumIrr.Surd.surd_approximated_best_val"
   ],
   "note": "The answer of approximated need not be the closest fraction up to the limit, since a convergent whose denominator is the limit is not taken (C30)."
  },
  {
   "property": "C103",
   "status": "proved",
   "theorems": [
    "NumIrr.CF.cf_good_is_convergent",
    "NumIrr.CF.cf_good_sharp"
   ],
   "note": ""
  },
  {
   "property": "C104",
   "status": "proved",
   "theorems": [
    "NumIrr.CF.cf_sqrt_period",
    "NumIrr.Surd.surd_sqrt_period"
   ],
   "note": ""
  },
  {
   "property": "C105",
   "status": "proved",
   "theorems": [
    "NumIrr.CF.cf_pell",
    "NumIrr.Surd.surd_pell"
   ],
   "note": ""
  },
  {
   "property": "C106",
   "status": "proved",
   "theorems": [
    "NumIrr.CF.cf_conv_fib",
    "NumIrr.CF.cf_conv_fib_sharp",
    "NumIrr.CF.cf_ofRat_length",
    "NumIrr.CF.cf_approximated_steps",
    "NumIrr.CF.cf_approximated_steps64"
   ],
   "note": ""
  },
  {
   "property": "C107",
   "status": "proved",
   "theorems": [
    "NumIrr.Surd.surd_period_length",
    "NumIrr.Surd.surd_head_length",
    "NumIrr.Surd.surd_toContfrac_steps",
    "NumIrr.Surd.surd_toContfrac_rounds"
   ],
   "note": ""
  },
  {
   "property": "C108",
   "status": "partial",
   "theorems": [
    "NumIrr.CF.cf_reach_tame",
    "NumIrr.CF.cf_reach_value",
    "NumIrr.CF.cf_reach_finite_eq",
    "NumIrr.CF.cf_reach_toSurd",
    "NumIrr.CF.cf_reach_num_panics",
    "NumIrr.CF.cf_reach_bin_panics",
    "NumIrr.CF.cf_reach_refuted",
    "NumIrr.CF.cf_built_wf_partial"
   ],
   "note": "Shape, existence and uniqueness of the value, equality of finite fractions and the exact panics are proved for everything that can be built. Well-formedness is false: an integer subtraction or new leaves a zero before the period (then convergents can divide by zero), and new builds fractions without coefficients; it is proved without these steps."
  },
  {
   "property": "C109",
   "status": "proved",
   "theorems": [
    "NumIrr.CF.cf_galois",
    "NumIrr.CF.cf_galois_reverse",
    "NumIrr.CF.cf_pure_shape",
    "NumIrr.Surd.surd_galois",
    "NumIrr.Surd.surd_galois_converse"
   ],
   "note": "Equivalence for fractions, value of the reversed period, and both directions for the conversion of surds."
  },
  {
   "property": "C11",
   "status": "proved",
   "theorems": [
    "NumIrr.surd_isPositive",
    "NumIrr.surd_isNegative",
    "NumIrr.surd_isZero",
    "NumIrr.surd_isOne"
   ],
   "note": "Sign tests decide the sign of the real number."
  },
  {
   "property": "C110",
   "status": "partial",
   "theorems": [
    "NumIrr.surd_toPrimW",
    "NumIrr.surd_toPrimW_partial",
    "NumIrr.surd_prim128_refuted",
    "NumIrr.surd_fromPrimW",
    "NumIrr.surd_toF32",
    "NumIrr.surd_toF32_partial",
    "NumIrr.surd_toF32_nearest_refuted"
   ],
   "note": "Exact up to 64 bits, with round trips. False for 128 bits (None for 2^63 as i128 and 2^64 as u128, also from BigInt) and for to_f32 (double rounding); there the exact condition and the error are proved."
  },
  {
   "property": "C111",
   "status": "proved",
   "theorems": [
    "NumIrr.CF.cf_small_norm",
    "NumIrr.CF.cf_norms",
    "NumIrr.Surd.surd_norms",
    "NumIrr.CF.cf_small_norm_sharp"
   ],
   "note": "For the fractions given by QuadraticSurd::to_contfrac; the bound is sharp in the sense of cf_small_norm_sharp."
  },
  {
   "property": "C112",
   "status": "proved",
   "theorems": [
    "NumIrr.CF.cf_homo",
    "NumIrr.Surd.surd_homo"
   ],
   "note": "The computed fraction must have the value of the surd; C35 proves exactly when it has."
  },
  {
   "property": "C113",
   "status": "partial",
   "theorems": [
    "NumIrr.homo_finite",
    "NumIrr.homo_finite_prefix",
    "NumIrr.homo_identity_finite",
    "NumIrr.homo_identity_finite_one",
    "NumIrr.homo_finite_refuted",
    "NumIrr.expansion_exists_unique"
   ],
   "note": "False: when its source ends the iterator ends too, and the coefficients not yet decided are lost (the identity on [2] yields nothing). Proved exactly: the outputs are the common beginning of the expansions of f([a0;...,an]) and f([a0;...,an-1]), and after them None for ever; so they are a beginning of the right answer, complete iff that answer is a beginning of the other expansion; the identity function loses exactly the last coefficient, or the last three if the last but one is 1."
  },
  {
   "property": "C114",
   "status": "partial",
   "theorems": [
    "NumIrr.simplify_finite",
    "NumIrr.simplify_finite_prefix",
    "NumIrr.simplify_finite_refuted",
    "NumIrr.decimals_finite",
    "NumIrr.decimals_finite_one",
    "NumIrr.decimals_finite_refuted"
   ],
   "note": "False: both end with their source and lose what is still undecided (1 + 3/(2 + 5/4) = 25/13 simplifies to nothing; 2 + 1/2 prints 2 instead of 25). Proved exactly: simplify gives the common beginning of the expansions of the last two convergents, decimals the digits before the first position at which the last two convergents differ, and then None for ever."
  },
  {
   "property": "C115",
   "status": "proved",
   "theorems": [
    "NumIrr.equivalent_iff",
    "NumIrr.Homo.homo_unimodular",
    "NumIrr.Homo.homo_unimodular_converse",
    "NumIrr.CF.cf_equivalent_period",
    "NumIrr.CF.cf_conj_period",
    "NumIrr.Surd.surd_equivalent_period",
    "NumIrr.Surd.surd_shift_period",
    "NumIrr.Surd.surd_period_swapped"
   ],
   "note": "The theorem of Serret for the expansion by integer parts, for the outputs of homo() in both directions, and for the periods of fractions and of those computed from surds, including those replaced by their conjugate."
  },
  {
   "property": "C116",
   "status": "proved",
   "theorems": [
    "NumIrr.Homo.homo_compose"
   ],
   "note": "The two iterators yield the same outputs, as many as wanted."
  },
  {
   "property": "C117",
   "status": "proved",
   "theorems": [
    "NumIrr.fixed_qint_mod",
    "NumIrr.fixed_qint_laws",
    "NumIrr.fixed_qint_laws_checked",
    "NumIrr.fixed_qint_distrib_eq_refuted",
    "NumIrr.fixed_gint_laws",
    "NumIrr.fixed_gint_laws_checked",
    "NumIrr.fixed_qint_norm_conj",
    "NumIrr.fixed_gint_norm_conj"
   ],
   "note": "Results modulo 2^w, the laws without checks, the laws with checks, and a counterexample for == at every width of at least 4 bits."
  },
  {
   "property": "C118",
   "status": "partial",
   "theorems": [
    "NumIrr.fixed_surd_add_comm",
    "NumIrr.fixed_surd_mul_comm",
    "NumIrr.fixed_surd_sub_self",
    "NumIrr.fixed_surd_sub_self_min",
    "NumIrr.fixed_surd_laws_partial",
    "NumIrr.fixed_surd_assoc_refuted",
    "NumIrr.fixed_surd_distrib_refuted"
   ],
   "note": "Commutativity holds in every build, including the panics. x - x is zero except for the root MIN, where it panics; both are proved. Associativity and distributivity hold with overflow checks; without them they are false at every width of at least 7 bits."
  },
  {
   "property": "C119",
   "status": "partial",
   "theorems": [
    "NumIrr.fixed_qint_add_comm",
    "NumIrr.fixed_qint_mul_comm",
    "NumIrr.fixed_qint_mul_comm_partial",
    "NumIrr.fixed_qint_mul_comm_refuted",
    "NumIrr.fixed_gint_comm"
   ],
   "note": "True of sums, of products without overflow checks, of products with discriminants other than 1 modulo 4, and of Gaussian integers. False of products with discriminant 5 in checked builds, at every width."
  },
  {
   "property": "C12",
   "status": "proved",
   "theorems": [
    "NumIrr.surd_floor"
   ],
   "note": "floor is the mathematical floor."
  },
  {
   "property": "C120",
   "status": "proved",
   "theorems": [
    "NumIrr.fixed_cf_add_comm",
    "NumIrr.fixed_cf_mul_comm",
    "NumIrr.fixed_cf_comm_finite",
    "NumIrr.fixed_rational_to_cf"
   ],
   "note": "Which of two panics is raised may differ unless both fractions are finite. Readability is asked only of the finite fraction of a mixed pair."
  },
  {
   "property": "C121",
   "status": "partial",
   "theorems": [
    "NumIrr.surd_div_mul_recip_refuted",
    "NumIrr.surd_zero_div_mul_recip",
    "NumIrr.surd_div_mul_recip_partial",
    "NumIrr.fixed_div_mul_recip_partial",
    "NumIrr.CF.surd_comm_fields",
    "NumIrr.CF.cf_sub_eq_add_neg",
    "NumIrr.fixed_sub_add_neg_partial",
    "NumIrr.fixed_sub_add_neg_refuted",
    "NumIrr.fixed_sub_add_neg_release_refuted",
    "NumIrr.fixed_cf_sub_add_neg_partial",
    "NumIrr.fixed_cf_sub_add_neg_refuted"
   ],
   "note": "False as stated: x / y and x * y.recip() may each panic where the other returns, and over primitive integers so may x - y and x + (-y); without checks the last two may return different numbers, in every primitive width. Proved: wherever both return (with checks on, for primitive integers) the results agree. Over unbounded integers the claim for differences holds with the panics."
  },
  {
   "property": "C122",
   "status": "partial",
   "theorems": [
    "NumIrr.Formula.formula_value",
    "NumIrr.Formula.formula_eq",
    "NumIrr.Formula.formula_returns_iff",
    "NumIrr.Formula.formula_root",
    "NumIrr.Formula.formula_same",
    "NumIrr.Formula.formula_fixed",
    "NumIrr.Formula.formula_fixed_value",
    "NumIrr.Formula.formula_returns_refuted",
    "NumIrr.Formula.formula_complex_refuted"
   ],
   "note": "False as stated with complex numbers enabled (1/(i*i+1) returns 1/2), for a root that is not square-free (the summands of (2+sqrt 72)/2 + (3+sqrt 72)/3 are stored with the roots 18 and 8, and adding them panics), and where zero is divided by an irrational number. Proved: without the complex feature every returned surd is the number denoted and calculations of one number compare equal; over one square-free root a calculation returns exactly if its formula is defined and divides no zero by an irrational number, and the fields returned are equal exactly if the numbers are. With overflow checks a calculation over primitive integers that returns returns the same."
  },
  {
   "property": "C123",
   "status": "proved",
   "theorems": [
    "NumIrr.CFFormula.cf_formula",
    "NumIrr.CFFormula.cf_formula_same",
    "NumIrr.CFFormula.cf_formula_fixed",
    "NumIrr.CFFormula.cf_formula_fixed_same",
    "NumIrr.CFFormula.cf_formula_release_refuted"
   ],
   "note": "Both directions, with the panic, for arbitrary precision. Over primitive integers with checks on and literals that fit the type. Without checks it is false, with a witness in i8."
  },
  {
   "property": "C124",
   "status": "partial",
   "theorems": [
    "NumIrr.QFormula.qformula_partial",
    "NumIrr.QFormula.qformula_same_partial",
    "NumIrr.QFormula.qformula_refuted",
    "NumIrr.QFormula.qformula_fixed",
    "NumIrr.QFormula.gformula",
    "NumIrr.QFormula.qformula_release_partial",
    "NumIrr.QFormula.gformula_release"
   ],
   "note": "False for roots that are squares (1 + sqrt 9 is calculated as 6). Proved for all other roots the constructor accepts, and for GaussianInt without restriction; over primitive integers with checks the result is the same or an overflow, and without checks it is the exact result modulo 2^w, hence exact whenever the exact result is representable."
  },
  {
   "property": "C125",
   "status": "partial",
   "theorems": [
    "NumIrr.gint_gcd",
    "NumIrr.fixed_gint_gcd",
    "NumIrr.fixed_gint_gcd_safe",
    "NumIrr.qint_gcd_partial",
    "NumIrr.qint_gcd_endless_refuted",
    "NumIrr.qint_gcd_panics_refuted",
    "NumIrr.qint_gcd_wrong_refuted"
   ],
   "note": "Proved for GaussianInt, with the number of rounds; over primitive integers with checks the same or an overflow, and no overflow in a range. False for QuadraticInt: the loop never ends for 6 and 4, panics for 7+3w and 2+w over the discriminant -3, and returns -3 for 5+w and 8+w, which divides neither; all because the remainder by a rational divisor is the quotient. Proved for it wherever no rational divisor comes up."
  },
  {
   "property": "C126",
   "status": "partial",
   "theorems": [
    "NumIrr.GIter.simplify_neg",
    "NumIrr.GIter.convergents_neg",
    "NumIrr.GIter.decimals_neg_partial",
    "NumIrr.GIter.decimals_neg_refuted",
    "NumIrr.CF.cf_generalized_simplify",
    "NumIrr.CF.cf_generalized_decimals",
    "NumIrr.Surd.surd_decimals_partial"
   ],
   "note": "False for the digits of a negative number: decimals prints the leading zeros and then panics (witnesses, and proved for every negative irrational). Proved: the symmetry for simplify and convergents for all streams; generalized().simplify() = coeffs() for both signs; the digits of positive periodic fractions and surds below ten, for a surd unless the conversion swaps it with its conjugate (C35)."
  },
  {
   "property": "C127",
   "status": "partial",
   "theorems": [
    "NumIrr.PFormula.pformula_stored",
    "NumIrr.PFormula.pformula_value_partial",
    "NumIrr.PFormula.pformula_same_partial",
    "NumIrr.PFormula.pformula_chain_partial",
    "NumIrr.PFormula.pformula_chain_apart_partial",
    "NumIrr.PFormula.pformula_refuted"
   ],
   "note": "False: sqrt(7) - 3 + 3 returns 6 - sqrt(7), and 3 - sqrt(2) never returns. Proved: the exact number every returned fraction stands for, for all formulas; the number denoted if every result with an irrational operand has an irrational part of its own sign; equal fractions for equal numbers with a conjugate of opposite sign; and that a fraction changed by numbers step after step is returned if all results have a conjugate of opposite sign."
  },
  {
   "property": "C128",
   "status": "partial",
   "theorems": [
    "NumIrr.QFormula.surd_integral_partial",
    "NumIrr.QFormula.agree_partial",
    "NumIrr.QFormula.agree_same_partial",
    "NumIrr.QFormula.agree_gauss_partial",
    "NumIrr.QFormula.agree_refuted",
    "NumIrr.QFormula.runSurd_fixed",
    "NumIrr.QFormula.agree_fixed_partial"
   ],
   "note": "False for every negative r: sqrt(r)*sqrt(r) is -r with surds and r with quadratic integers; and to_quadint panics on a surd that became an integer. Proved: same number, denominator 1 and exact conversion for all positive non-square r, and for negative r whenever no product is one of two multiples of sqrt(r); same equalities between formulas; the same over primitive integers with overflow checks whenever both return."
  },
  {
   "property": "C129",
   "status": "partial",
   "theorems": [
    "NumIrr.floor_laws",
    "NumIrr.trunc_neg",
    "NumIrr.fract_neg",
    "NumIrr.fract_fract_partial",
    "NumIrr.fract_fract_squarefree",
    "NumIrr.fract_refuted",
    "NumIrr.trunc_floor_refuted"
   ],
   "note": "False: new(30,-3,12,60) has trunc 0 and fract equal to itself, but that fract is stored as (5-sqrt 15)/2 and has trunc 1, so trunc depends on the stored form and fract is not idempotent; trunc of 5-sqrt 2 exceeds its floor. Proved for all real surds: everything claimed of floor, oddness of trunc (panics included) and of fract, idempotence of floor and trunc; idempotence of fract for every surd reduce() leaves alone, in particular over square-free roots."
  },
  {
   "property": "C13",
   "status": "partial",
   "theorems": [
    "NumIrr.surd_trunc_refuted",
    "NumIrr.surd_trunc_partial",
    "NumIrr.surd_trunc_complex",
    "NumIrr.surd_toInteger"
   ],
   "note": "False (5-sqrt(2) gives 4); exact condition for correctness and error < 1 proved; Exact iff integer; complex trunc exact."
  },
  {
   "property": "C130",
   "status": "partial",
   "theorems": [
    "NumIrr.Surd.stored_unique",
    "NumIrr.Surd.stored_same_partial",
    "NumIrr.Surd.stored_contfrac_partial",
    "NumIrr.Surd.stored_refuted"
   ],
   "note": "False: new(12,-2,18,18) == new(2,-1,3,2), but only the first converts to a continued fraction of its value; new(6,3,6,12) == new(1,1,1,3), but only the second is an exact quadratic integer, and their rational approximations are 5/2 and 2; equal surds have different trunc. Proved: over square-free roots, over equal roots and for rationals the stored form is unique, so every function agrees; in general the sign tests, floor, and the tests for rationals, integers, zero and one agree, and so does to_contfrac when the conjugate has the opposite sign."
  },
  {
   "property": "C131",
   "status": "partial",
   "theorems": [
    "NumIrr.SProg.prog_value",
    "NumIrr.SProg.prog_iff",
    "NumIrr.SProg.prog_panic",
    "NumIrr.SProg.prog_canonical",
    "NumIrr.SProg.runs_unique",
    "NumIrr.SProg.prog_fixed",
    "NumIrr.SProg.prog_fixed_refines",
    "NumIrr.SProg.prog_fixed_range",
    "NumIrr.SProg.prog_fixed_range_value",
    "NumIrr.SProg.prog_refuted"
   ],
   "note": "False in general: sqrt(8) == -2*sqrt(2) sends a program into the wrong branch, (2+sqrt 72)/2 + (3+sqrt 72)/3 panics, and so does 0/sqrt 2. Proved for all programs without complex numbers: a program without == that finishes has done what real numbers would do; over one square-free root this holds with ==, the program finishes exactly if it would with real numbers (where 0 divided by an irrational counts as a failure), and ends with canonical fields; over primitive integers with overflow checks every program does the same, step by step, or panics with an overflow; in a range there is no overflow, in both kinds of build."
  },
  {
   "property": "C132",
   "status": "proved",
   "theorems": [
    "NumIrr.Surd.hand_value",
    "NumIrr.Surd.hand_contfrac",
    "NumIrr.Surd.hand_periodic",
    "NumIrr.Surd.hand_lagrange"
   ],
   "note": "For every real surd with a non-zero root: every step returns, the n-th surd is the n-th complete quotient, its root divides the root of the first one, its floor is the n-th coefficient, and the sequence of stored surds is eventually periodic; a well-formed periodic fraction with this value exists."
  },
  {
   "property": "C133",
   "status": "proved",
   "theorems": [
    "NumIrr.CF.cf_vahlen",
    "NumIrr.CF.cf_borel",
    "NumIrr.CF.cf_borel_two",
    "NumIrr.CF.cf_hurwitz_sharp"
   ],
   "note": "For every well-formed fraction, finite or periodic, of either sign."
  },
  {
   "property": "C134",
   "status": "proved",
   "theorems": [
    "NumIrr.CF.cf_pell_powers",
    "NumIrr.Surd.surd_pell_powers"
   ],
   "note": "For the fraction of every surd with the value sqrt(N), also over roots that are not square-free, and for every other fraction with this value that is written in the shortest way."
  },
  {
   "property": "C135",
   "status": "proved",
   "theorems": [
    "NumIrr.gint_two_squares",
    "NumIrr.fixed_two_squares",
    "NumIrr.fixed_two_squares_safe",
    "NumIrr.gint_two_squares_prime"
   ],
   "note": "The number of remainders is at most 1 + log2(x^2+1)."
  },
  {
   "property": "C136",
   "status": "proved",
   "theorems": [
    "NumIrr.Fx.fixed_hand",
    "NumIrr.Fx.fixed_hand_sqrt",
    "NumIrr.Fx.fixed_hand_refuted"
   ],
   "note": "The bound cannot be dropped: over i8 and without checks the expansion of sqrt(118) goes wrong (fixed_hand_refuted)."
  },
  {
   "property": "C137",
   "status": "proved",
   "theorems": [
    "NumIrr.qint_fib",
    "NumIrr.surd_fib",
    "NumIrr.cf_fib",
    "NumIrr.cf_fib_prim",
    "NumIrr.cf_fib_prim_stops",
    "NumIrr.cf_fib_prim_refuted",
    "NumIrr.fixed_qint_fib"
   ],
   "note": "The items between the signed and the unsigned range are wrong fractions, see C29 (cf_fib_prim_refuted)."
  },
  {
   "property": "C138",
   "status": "proved",
   "theorems": [
    "NumIrr.Surd.surd_config_binary",
    "NumIrr.Surd.surd_config_root",
    "NumIrr.Surd.surd_config_unary",
    "NumIrr.Surd.surd_config_number",
    "NumIrr.Surd.surd_config_new",
    "NumIrr.Surd.surd_config_sqrt",
    "NumIrr.Surd.surd_config_sqrt_refuted",
    "NumIrr.SProg.prog_config",
    "NumIrr.SProg.prog_config_refuted",
    "NumIrr.CF.cf_config_new",
    "NumIrr.CF.cf_config_int",
    "NumIrr.CF.cf_config_toSurd",
    "NumIrr.Surd.surd_config_toContfrac",
    "NumIrr.Surd.surd_config_toContfrac_refuted",
    "NumIrr.Surd.surd_config_toContfrac_partial",
    "NumIrr.CF.cf_config_number_partial",
    "NumIrr.CF.cf_config_binary_partial",
    "NumIrr.CF.cf_config_binary_refuted",
    "NumIrr.QInt.qint_config_binary",
    "NumIrr.QInt.qint_config_new",
    "NumIrr.QInt.qint_config_rem_refuted",
    "NumIrr.surd_config_toQuadint"
   ],
   "note": "The differences that remain are proved as well: square roots of negative numbers (surd_config_sqrt_refuted, prog_config_refuted) and the kinds of three panics (surd_config_toContfrac_refuted, cf_config_binary_refuted, qint_config_rem_refuted); the theorems named _partial are the ones without those panics."
  },
  {
   "property": "C139",
   "status": "partial",
   "theorems": [
    "NumIrr.Fx.fixed_config_binary",
    "NumIrr.Fx.fixed_config_mul_refuted",
    "NumIrr.Fx.fixed_config_unary",
    "NumIrr.SProg.fixed_prog_config"
   ],
   "note": "True with overflow checks; false with wrap-around (fixed_config_mul_refuted: sqrt(13)*sqrt(11) over i8)."
  },
  {
   "property": "C14",
   "status": "proved",
   "theorems": [
    "NumIrr.surd_trunc_add_fract"
   ],
   "note": "trunc and fract return and add up to the number, also with the library's own + and ==."
  },
  {
   "property": "C140",
   "status": "proved",
   "theorems": [
    "NumIrr.Surd.surd_refuses_complex",
    "NumIrr.Fx.fixed_refuses_complex"
   ],
   "note": "Exact condition, stated with the imaginary part of the number."
  },
  {
   "property": "C141",
   "status": "partial",
   "theorems": [
    "NumIrr.Surd.horner_value_partial",
    "NumIrr.Surd.horner_value_refuted",
    "NumIrr.Surd.equation_check_partial",
    "NumIrr.Surd.equation_check_conj_partial",
    "NumIrr.Surd.equation_roundtrip"
   ],
   "note": "False for purely imaginary numbers, which the library multiplies with the wrong sign: x^2+1 at i gives 2. Proved for all other numbers; the round trip through from_equation holds for all."
  },
  {
   "property": "C142",
   "status": "proved",
   "theorems": [
    "NumIrr.QInt.qint_unit_iff",
    "NumIrr.QInt.qint_unit_inverse",
    "NumIrr.QInt.qint_units_imaginary",
    "NumIrr.QInt.qint_units_real",
    "NumIrr.QInt.qint_units_half",
    "NumIrr.gint_units"
   ],
   "note": "Exact lists; for N = 1 modulo 4 the units are located among the convergents."
  },
  {
   "property": "C143",
   "status": "proved",
   "theorems": [
    "NumIrr.surd_less",
    "NumIrr.surd_less_order",
    "NumIrr.surd_sort",
    "NumIrr.fixed_less",
    "NumIrr.fixed_sort",
    "NumIrr.fixed_less_refuted"
   ],
   "note": "Unbounded integers and checked primitive integers; without overflow checks it is false (fixed_less_refuted)."
  },
  {
   "property": "C144",
   "status": "partial",
   "theorems": [
    "NumIrr.gint_divides_iff",
    "NumIrr.qint_divides_iff",
    "NumIrr.qint_divides_rem_partial",
    "NumIrr.qint_divides_refuted"
   ],
   "note": "Proved, except for % with rational operands: 3 divides 6, but 6 % 3 is 2, and 6 % sqrt(2) panics."
  },
  {
   "property": "C145",
   "status": "partial",
   "theorems": [
    "NumIrr.qint_pow",
    "NumIrr.surd_pow_value",
    "NumIrr.surd_pow_partial",
    "NumIrr.surd_pow_slow",
    "NumIrr.surd_pow_panics",
    "NumIrr.surd_pow_refuted",
    "NumIrr.fixed_pow",
    "NumIrr.fixed_qint_pow",
    "NumIrr.fixed_qint_pow_release"
   ],
   "note": "Quadratic integers: proved in full. Real surds: whatever is returned is right, for all roots; that it returns is proved for square-free roots and is false in general: the 15th power of (24375+sqrt(455625000))/6000 panics. False for complex surds: (1+i)^4 gives 4 instead of -4; multiplying again and again by the number is right unless it is purely imaginary."
  },
  {
   "property": "C146",
   "status": "partial",
   "theorems": [
    "NumIrr.CF.cf_pow_ends_partial",
    "NumIrr.CF.cf_pow_two_partial",
    "NumIrr.CF.cf_pow_panics",
    "NumIrr.CF.cf_pow_finite",
    "NumIrr.CF.cf_pow_value_partial",
    "NumIrr.CF.sameSign_pow",
    "NumIrr.CF.cf_pow_refuted"
   ],
   "note": "Proved in full for finite fractions. Periodic ones: what is returned is right if the irrational part of every power has the sign of the power, as for all A + B*sqrt(R) with positive A and B. False for square roots: no power but the first is ever returned; and the cube of (6+sqrt 6)/4 panics because its powers have roots that are not multiples of each other. For A + B*sqrt(R) with A >= 1 and 2B*sqrt(R) >= 1 every power ends, with the right fraction or with that panic, and the powers 2^j are always returned. Missing: whether powers of other periodic fractions end."
  },
  {
   "property": "C147",
   "status": "partial",
   "theorems": [
    "NumIrr.CF.cf_recip_finite",
    "NumIrr.CF.cf_recip_periodic_partial",
    "NumIrr.CF.cf_recip_periodic_returns_partial",
    "NumIrr.CF.cf_recip_recip_partial",
    "NumIrr.CF.sameSign_recip",
    "NumIrr.CF.cf_recip_refuted"
   ],
   "note": "Proved in full for finite fractions, with the panic for zero. Periodic ones: proved if the irrational part of the reciprocal has the sign of the number, in particular for numbers with a conjugate of opposite sign; with at most two coefficients before the period, the reciprocals of these are always returned, and so are the reciprocals of the reciprocals, which are the same numbers. False otherwise: 1/((3+sqrt 2)/7) never returns."
  },
  {
   "property": "C148",
   "status": "partial",
   "theorems": [
    "NumIrr.gint_ext",
    "NumIrr.gint_ext_inverse",
    "NumIrr.fixed_gint_ext",
    "NumIrr.qint_ext_value",
    "NumIrr.qint_ext_returns_partial",
    "NumIrr.qint_ext_refuted"
   ],
   "note": "Proved for Gaussian integers, with the number of rounds, and for quadratic integers over the discriminants -3, -2, -1, 2, 3, 5 and 13. For all discriminants it never panics and whatever is returned is right. False in that it need not end over other discriminants: 1+sqrt(-5) and 2."
  },
  {
   "property": "C149",
   "status": "partial",
   "theorems": [
    "NumIrr.QProg.qint_prog_partial",
    "NumIrr.QProg.qint_prog_exact",
    "NumIrr.QProg.qint_prog_panic_partial",
    "NumIrr.QProg.qint_prog_stored",
    "NumIrr.QProg.qint_prog_refuted",
    "NumIrr.QProg.fixed_qint_prog",
    "NumIrr.QProg.fixed_qint_prog_value_partial",
    "NumIrr.QProg.fixed_qint_prog_range",
    "NumIrr.QProg.fixed_qint_prog_refuted"
   ],
   "note": "Proved for programs that do not use both / and ==; without / every number also stays stored in the documented way. False with both: (5+sqrt(2))/3 is rounded to 2 but is not == 2, so a branch goes the wrong way. Over primitive integers with overflow checks a program does the same or panics with an overflow; without checks it is false. In a range there is no overflow, in both kinds of build. What programs with both / and == do is described exactly: rational numbers carry a mark, and == compares the marks."
  },
  {
   "property": "C15",
   "status": "partial",
   "theorems": [
    "NumIrr.surd_toRational_iff",
    "NumIrr.surd_toRational_refuted",
    "NumIrr.surd_toRational_partial"
   ],
   "note": "False for b < 0 (-sqrt(2) gives 1/1); proved for rational surds and for b > 0; for irrational surds the claim holds exactly if b > 0."
  },
  {
   "property": "C150",
   "status": "proved",
   "theorems": [
    "NumIrr.GProg.gint_prog",
    "NumIrr.GProg.gint_prog_panic",
    "NumIrr.GProg.fixed_gint_prog",
    "NumIrr.GProg.fixed_gint_prog_value",
    "NumIrr.GProg.fixed_gint_prog_range"
   ],
   "note": "Over primitive integers with overflow checks a program does the same or panics with an overflow; in a range there is no overflow, in both kinds of build."
  },
  {
   "property": "C151",
   "status": "partial",
   "theorems": [
    "NumIrr.CFProg.cf_prog_partial",
    "NumIrr.CFProg.cf_prog_exact",
    "NumIrr.CFProg.fixed_cf_prog_range_partial",
    "NumIrr.CFProg.cf_prog_refuted",
    "NumIrr.CFProg.fixed_cf_prog_partial",
    "NumIrr.CFProg.fixed_cf_prog_refuted"
   ],
   "note": "Proved for programs without integers added or subtracted and without is_one. False with either: 1/4 - 1 gives 3/4, and is_one is true for -1, so a branch goes the wrong way. Over primitive integers with overflow checks a program does the same or panics with an overflow; without checks it is false. In a range there is no overflow, in both kinds of build. What programs do with these two operations is described exactly."
  },
  {
   "property": "C16",
   "status": "partial",
   "theorems": [
    "NumIrr.surd_fromRationals_value",
    "NumIrr.surd_fromEquation_root",
    "NumIrr.surd_fromEquation_none",
    "NumIrr.surd_fromEquation_conj_refuted",
    "NumIrr.surd_fromEquation_conj_partial"
   ],
   "note": "from_rationals exact; from_equation returns a root and None only when there is none; 'conjugate is the other root' is false for rational roots (x^2-3x+2), true for irrational ones."
  },
  {
   "property": "C17",
   "status": "proved",
   "theorems": [
    "NumIrr.surd_fromSqrtInt",
    "NumIrr.surd_fromSqrtRat"
   ],
   "note": "Integers and rationals, any integer range."
  },
  {
   "property": "C18",
   "status": "partial",
   "theorems": [
    "NumIrr.surd_fromSqrt_part",
    "NumIrr.surd_fromSqrt_nonneg_iff",
    "NumIrr.surd_fromSqrt_value",
    "NumIrr.surd_fromSqrt_unrepresentable",
    "NumIrr.surd_fromSqrt_error",
    "NumIrr.surd_fromSqrt_complex",
    "NumIrr.surd_fromSqrt_complete",
    "NumIrr.surd_fromSqrt_nonneg_refuted",
    "NumIrr.surd_fromSqrt_nonneg_partial"
   ],
   "note": "Value, error data, completeness of Unrepresentable; the result can be negative (witness), non-negative exactly if the rational part of the true root is positive."
  },
  {
   "property": "C19",
   "status": "partial",
   "theorems": [
    "NumIrr.surd_reduced_hangs",
    "NumIrr.surd_reduced_i8_panics",
    "NumIrr.surd_reduced_partial"
   ],
   "note": "False: reduced() of a rational surd never returns, and panics for i8; everything else proved."
  },
  {
   "property": "C20",
   "status": "partial",
   "theorems": [
    "NumIrr.surd_isRational",
    "NumIrr.surd_isInteger",
    "NumIrr.surd_isComplex",
    "NumIrr.surd_isPure",
    "NumIrr.surd_isQuadint_refuted",
    "NumIrr.surd_isQuadint_partial",
    "NumIrr.surd_isGaussint_refuted",
    "NumIrr.surd_isGaussint_partial",
    "NumIrr.surd_isQuadint_exact",
    "NumIrr.surd_isQuadint_missed",
    "NumIrr.surd_isGaussint_exact"
   ],
   "note": "is_rational, is_integer, is_complex, is_pure exact; is_quadint and is_gaussint false (witnesses) with exact partial results."
  },
  {
   "property": "C21",
   "status": "partial",
   "theorems": [
    "NumIrr.surd_toQuadint_refuted",
    "NumIrr.surd_toQuadint_partial",
    "NumIrr.surd_toGaussint_refuted",
    "NumIrr.surd_toGaussint_partial",
    "NumIrr.surd_toGaussint_exact"
   ],
   "note": "False: to_quadint panics for rational surds and negative roots divisible by 4, to_gaussint maps sqrt(2) to Exact(i); exact return condition and exactness otherwise."
  },
  {
   "property": "C22",
   "status": "proved",
   "theorems": [
    "NumIrr.Surd.surd_display_reads",
    "NumIrr.Surd.surd_display_inj"
   ],
   "note": "The printed text is read back as an expression with exactly the value of the surd, in both formats; different values print differently."
  },
  {
   "property": "C23",
   "status": "partial",
   "theorems": [
    "NumIrr.CF.new_value_up_to_sign",
    "NumIrr.CF.new_nonneg_value_partial",
    "NumIrr.CF.new_large_value_partial",
    "NumIrr.CF.new_sign_wrong",
    "NumIrr.CF.new_panics",
    "NumIrr.CF.new_infinite",
    "NumIrr.CF.new_panic_kinds",
    "NumIrr.CF.new_large_value_exact",
    "NumIrr.CF.new_large_value_iff"
   ],
   "note": "False: sign errors ([-1,4] gives +3/4), panics on admissible input ([2,0,-5]) and an empty result for infinity; the absolute value is always right, and the result is exact for non-negative coefficients and for coefficients of absolute value at least 2."
  },
  {
   "property": "C24",
   "status": "partial",
   "theorems": [
    "NumIrr.CF.new_canonical",
    "NumIrr.CF.canonical_unique",
    "NumIrr.CF.new_unique_partial",
    "NumIrr.CF.new_not_unique"
   ],
   "note": "Canonical form proved for every finite value, uniqueness of canonical forms proved; equal values give equal coefficients, but the sign can differ (witness)."
  },
  {
   "property": "C25",
   "status": "partial",
   "theorems": [
    "NumIrr.CF.new_periodic_value_partial",
    "NumIrr.CF.new_periodic_wrong",
    "NumIrr.CF.new_periodic_not_canonical",
    "NumIrr.CF.new_periodic_up_to_sign",
    "NumIrr.CF.new_periodic_large_exact",
    "NumIrr.CF.new_periodic_one_exact",
    "NumIrr.CF.valOf_negated_period_ne",
    "NumIrr.CF.new_periodic_one_iff",
    "NumIrr.CF.new_periodic_large_iff",
    "NumIrr.CF.new_unimplemented_iff",
    "NumIrr.CF.new_zeros_period",
    "NumIrr.CF.new_period_kept"
   ],
   "note": "False for negative coefficients: the period is not negated along with the aperiodic part, and the result need not be canonical. Exact for non-negative coefficients with a positive period. Every result has, up to sign, the value of the input or of the input with its period negated; for coefficients of absolute value at least two the result is computed exactly, and right exactly when the last aperiodic coefficient is not negative."
  },
  {
   "property": "C26",
   "status": "proved",
   "theorems": [
    "NumIrr.CF.cf_ofRat",
    "NumIrr.CF.cf_ofInt",
    "NumIrr.CF.cf_toRational_finite",
    "NumIrr.CF.cf_rat_roundtrip",
    "NumIrr.CF.cf_ofRat_toRational",
    "NumIrr.CF.cf_toRational_periodic",
    "NumIrr.CF.cf_isRational",
    "NumIrr.CF.cf_isInteger",
    "NumIrr.CF.cf_isInteger_needs_std",
    "NumIrr.CF.cf_toInteger"
   ],
   "note": "Expansion exact and canonical, value exact, both round trips, is_rational and is_integer exact on standard forms; to_rational of a periodic fraction is an approximation."
  },
  {
   "property": "C27",
   "status": "partial",
   "theorems": [
    "NumIrr.CF.cf_coeffsUnsigned",
    "NumIrr.CF.cf_coeffs",
    "NumIrr.CF.cf_generalized",
    "NumIrr.CF.cf_intoCoeffs",
    "NumIrr.CF.cf_intoCoeffs_refuted",
    "NumIrr.CF.cf_intoCoeffs_partial",
    "NumIrr.CF.cf_intoCoeffs_iff"
   ],
   "note": "coeffs, generalized and unsigned iterators yield exactly the coefficients; into_coeffs repeats only the first periodic coefficient (witness [1;(1,2)]); it is right iff all periodic coefficients are equal."
  },
  {
   "property": "C28",
   "status": "proved",
   "theorems": [
    "NumIrr.CF.cf_convergents",
    "NumIrr.CF.cf_convergents_nth",
    "NumIrr.CF.cf_conv_den_mono",
    "NumIrr.CF.cf_conv_alternate",
    "NumIrr.CF.cf_conv_error",
    "NumIrr.CF.cf_conv_error_next",
    "NumIrr.CF.cf_conv_tendsto",
    "NumIrr.CF.cf_conv_last"
   ],
   "note": "Convergents are the true ones in order, denominators increase, errors alternate and obey the classical bounds, limit and last convergent."
  },
  {
   "property": "C29",
   "status": "partial",
   "theorems": [
    "NumIrr.CF.cf_conv_prim_partial",
    "NumIrr.CF.cf_conv_prim_item",
    "NumIrr.CF.cf_conv_prim_right_iff",
    "NumIrr.CF.cf_conv_prim_stops",
    "NumIrr.CF.cf_conv_prim_wrong",
    "NumIrr.CF.cf_conv_prim_not_fused"
   ],
   "note": "False: values between the signed and unsigned range wrap into wrong convergents, and the iterator continues after None; exact up to the first value outside the signed range, and it stops there if outside the unsigned range; while the convergents fit the unsigned type the item is given exactly, and it is right exactly if its own numerator and denominator fit the signed type."
  },
  {
   "property": "C30",
   "status": "partial",
   "theorems": [
    "NumIrr.CF.cf_approximated_partial",
    "NumIrr.CF.cf_approximated_refuted",
    "NumIrr.CF.cf_approximated_small_limit",
    "NumIrr.CF.cf_approximated_overflow"
   ],
   "note": "False: the bound 1/limit^2 fails (sqrt(2), limit 169) limit 0 returns a value of the wrong sign for -sqrt(2), and an overflow of fixed-width integers is reported as Exact; value and the bound 1/(q*limit) proved."
  },
  {
   "property": "C31",
   "status": "partial",
   "theorems": [
    "NumIrr.CF.cf_neg",
    "NumIrr.CF.cf_addInt_exact",
    "NumIrr.CF.cf_addInt_value",
    "NumIrr.CF.cf_addInt_partial",
    "NumIrr.CF.cf_subInt_partial",
    "NumIrr.CF.cf_addInt_wrong",
    "NumIrr.CF.cf_addInt_refuted",
    "NumIrr.CF.cf_addInt_not_wf"
   ],
   "note": "Negation exact. Integer shift false for purely periodic tails with a sign change and for a0+k = -1 (1/4 - 1 = 3/4), exact otherwise; in the excluded cases always wrong. For every finite fraction the result is described exactly: the sum, except that a positive number which becomes one between -1 and 0 loses its sign; for periodic ones the value is given in all cases too."
  },
  {
   "property": "C32",
   "status": "proved",
   "theorems": [
    "NumIrr.CF.cf_num_rational",
    "NumIrr.CF.cf_bin_rational"
   ],
   "note": "Canonical fraction of the exact result for all six operations with numbers and four with fractions; division by zero panics."
  },
  {
   "property": "C33",
   "status": "partial",
   "theorems": [
    "NumIrr.CF.cf_num_periodic_value",
    "NumIrr.CF.cf_bin_periodic_value",
    "NumIrr.CF.cf_num_periodic_value_partial",
    "NumIrr.CF.cf_bin_periodic_value_partial",
    "NumIrr.CF.cf_num_periodic_returns_partial",
    "NumIrr.CF.cf_bin_periodic_returns_partial",
    "NumIrr.CF.cf_bin_periodic_returns_apart",
    "NumIrr.PFormula.cf_num_periodic_returns_apart",
    "NumIrr.CF.cf_num_rational_result",
    "NumIrr.CF.cf_bin_rational_result",
    "NumIrr.CF.cf_num_periodic_exact",
    "NumIrr.CF.cf_bin_periodic_exact",
    "NumIrr.CF.cf_arith_refuted"
   ],
   "note": "False (sqrt(2) - sqrt(2) panics, sqrt(7) - 3 loses its sign, 3 - sqrt(2) loops); exact value of every returned fraction, results that are rational are never returned, right value and return under sign conditions on the result; exact condition for returning, panicking and running for ever."
  },
  {
   "property": "C34",
   "status": "proved",
   "theorems": [
    "NumIrr.CF.cf_display_returns_iff",
    "NumIrr.CF.cf_display_inj",
    "NumIrr.CF.cf_display_parse_panics"
   ],
   "note": "Printing returns exactly for fractions with a first coefficient; equal texts come from equal fractions. Reading a printed fraction back always panics (FromStr is not implemented)."
  },
  {
   "property": "C35",
   "status": "partial",
   "theorems": [
    "NumIrr.Surd.surd_toContfrac_value",
    "NumIrr.Surd.surd_toContfrac_value_partial",
    "NumIrr.Surd.surd_toContfrac_value_same_sign",
    "NumIrr.Surd.surd_toContfrac_refuted"
   ],
   "note": "Exact value of every computed fraction: the number itself, except that some numbers are replaced by their conjugate and some lose their sign (witnesses); right outside these two cases, in particular when the number and its irrational part have the same sign."
  },
  {
   "property": "C36",
   "status": "partial",
   "theorems": [
    "NumIrr.Surd.surd_toContfrac_returns_of_split",
    "NumIrr.Surd.surd_split_of_le",
    "NumIrr.Surd.surd_toContfrac_returns_iff",
    "NumIrr.Surd.surd_toContfrac_returns_partial",
    "NumIrr.Surd.surd_toContfrac_returns_of_not_dvd",
    "NumIrr.Surd.surd_toContfrac_returns_refuted",
    "NumIrr.Surd.surd_toContfrac_rational",
    "NumIrr.Surd.surd_toContfrac_complex"
   ],
   "note": "False for rationals (panic) and for some irrationals (3 - sqrt(2) loops for ever); never a panic on irrationals, an exact condition for returning, and three sufficient ones."
  },
  {
   "property": "C37",
   "status": "partial",
   "theorems": [
    "NumIrr.CF.cf_toSurd_value",
    "NumIrr.CF.cf_toSurd_partial",
    "NumIrr.CF.cf_toSurd_panics",
    "NumIrr.CF.cf_toSurd_refuted",
    "NumIrr.CF.cf_toSurd_no_head",
    "NumIrr.CF.cf_toSurd_returns_iff"
   ],
   "note": "Right whenever it returns; the only panic is the one for incompatible roots, with a witness, and none occurs for rational fractions, with at most two aperiodic coefficients, or for a square-free root of the period. In the other cases it returns exactly if, of the square factors which the numerator and the denominator lose from the root of the period, one divides the other."
  },
  {
   "property": "C38",
   "status": "proved",
   "theorems": [
    "NumIrr.Surd.sqrt_round_trip",
    "NumIrr.Surd.surd_round_trip"
   ],
   "note": "from_sqrt, conversion to a fraction of the value sqrt(n), and conversion back, for every non-square n; more generally for numbers whose conjugate has the opposite sign."
  },
  {
   "property": "C39",
   "status": "proved",
   "theorems": [
    "NumIrr.Homo.homo_value",
    "NumIrr.Homo.homo_value_irrational",
    "NumIrr.Homo.homo_regular",
    "NumIrr.Homo.homo_pole"
   ],
   "note": "Value after any number of outputs in homogeneous coordinates for all entries (in the reals for irrational values), regular expansion for non-negative entries; homo_pole shows what fails for other signs."
  },
  {
   "property": "C40",
   "status": "proved",
   "theorems": [
    "NumIrr.Homo.homo_productive"
   ],
   "note": "Every call returns for irrational x > 0, non-negative entries and non-zero determinant."
  },
  {
   "property": "C41",
   "status": "partial",
   "theorems": [
    "NumIrr.Bihomo.bihomo_partial",
    "NumIrr.Bihomo.bihomo_polynomial_refuted",
    "NumIrr.Bihomo.bihomo_quotient_refuted",
    "NumIrr.Bihomo.bihomo_hangs",
    "NumIrr.Bihomo.bihomo_quotient_hangs",
    "NumIrr.Bihomo.bihomo_flags_hang",
    "NumIrr.DualBlock.rmoveRight_value_iff",
    "NumIrr.DualBlock.rmoveDown_value",
    "NumIrr.DualBlock.reduceRecip_floor"
   ],
   "note": "False: panics on the first call for every polynomial function (x+y, x-y, xy) and x/y, never returns for y/x and 1/(x+y); a move right is wrong (exact condition), the flags are exchanged. Proved: moves down and outputs keep the value, outputs are integer parts for non-negative entries."
  },
  {
   "property": "C42",
   "status": "partial",
   "theorems": [
    "NumIrr.GIter.gconv_partial",
    "NumIrr.GIter.gconv_all",
    "NumIrr.GIter.gconv_positive",
    "NumIrr.GIter.gconv_panics_iff",
    "NumIrr.GIter.gconv_refuted"
   ],
   "note": "False as stated: a zero denominator on the way panics, and an overflow loses a step (gconv_refuted). Proved: whatever is yielded, for every integer type, is the nested fraction; all are yielded for positive streams and unbounded integers; the exact panic condition."
  },
  {
   "property": "C43",
   "status": "proved",
   "theorems": [
    "NumIrr.GIter.simplify_value",
    "NumIrr.GIter.simplify_regular",
    "NumIrr.GIter.simplify_productive"
   ],
   "note": "Value for all streams, regular expansion and productivity for positive streams."
  },
  {
   "property": "C44",
   "status": "partial",
   "theorems": [
    "NumIrr.GIter.decimals_partial",
    "NumIrr.GIter.decimals_productive",
    "NumIrr.GIter.decimals_refuted",
    "NumIrr.GIter.decimals_all",
    "NumIrr.GIter.decimals_all_productive",
    "NumIrr.GIter.decimals_all_panics",
    "NumIrr.GIter.decimals_first_iff"
   ],
   "note": "False for numbers from ten on (decimals_refuted: 12.6 starts with '<'). For numbers below ten: digits for positive streams, unbounded integers or fixed width with overflow checks; productivity. For all positive numbers: what is emitted instead, exactly."
  },
  {
   "property": "C45",
   "status": "proved",
   "theorems": [
    "NumIrr.ExpCoeffs.exp_pairs",
    "NumIrr.GIter.exp_convergents",
    "NumIrr.GIter.exp_convergents_all",
    "NumIrr.GIter.exp_limit"
   ],
   "note": "Convergents for every integer t and integer type; all of them are computed for unbounded integers; limit e^t."
  },
  {
   "property": "C46",
   "status": "proved",
   "theorems": [
    "NumIrr.ECoeffs.e_coeffs",
    "NumIrr.ECoeffs.e_value",
    "NumIrr.ECoeffs.e_regular",
    "NumIrr.ECoeffs.e_homo"
   ],
   "note": "Closed form, value e, regular expansion of e; with C40 the homographic function of e."
  },
  {
   "property": "C47",
   "status": "proved",
   "theorems": [
    "NumIrr.PiCoeffs.pi_pairs",
    "NumIrr.PiCoeffs.pi_value",
    "NumIrr.PiCoeffs.pi_convergents",
    "NumIrr.PiCoeffs.pi_simplify",
    "NumIrr.PiCoeffs.pi_decimals",
    "NumIrr.PiCoeffs.pi_decimals_bounded"
   ],
   "note": "Closed form, value pi, all convergents, regular coefficients and decimal digits for unbounded integers; digits on bounded types with overflow checks."
  },
  {
   "property": "C48",
   "status": "proved",
   "theorems": [
    "NumIrr.GammaCoeffs.gamma_exact",
    "NumIrr.GammaCoeffs.gamma_q_recurrence"
   ],
   "note": "No panic, no end and no rounding loss for unbounded integers; also Eq (22) from Eq (21) of the cited paper."
  },
  {
   "property": "C49",
   "status": "partial",
   "theorems": [
    "NumIrr.qint_fromCoeffs_returns_iff",
    "NumIrr.qint_fromCoeffs_value_refuted",
    "NumIrr.qint_fromCoeffs_value_partial",
    "NumIrr.qint_new_returns_iff",
    "NumIrr.qint_new_returns_refuted",
    "NumIrr.qint_new_value_refuted",
    "NumIrr.qint_new_value_partial"
   ],
   "note": "False for square roots/discriminants (new(1,1,9) = 6) and root 0 (panic); exact return conditions and the value otherwise."
  },
  {
   "property": "C50",
   "status": "proved",
   "theorems": [
    "NumIrr.qint_reach_ok",
    "NumIrr.qint_int_ops",
    "NumIrr.qint_add_value",
    "NumIrr.qint_sub_value",
    "NumIrr.qint_mul_value",
    "NumIrr.qint_add_returns_iff",
    "NumIrr.qint_sub_returns_iff",
    "NumIrr.qint_mul_returns_iff",
    "NumIrr.qint_add_same_field_panics"
   ],
   "note": "Exact values and exact return conditions; every reachable quadratic integer satisfies the invariant used."
  },
  {
   "property": "C51",
   "status": "partial",
   "theorems": [
    "NumIrr.qint_divInt",
    "NumIrr.qint_div_returns_iff",
    "NumIrr.qint_div_value",
    "NumIrr.qint_rem_refuted",
    "NumIrr.qint_rem_rational",
    "NumIrr.qint_rem_partial"
   ],
   "note": "Division exact as claimed; % is false for rational operands (5 % 3 = 2, 5 % sqrt(2) panics) and proved for irrational ones."
  },
  {
   "property": "C52",
   "status": "partial",
   "theorems": [
    "NumIrr.gint_ring_ops",
    "NumIrr.gint_euclid",
    "NumIrr.gint_div_zero",
    "NumIrr.qint_eisenstein_refuted",
    "NumIrr.qint_euclid_partial",
    "NumIrr.qint_euclid_iff"
   ],
   "note": "Fully proved for GaussianInt (remainder norm at most half); for QuadraticInt false with rational divisors and proved for irrational operands over D = -3, -2, -1, 2, 3, 5, 13, and for no other D."
  },
  {
   "property": "C53",
   "status": "proved",
   "theorems": [
    "NumIrr.qint_conj",
    "NumIrr.qint_norm",
    "NumIrr.qint_norm_mul"
   ],
   "note": "Conjugation, norm, multiplicativity."
  },
  {
   "property": "C54",
   "status": "partial",
   "theorems": [
    "NumIrr.qint_eq_refuted",
    "NumIrr.qint_eq_returns",
    "NumIrr.qint_eq_same_discr_partial",
    "NumIrr.qint_eq_sound_partial",
    "NumIrr.qint_eq_complete_partial",
    "NumIrr.qint_eq_exact"
   ],
   "note": "False in both directions (witnesses); never panics, equal operands are equal or conjugate, equal normalised numbers compare equal, exact for equal discriminants."
  },
  {
   "property": "C55",
   "status": "proved",
   "theorems": [
    "NumIrr.qint_divRemRound",
    "NumIrr.qint_divRemRound_round",
    "NumIrr.roundAway_unique",
    "NumIrr.qint_divRemRound_zero"
   ],
   "note": "Nearest integer division with ties away from zero; the conditions determine the result."
  },
  {
   "property": "C56",
   "status": "partial",
   "theorems": [
    "NumIrr.qint_isRational",
    "NumIrr.qint_isPure_refuted",
    "NumIrr.qint_isPure_partial"
   ],
   "note": "is_rational exact; is_pure false for D = 2, 3 mod 4 and panics for rationals; right for D = 1 mod 4."
  },
  {
   "property": "C57",
   "status": "proved",
   "theorems": [
    "NumIrr.surd_toPrim",
    "NumIrr.surd_prim_roundtrip",
    "NumIrr.surd_fromPrim_none"
   ],
   "note": "Round trip and exactness for any target range."
  },
  {
   "property": "C58",
   "status": "partial",
   "theorems": [
    "NumIrr.CF.cf_zero_one",
    "NumIrr.CF.cf_isOne_refuted"
   ],
   "note": "is_zero exact; is_one is also true for -1 (witness), and with the sign flag checked it is exact."
  },
  {
   "property": "C59",
   "status": "partial",
   "theorems": [
    "NumIrr.Surd.surd_approximated_partial",
    "NumIrr.Surd.surd_approximated_apart",
    "NumIrr.Surd.surd_approximated_value",
    "NumIrr.Surd.surd_approximated_complex",
    "NumIrr.Surd.surd_approximated_refuted"
   ],
   "note": "The bound, rationals, and the numbers the conversion to a fraction gets wrong refute it; error at most 1/(q*limit) for numbers whose conjugate has the opposite sign or is farther away than the fractional part, and exact behaviour for all irrationals in terms of the value of the converted fraction."
  },
  {
   "property": "C60",
   "status": "partial",
   "theorems": [
    "NumIrr.GIter.generalize_pairs",
    "NumIrr.GIter.generalize_partial",
    "NumIrr.GIter.generalize_refuted",
    "NumIrr.GIter.generalize_value_refuted"
   ],
   "note": "False: the pairs are emitted in the wrong order (coefficient, 1); for sqrt(2) they denote 2. Right only when all coefficients are 1."
  },
  {
   "property": "C61",
   "status": "partial",
   "theorems": [
    "NumIrr.GIter.gapprox_partial",
    "NumIrr.GIter.gapprox_returns",
    "NumIrr.GIter.gapprox_refuted"
   ],
   "note": "False: the error bound fails (value 2, limit 4, result 5/3), Exact is said wrongly after an overflow on u8, an empty sequence panics. Proved for positive fractions and unbounded integers: which convergent is returned, its error is at most the distance to the next convergent, and that the call returns."
  },
  {
   "property": "C62",
   "status": "partial",
   "theorems": [
    "NumIrr.GIter.decimals_capacity_refuted",
    "NumIrr.GIter.decimals_capacity_partial",
    "NumIrr.GIter.decimals_partial"
   ],
   "note": "False: the unchecked multiplication by 10 panics or wraps to a wrong digit on u8; correct as long as it does not overflow (decimals_partial); the capacity check of the moves ends the digits without a panic."
  },
  {
   "property": "C63",
   "status": "proved",
   "theorems": [
    "NumIrr.fixed_new_refines",
    "NumIrr.fixed_arith_refines",
    "NumIrr.fixed_scalar_refines",
    "NumIrr.fixed_unary_refines",
    "NumIrr.fixed_arith_value",
    "NumIrr.fixed_new_value",
    "NumIrr.fixed_floor_value",
    "NumIrr.fixed_new_holds",
    "NumIrr.fixed_arith_holds"
   ],
   "note": "Refinement of the arbitrary-precision operations for every function, read as exact values, and representability of everything stored."
  },
  {
   "property": "C64",
   "status": "proved",
   "theorems": [
    "NumIrr.fixed_new_safe",
    "NumIrr.fixed_fromRationals_safe",
    "NumIrr.fixed_arith_safe",
    "NumIrr.fixed_int_safe",
    "NumIrr.fixed_rat_safe",
    "NumIrr.fixed_div_safe",
    "NumIrr.fixed_unary_safe",
    "NumIrr.fixed_eq_safe"
   ],
   "note": "Bounds in B for every operation, in both build modes."
  },
  {
   "property": "C65",
   "status": "partial",
   "theorems": [
    "NumIrr.fixed_release_refuted",
    "NumIrr.fixed_spurious_overflow",
    "NumIrr.fixed_eq_refuted",
    "NumIrr.fixed_sign_refuted",
    "NumIrr.fixed_release_partial"
   ],
   "note": "False for every primitive width: the square of a common divisor wraps and new returns another number (with checks the same call panics although the result fits); == of 2^k sqrt 2 and 2^k sqrt 3 is true at every width; sign tests are wrong for sqrt 2 - 2^(w-2). Proved: release agrees with arbitrary precision whenever the checked run does not overflow."
  },
  {
   "property": "C66",
   "status": "proved",
   "theorems": [
    "NumIrr.fixed_qint_unary_refines",
    "NumIrr.fixed_qint_arith_refines",
    "NumIrr.fixed_gint_refines",
    "NumIrr.fixed_qint_value",
    "NumIrr.fixed_gint_value",
    "NumIrr.fixed_qint_holds",
    "NumIrr.fixed_gint_holds"
   ],
   "note": "Step-by-step refinement into the arbitrary-precision model, read also as exact values; everything stored is representable in both modes."
  },
  {
   "property": "C67",
   "status": "proved",
   "theorems": [
    "NumIrr.fixed_qint_arith_safe",
    "NumIrr.fixed_qint_unary_safe",
    "NumIrr.fixed_gint_safe"
   ],
   "note": "Bounds tracked through every operator; the bounds hold with and without overflow checks."
  },
  {
   "property": "C68",
   "status": "partial",
   "theorems": [
    "NumIrr.fixed_gint_ring_partial",
    "NumIrr.fixed_qint_ring_partial",
    "NumIrr.fixed_gint_div_refuted",
    "NumIrr.fixed_qint_eq_refuted",
    "NumIrr.fixed_qint_norm_refuted",
    "NumIrr.fixed_qint_release_partial"
   ],
   "note": "False at every width for Gaussian division (2^k / 2^k divides by zero), == (2^k sqrt 2 == 2^k sqrt 3) and the norm for discriminant MIN+1. Proved: ring operations, conjugate and norm return the exact result whenever it fits (equal discriminants or a rational operand), and every operation agrees with arbitrary precision whenever the checked run does not overflow."
  },
  {
   "property": "C69",
   "status": "partial",
   "theorems": [
    "NumIrr.fixed_cf_new_partial",
    "NumIrr.fixed_cf_new_fits",
    "NumIrr.fixed_cf_new_exact",
    "NumIrr.fixed_cf_new_unsigned",
    "NumIrr.fixed_cf_new_sharp",
    "NumIrr.fixed_cf_new_refuted",
    "NumIrr.fixed_cf_new_unsigned_refuted",
    "NumIrr.fixed_cf_new_period_refuted",
    "NumIrr.fixed_cf_new_release_partial"
   ],
   "note": "Checked runs refine BigInt when periodic coefficients are not negative; everything stored fits; exact in both builds when the sum of the aperiodic part fits (sharp). False for negative periodic coefficients (stored silently as huge ones in both builds), for [MIN] with the sign flag in release builds, and for unsigned coefficients with the sign flag (panic or 2^w - a)."
  },
  {
   "property": "C70",
   "status": "partial",
   "theorems": [
    "NumIrr.fixed_cf_ofInt_partial",
    "NumIrr.fixed_cf_ofInt_unsigned",
    "NumIrr.fixed_cf_ofInt_refuted",
    "NumIrr.fixed_cf_ofRat_partial",
    "NumIrr.fixed_cf_ofRat_min",
    "NumIrr.fixed_cf_ofRat_refuted"
   ],
   "note": "Exact for everything except numerator MIN: checked builds panic there; release builds are right for integers and wrong for ratios (witness at every width)."
  },
  {
   "property": "C71",
   "status": "partial",
   "theorems": [
    "NumIrr.fixed_cf_add_partial",
    "NumIrr.fixed_cf_add_exact",
    "NumIrr.fixed_cf_add_same_sign",
    "NumIrr.fixed_cf_add_fits",
    "NumIrr.fixed_cf_add_release",
    "NumIrr.fixed_cf_add_refuted",
    "NumIrr.fixed_cf_sub_refuted"
   ],
   "note": "Checked runs refine BigInt when the coefficients after the first fit the signed type; otherwise false in both builds at every width ([1; 2^w-2] - 3 = -5/2). Exact ranges, representability, sign-preserving shifts; 0 - MIN is wrong in release builds."
  },
  {
   "property": "C72",
   "status": "partial",
   "theorems": [
    "NumIrr.fixed_cf_coeffs_partial",
    "NumIrr.fixed_cf_coeffs_refuted"
   ],
   "note": "Exact at every index whose coefficient fits the signed type; at every other coefficient the exact wrong value is given (both builds)."
  },
  {
   "property": "C73",
   "status": "partial",
   "theorems": [
    "NumIrr.fixed_cf_conv_refines",
    "NumIrr.fixed_cf_conv_partial",
    "NumIrr.fixed_cf_to_rational_partial",
    "NumIrr.fixed_cf_to_rational_refuted",
    "NumIrr.fixed_cf_conv_den_min",
    "NumIrr.fixed_cf_to_integer_partial",
    "NumIrr.fixed_cf_to_integer_refuted"
   ],
   "note": "Exact in both builds if the returned number fits the signed type. False otherwise: to_rational silently returns an earlier convergent marked exact, or a ratio with negative denominator; to_integer of 2^w-1 is -1."
  },
  {
   "property": "C74",
   "status": "proved",
   "theorems": [
    "NumIrr.GIter.gconv_block_fits",
    "NumIrr.GIter.gconv_fits",
    "NumIrr.GIter.decimals_block_fits"
   ],
   "note": "Every entry of the state stays representable; yielded convergents of non-negative pairs are representable."
  },
  {
   "property": "C75",
   "status": "partial",
   "theorems": [
    "NumIrr.fixed_surd_to_cf_partial",
    "NumIrr.fixed_surd_to_cf_fits",
    "NumIrr.fixed_surd_to_cf_release",
    "NumIrr.fixed_surd_to_cf_refuted"
   ],
   "note": "False without overflow checks (witness for the widths 16, 32, 64, 128, ...); proved with overflow checks, and without them the result is the checked one unless that is an overflow; the coefficients always fit."
  },
  {
   "property": "C76",
   "status": "proved",
   "theorems": [
    "NumIrr.fixed_surd_to_cf_exact",
    "NumIrr.fixed_surd_to_cf_small"
   ],
   "note": "All states of the two loops are bounded by the discriminant; exact in both kinds of build."
  },
  {
   "property": "C77",
   "status": "partial",
   "theorems": [
    "NumIrr.fixed_cf_to_surd_partial",
    "NumIrr.fixed_cf_to_surd_value_partial",
    "NumIrr.fixed_cf_to_surd_fits",
    "NumIrr.fixed_cf_to_surd_release",
    "NumIrr.fixed_cf_to_surd_finite",
    "NumIrr.fixed_cf_to_surd_exact",
    "NumIrr.fixed_cf_to_surd_refuted",
    "NumIrr.fixed_cf_to_surd_release_refuted"
   ],
   "note": "False if an integer read off the fraction exceeds the signed type (witness in both kinds of build, all widths >= 6) and in release builds (witness for all even widths >= 6); otherwise proved with overflow checks, the fields always fit, and the ranges are proved in both kinds of build."
  },
  {
   "property": "C78",
   "status": "partial",
   "theorems": [
    "NumIrr.fixed_cf_num_partial",
    "NumIrr.fixed_cf_bin_partial",
    "NumIrr.fixed_cf_num_value_partial",
    "NumIrr.fixed_cf_bin_value_partial",
    "NumIrr.fixed_cf_periodic_value_partial",
    "NumIrr.fixed_cf_arith_fits",
    "NumIrr.fixed_cf_arith_release",
    "NumIrr.fixed_cf_num_exact",
    "NumIrr.fixed_cf_bin_exact",
    "NumIrr.fixed_cf_arith_refuted",
    "NumIrr.fixed_cf_arith_release_refuted"
   ],
   "note": "False if an integer read off a fraction exceeds the signed type (witness in both kinds of build) and in release builds (witness); otherwise proved with overflow checks, the coefficients always fit, and the range for finite fractions is proved in both kinds of build."
  },
  {
   "property": "C79",
   "status": "partial",
   "theorems": [
    "NumIrr.fixed_sqrt_rat_errors",
    "NumIrr.fixed_sqrt_rat_partial",
    "NumIrr.fixed_sqrt_rat_exact",
    "NumIrr.fixed_sqrt_rat_refuted",
    "NumIrr.fixed_sqrt_surd_partial",
    "NumIrr.fixed_sqrt_fits",
    "NumIrr.fixed_sqrt_release_partial",
    "NumIrr.fixed_sqrt_surd_exact",
    "NumIrr.fixed_sqrt_rat_release_refuted",
    "NumIrr.fixed_sqrt_release_refuted"
   ],
   "note": "False with overflow checks (from_sqrt panics on every positive non-square ratio whose squared denominator does not fit) and in release builds (wrong root, witnesses for all widths); errors of the ratio version exact in both builds, value and error claims proved with checks, results representable, explicit ranges in both builds."
  },
  {
   "property": "C80",
   "status": "partial",
   "theorems": [
    "NumIrr.fixed_reduced_partial",
    "NumIrr.fixed_reduced_fits",
    "NumIrr.fixed_reduced_release_partial",
    "NumIrr.fixed_reduced_exact",
    "NumIrr.fixed_reduced_refuted",
    "NumIrr.fixed_reduced_hangs",
    "NumIrr.fixed_reduced_i8"
   ],
   "note": "False for widths 16 to 128 in both kinds of build (witness); never returns on rational surds and never returns a surd for i8; proved with overflow checks up to an overflow panic, and in an explicit range in both builds."
  },
  {
   "property": "C81",
   "status": "partial",
   "theorems": [
    "NumIrr.surd_toF64_none",
    "NumIrr.surd_toF64_error",
    "NumIrr.surd_toF64_partial",
    "NumIrr.surd_toF64_rational",
    "NumIrr.surd_toF64_sign_refuted",
    "NumIrr.surd_toF64_nan_refuted",
    "NumIrr.surd_toComplex64_error",
    "NumIrr.surd_toComplex64_real"
   ],
   "note": "False with cancellation (to_f64 = 1.0 for a negative i64 surd) and beyond the range of floats (NaN); error bound relative to the terms for all fields up to 2^128, relative error 2^-50 and sign without cancellation, nearest float for small rationals, and both parts of to_complex64."
  },
  {
   "property": "C82",
   "status": "proved",
   "theorems": [
    "NumIrr.e_float",
    "NumIrr.pi_float",
    "NumIrr.float_nearest",
    "NumIrr.surd_fromF64"
   ],
   "note": "Both constants are the correctly rounded floats (bounds of e and pi from Mathlib); from_f64 relative to Ratio::from_f64."
  },
  {
   "property": "C83",
   "status": "partial",
   "theorems": [
    "NumIrr.Prim.prim_homo_call",
    "NumIrr.Prim.prim_homo_exact",
    "NumIrr.Prim.prim_homo_regular_partial",
    "NumIrr.Prim.prim_homo_range",
    "NumIrr.Prim.prim_homo_state",
    "NumIrr.Prim.prim_homo_signed_refuted",
    "NumIrr.Prim.prim_homo_unsigned_refuted",
    "NumIrr.Prim.prim_bihomo_call",
    "NumIrr.Prim.prim_bihomo_state"
   ],
   "note": "False without overflow checks for signed and unsigned types (witnesses for every width); with checks the outputs are exact, the exact range in both builds, state invariants, bihomo refines the run over BigInt."
  },
  {
   "property": "C84",
   "status": "partial",
   "theorems": [
    "NumIrr.Prim.prim_simplify_call",
    "NumIrr.Prim.prim_simplify_exact",
    "NumIrr.Prim.prim_simplify_regular_partial",
    "NumIrr.Prim.prim_simplify_range",
    "NumIrr.Prim.prim_simplify_state",
    "NumIrr.Prim.prim_simplify_signed_refuted",
    "NumIrr.Prim.prim_simplify_unsigned_refuted"
   ],
   "note": "False without overflow checks for signed and unsigned types (witnesses for every width); with checks the outputs are exact, the exact range in both builds, state invariants."
  },
  {
   "property": "C85",
   "status": "partial",
   "theorems": [
    "NumIrr.Prim.prim_e",
    "NumIrr.Prim.prim_e_count_partial",
    "NumIrr.Prim.prim_e_early_refuted",
    "NumIrr.Prim.prim_e_unsigned_refuted",
    "NumIrr.Prim.prim_e_signed_refuted",
    "NumIrr.Prim.prim_pi",
    "NumIrr.Prim.prim_pi_release",
    "NumIrr.Prim.prim_pi_refuted",
    "NumIrr.Prim.prim_exp",
    "NumIrr.Prim.prim_exp_early_refuted",
    "NumIrr.Prim.prim_coeffs_rel"
   ],
   "note": "Exact item ranges in both builds and panics otherwise; false: e panics two items early and is wrong without checks, exp panics on a representable pair, pi gets partial numerators 0 without checks."
  },
  {
   "property": "C86",
   "status": "partial",
   "theorems": [
    "NumIrr.Fx.prim_gamma_partial",
    "NumIrr.Fx.prim_gamma_rel",
    "NumIrr.Fx.prim_gamma_count",
    "NumIrr.Fx.prim_gamma_early_refuted",
    "NumIrr.Fx.prim_gamma_refuted"
   ],
   "note": "With checks every item is exact or an overflow panic, with the exact numbers of items for i8 to i128; false: panics on representable items, wrong items without checks for every type."
  },
  {
   "property": "C87",
   "status": "partial",
   "theorems": [
    "NumIrr.Prim.prim_pi_simplify_partial",
    "NumIrr.Prim.prim_pi_simplify_count",
    "NumIrr.Prim.prim_pi_simplify_refuted",
    "NumIrr.Prim.prim_e_homo_partial"
   ],
   "note": "With checks only coefficients of pi and (ae+b)/(ce+d), with the exact numbers of coefficients of pi; false without checks for every width (witnesses)."
  },
  {
   "property": "C88",
   "status": "partial",
   "theorems": [
    "NumIrr.Surd.surd_toContfrac_period",
    "NumIrr.Surd.surd_toContfrac_shortest_partial",
    "NumIrr.Surd.surd_toContfrac_shortest_neg_conj",
    "NumIrr.Surd.surd_toContfrac_same_partial",
    "NumIrr.Surd.surd_toContfrac_same_neg_conj",
    "NumIrr.Surd.surd_toContfrac_shortest_apart",
    "NumIrr.Surd.surd_toContfrac_same_apart",
    "NumIrr.Surd.surd_toContfrac_shortest_refuted"
   ],
   "note": "The period is always the shortest. False for the part before it, and equal surds can give different fractions (30 - sqrt(7) written in two ways); both hold if no complete quotient has its integer part computed too large, in particular for numbers with a conjugate of opposite sign, or, if the irrational part has the sign of the number, farther away than the fractional part."
  },
  {
   "property": "C89",
   "status": "partial",
   "theorems": [
    "NumIrr.CF.cf_eq_equiv",
    "NumIrr.CF.cf_eq_sound",
    "NumIrr.CF.cf_eq_finite",
    "NumIrr.CF.cf_eq_mixed",
    "NumIrr.CF.cf_val_periodic_iff",
    "NumIrr.CF.cf_eq_partial",
    "NumIrr.CF.cf_shortest_one",
    "NumIrr.CF.cf_eq_refuted"
   ],
   "note": "Equivalence relation, sound, exact for finite fractions and between finite and periodic ones; false for periodic fractions written in a longer way (witnesses), exact for those written in the shortest way."
  },
  {
   "property": "C90",
   "status": "partial",
   "theorems": [
    "NumIrr.Surd.surd_cf_surd_value",
    "NumIrr.Surd.surd_cf_surd_partial",
    "NumIrr.Surd.surd_cf_surd_refuted",
    "NumIrr.Surd.cf_surd_cf_partial",
    "NumIrr.Surd.surd_cf_surd_apart",
    "NumIrr.Surd.cf_surd_cf_apart",
    "NumIrr.Surd.surd_round_trip"
   ],
   "note": "The way back gives the value of the fraction or panics on incompatible roots (witness); for numbers with a conjugate of opposite sign both round trips work, and the fraction is the same exactly if it was written in the shortest way."
  },
  {
   "property": "C91",
   "status": "partial",
   "theorems": [
    "NumIrr.CF.surd_comm_fields",
    "NumIrr.surd_add_comm",
    "NumIrr.surd_mul_comm",
    "NumIrr.surd_sub_self",
    "NumIrr.surd_div_self",
    "NumIrr.surd_laws_partial",
    "NumIrr.surd_laws_refuted"
   ],
   "note": "Commutativity and inverses hold, including panics. Associativity and distributivity are false (panic on one side only; wrong values with the complex feature) and hold for real numbers whenever both sides return."
  },
  {
   "property": "C92",
   "status": "partial",
   "theorems": [
    "NumIrr.qint_ring_ops",
    "NumIrr.qint_ring_laws",
    "NumIrr.qint_mul_div",
    "NumIrr.gint_ring_laws",
    "NumIrr.gint_mul_div",
    "NumIrr.qint_laws_partial",
    "NumIrr.qint_laws_refuted"
   ],
   "note": "Proved for GaussianInt and within one ring Z[w] (same discriminant, rationals stored with discriminant zero), even as equality of representations. False across rings (witnesses); there the laws hold up to == when both sides return."
  },
  {
   "property": "C93",
   "status": "partial",
   "theorems": [
    "NumIrr.surd_toComplex32_some",
    "NumIrr.surd_toComplex32_partial",
    "NumIrr.surd_toComplex32_real_partial",
    "NumIrr.surd_toComplex32_gauss",
    "NumIrr.surd_toComplex32_nearest_refuted"
   ],
   "note": "Never None; exact for Gaussian integers of 24 bits; nearest up to a relative error of 2^-49 with exact overflow threshold. 'Nearest' itself is false: 2^60+2^36+1 (double rounding)."
  },
  {
   "property": "C94",
   "status": "partial",
   "theorems": [
    "NumIrr.CF.cf_add_comm",
    "NumIrr.CF.cf_mul_comm",
    "NumIrr.CF.cf_sub_eq_add_neg",
    "NumIrr.CF.cf_neg_neg",
    "NumIrr.CF.cf_rational_field",
    "NumIrr.CF.cf_sub_self_refuted",
    "NumIrr.CF.cf_bin_shortest_partial",
    "NumIrr.CF.cf_bin_same_partial",
    "NumIrr.CF.cf_bin_shortest_apart",
    "NumIrr.CF.cf_bin_same_apart",
    "NumIrr.CF.cf_laws_partial",
    "NumIrr.CF.cf_laws_refuted"
   ],
   "note": "Commutativity and x - y = x + (-y) hold for all fractions; all laws of a field hold for rational ones. x - x and x / x panic for every irrational x; the other laws are proved for results with a conjugate of opposite sign and refuted otherwise."
  },
  {
   "property": "C95",
   "status": "partial",
   "theorems": [
    "NumIrr.GammaCoeffs.gamma_src",
    "NumIrr.GammaCoeffs.gamma_nested",
    "NumIrr.GammaCoeffs.gamma_value",
    "NumIrr.GammaCoeffs.gamma_convergents",
    "NumIrr.GammaCoeffs.gamma_above",
    "NumIrr.GammaCoeffs.gamma_simplify_partial",
    "NumIrr.GammaCoeffs.gamma_simplify_refuted",
    "NumIrr.GammaCoeffs.gamma_decimals_refuted"
   ],
   "note": "The nested fractions are defined, converge to Euler's constant and are what convergents() yields. False for simplify (the coefficients are not regular) and decimals (0578, then a panic); whatever simplify yields together with its state still represents Euler's constant."
  },
  {
   "property": "C96",
   "status": "partial",
   "theorems": [
    "NumIrr.GIter.exp_neg_simplify_partial",
    "NumIrr.GIter.exp_one_simplify_partial",
    "NumIrr.GIter.exp_one_agrees_partial",
    "NumIrr.GIter.exp_neg_decimals_partial",
    "NumIrr.GIter.exp_neg_decimals_productive",
    "NumIrr.GIter.exp_zero_decimals",
    "NumIrr.GIter.exp_zero_simplify_refuted",
    "NumIrr.GIter.exp_pos_refuted"
   ],
   "note": "Proved for all negative t (including that e^t is irrational, so that the streams never end), the digits for t = 0, and the coefficients for t = 1 (they are those of e at every position). Otherwise false for positive t (the 13th digit of e, negative coefficients of e^2, first coefficient of e^3), and simplify hangs for t = 0."
  },
  {
   "property": "C97",
   "status": "partial",
   "theorems": [
    "NumIrr.Block.block_moves",
    "NumIrr.Block.block_gmove_coprime",
    "NumIrr.Block.block_checked_moves",
    "NumIrr.Block.block_outputs",
    "NumIrr.Block.block_digit_partial",
    "NumIrr.Block.block_digit_refuted",
    "NumIrr.Block.block_digit_iff"
   ],
   "note": "Proved for the moves, the checked moves, and what the two outputs leave behind. The digits are exact if the entries of the denominator have the same sign; with a pole at a positive argument a digit can be wrong, and is wrong at some argument unless the block stands for a constant."
  },
  {
   "property": "C98",
   "status": "partial",
   "theorems": [
    "NumIrr.fixed_sqrt_int",
    "NumIrr.fixed_toPrim_partial",
    "NumIrr.fixed_toPrim_refuted"
   ],
   "note": "Square roots proved for every integer but the least, which panics. to_i64 and to_u64 never return a wrong number and never miss one, but can panic instead of returning None."
  },
  {
   "property": "C99",
   "status": "proved",
   "theorems": [
    "NumIrr.CF.cf_rebuild",
    "NumIrr.CF.cf_collect",
    "NumIrr.CF.cf_collect_periodic"
   ],
   "note": ""
  }
 ]
}
