# Formal model of num-irrational — design

Lean 4 (4.33.0) + Mathlib, project in `lean/`. The Rust code in `/repo` was read as text only; it was
never built or run. All line numbers refer to files under `/repo`.

## 1. Layers

| directory | content |
|---|---|
| `Verif/Model/` | the Rust functions, one definition per function, computable, with file and line citations |
| `Verif/Spec/`  | what the user means: real/complex value of a surd, value of a finite / infinite continued fraction, ... No model function is used there except the data structures |
| `Verif/Lemmas/` | helper lemmas (mathematics and stepwise facts about the model) |
| `Verif/Props/` | the property theorems (named in `MANIFEST.json`), each with a concrete `example` |
| `Verif/Checks/` | the crate's own unit tests, evaluated on the model (tests of the model, not proofs; nothing imports them) |

## 2. Modelling decisions (what is simplified)

* **Integers.** `T` is modelled as Lean `Int` and the unsigned companion `U` as `Nat`: this is exactly
  `BigInt`/`BigUint`; for `i8..i128` it is exact for every run in which no *unchecked* arithmetic
  overflows. Overflow of unchecked operators (a debug panic or a silent wrap in Rust) is not part of the
  main model; surds, quadratic integers, Gaussian integers and continued fractions (`new`, conversions, integer shifts,
  iterators) have a second, operator-by-operator model over `i8..i128` (Model/Fixed, Model/FixedSurd, Model/FixedQInt,
  Model/FixedCF, Model/FixedCFSurd, Model/FixedSqrt, Model/FixedGen,
  Model/FixedApprox) that is related to the main model in C63-C80, C83-C87, C98 and C101. The *checked* operations of the library (`checked_rmove`, `checked_gmove`, `checked_mul` in
  `from_sqrt`) are modelled with an explicit range predicate (`fits`), and the casts
  `to_signed`/`to_unsigned` of `src/traits.rs` by two's complement wrap in the fixed-width part.
* **Ratio<T>.** `num_rational::Ratio` is modelled by Lean's `Rat` (reduced, positive denominator).
  `Ratio::new_raw` with unreduced arguments is outside the model, except where the library itself uses it
  (`to_rational` of a surd), where the pair is kept.
* **Arithmetic of num-integer / num-traits** (trusted): `/`,`%` = truncating (`Int.tdiv`, `Int.tmod`),
  `div_floor` = `Int.fdiv`, `div_mod_floor` = (`Int.fdiv`, `Int.fmod`), `gcd` = non-negative gcd,
  `Roots::sqrt` = integer square root (`Nat.sqrt`) and panics for negative argument,
  `abs`, `is_negative`, `is_positive`, `signum` as usual.  The provided methods of `ToPrimitive`/`FromPrimitive` go through
  the 64-bit ones and `to_f64` (Model/SurdPrim, C110).
* **Panics** are values: `Res α = Except Panic α`. `&mut` arguments become returned values.
* **Loops** that are not structurally recursive run on fuel and return `none` when it runs out; theorems
  say either "for some fuel it returns" (termination; more fuel does not change the result) or "for all fuel it is `none`" (hang).
* **Feature flags**: `Cfg.complex` is the cargo feature `complex`; `Cfg.debug` is `debug_assertions`.
* **Iterators** are a state plus a `next` function.  An *input* iterator (of `homo`, `simplify`, …) is a function
  `ℕ → Option _` (the result of its `k`-th call) together with the number of calls made so far, so it need not be
  fused; `stream next s` turns a modelled iterator into such a function.  What an output iterator gives is stated by
  `Outs` (Spec/Iter): a list of items collected by successive calls, each with some fuel.
* **Fixed width in the generalized part.** `IntTy {fits, wrap}` (Model/General) is the item type of
  `GeneralContinuedFraction`: `big`, `unsigned w`, `signed w`.  Checked operations use `fits`; unchecked ones panic
  with overflow checks (`Cfg.debug`) and wrap without.  `Width {fits, sgn}` (Model/CF) is the unsigned type of a
  `ContinuedFraction` and its `to_signed` cast.
* **Fixed-width surds and quadratic integers.** `Fx {w, checks}` is a signed primitive type and whether overflow checks are compiled in
  (independent of `Cfg.debug`).  Each arithmetic operator of the source is one monadic step; an unrepresentable result is
  a panic with checks and wraps without; `MIN / -1` always panics.
* **Fixed-width continued fractions.** `Prim {w, sg, checks}` adds the unsigned types.  The casts `to_signed` and
  `to_unsigned` are `as` casts: total and silent in both kinds of build.  The simpler model `Width.prim` of C29 keeps a
  convergent as an exact rational; C73 relates it to the fields of a `Ratio` (they differ only where `Ratio::new` overflows).
* **Fixed-width infinite fractions** (Model/FixedGen). `homo`, `bihomo`, `simplify` and the iterators of `e`, `π`, `exp`, `γ` over
  `Prim`/`Fx`; an input iterator is a function into `Res (Option _)`, since its calls may panic (`streamR`).
* `Ratio` over primitive integers follows num-rational 0.4: `new` reduces by the gcd and makes the denominator positive;
  `+`, `-` use the lcm of the denominators; `*`, `/` divide out both gcds first; `lcm`, `div_floor` as in num-integer.
  These formulas (Model/Fixed, Model/FixedCFSurd) are part of the trusted base, since the crates are not in /repo.
* **Floats** (Model/Float). `F64` is binary64 with rounding to nearest, ties to even; finite floats are real numbers, the
  two zeros are one.  `to_f64` of an integer and float literals round correctly.  `Ratio::from_f64` is a parameter.
* Not modelled: `Clone`, `Debug`, serde-like derives, `num-prime` conversions, formatting flags other than `alternate`,
  allocation failure, `std::mem` mechanics.
* Not modelled because nothing can call them: the private methods without a body `QuadraticSurd::ceil`, `round`
  (surd.rs:626-629) and `QuadraticInt::unit` (integer.rs:334-338).

## 3. Trusted base

* Lean kernel, and Mathlib as installed. Axioms used by theorems: only `propext`, `Classical.choice`,
  `Quot.sound` (checked by `Verif/Audit.lean`-style `#print axioms` runs; no own axioms, no `sorry`, no `native_decide`).
* The correspondence between the Rust text and the Lean definitions in `Verif/Model` (by reading).  As a check of the reading,
  every assertion of the crate's unit tests (all but the four lines on `to_f64` values) is evaluated on the model over the
  integer types of the tests in `Verif/Checks`; all hold.
* The semantics of the num-* crates listed above, and IEEE 754 arithmetic as stated in Model/Float.

## 4. Plan per property

Status words: **P** prove in full; **N** the claim is false of the code: prove the negation with a concrete
witness and keep the largest true part as `…_partial`.

| id | plan |
|---|---|
| C01 | P. `reduce` split into the three source steps; each preserves `(a+b√r)/c` in ℂ. |
| C02 | P. `Surd.Ok` invariant from `reduce`, for every operation. Not idempotent (`new` of `parts()` can reduce further): recorded as a fact. |
| C03 | N. `√8 == -2√2`. Partial: equal numbers are always `==`; `==` implies equal up to the sign of the irrational part; exact when the bases agree. |
| C04 | N. transitivity and Hash fail by the same witness; reflexive and symmetric proved. |
| C05 | P. |
| C06 | N with `complex` (i·i = 1). Partial: exact for real surds and for complex ones unless both are pure with negative roots. |
| C07 | N with `complex` (i/i = -1); same partial. `recip` P. |
| C08 | N for division (0/√2 panics), P for the rest as an exact iff. |
| C09 | P. |
| C10 | P. |
| C11 | P. |
| C12 | P. |
| C13 | N (`trunc(5-√2)=4`, true 3). Partial: right when x and its irrational part have the same sign. |
| C14 | P. |
| C15 | N (`to_rational(-√2) = 1`). Partial: right for b ≥ 0; for irrational numbers exactly for b > 0. |
| C16 | P for the roots; N for "the conjugate is the other root" with rational roots. |
| C17 | P. |
| C18 | N (`from_sqrt(3-2√2)` is negative). Partial: squares to x, completeness, error data, exact sign condition. |
| C19 | N (`reduced()` hangs on rationals). Partial: root ≠ 0. |
| C20 | N (`is_quadint((1+√5)/2)` false; `is_gaussint(√2)` true). Partial directions. |
| C21 | N (`to_quadint` of an integer panics; `to_gaussint(√2)` is Exact `i`). Partial. |
| C22 | model the formatter as an expression/characters, prove denotation. |
| C23 | N (`[-1,4]` ↦ +3/4; `[2,0,-5]` panics). Partial: non-negative lists exactly; all lists up to sign; lists with coefficients of absolute value ≥ 2 after the first exactly, with an iff for the lost sign. |
| C24 | P for non-empty results; N for `[3,0]` (empty result). |
| C25 | N (`[-1;(2)]`). Partial: non-negative; all lists up to sign and negation of the period; exact (iff) for coefficients of absolute value ≥ 2. |
| C26 | P. |
| C27 | N for `into_coeffs`; P for the rest. |
| C28 | P. |
| C29 | N (u8 wrap in to_signed). Partial: under no-wrap condition. |
| C30 | N (`√2`, limit 169). Partial: true bound 1/(q·limit). |
| C31 | N (1/4-1). Partial. |
| C32 | P. |
| C33 | N (√2-√2 panics). Partial. |
| C34 | P/partial. |
| C35 | N ((2-√2)/3). Partial. |
| C36 | N (3-√2 hangs, rationals panic). Partial: Lagrange for b>0 pure etc. |
| C37 | N (incompatible panic for [0;1,2,1,(2,20,14,27)]). Partial: value right when it returns; no panic when one aperiodic coefficient. |
| C38 | P. |
| C39 | P (invariant for all; regular for non-negative; negation witness for a pole). |
| C40 | P. |
| C41 | N (x+y panics). |
| C42 | P. |
| C43 | P. |
| C44 | P for 0≤x<10; N beyond, where the exact bytes are proved. |
| C45 | P. |
| C46 | P closed form; convergence to e by integrals. |
| C47 | P via integrals. |
| C48 | P (integrality). For convergence to γ see C95. |
| C49 | N (`new(a,b,0)` panics, `new(1,1,9)` = 6). Partial. |
| C50 | P on well-formed values. |
| C51 | N (`%` by a rational quadratic integer returns the quotient). Partial. |
| C52 | P. |
| C53 | P. |
| C54 | N. Partial as C03. |
| C55 | P. |
| C56 | N. Partial. |
| C57 | P. |
| C58 | N (`is_one` of `-1`). Partial. |
| C59 | N, as C30. Partial. |
| C60 | N: the pairs are (coefficient, 1) instead of (1, coefficient). Partial: right when all coefficients are 1. |
| C61 | N. Partial, as C30. |
| C62 | N: the multiplication by 10 is unchecked. Partial. |
| C63 | Step-by-step refinement of the fixed-width functions into the main model; invariant "stored = representable". |
| C64 | Bound tracking (`Safe`) through every operator; then C63 and the same comparison of debug with release runs. |
| C65 | N: `gac * gac` in `reduce` wraps; `==` squares and wraps. Partial: runs whose checked version does not overflow. |
| C66 | As C63, for `QuadraticInt` and `GaussianInt`. |
| C67 | As C64. |
| C68 | N for `/`, `%`, `==` and one norm. Partial: wrapping is a ring homomorphism, so `+ - *`, conj and norm are exact whenever the exact result fits; and runs whose checked version does not overflow. |
| C69 | N for negative periodic coefficients and for the sign flag at the ends of the range. Partial: refinement of checked runs; sum bound for exactness (sharp). |
| C70 | N at numerator MIN only. |
| C71 | N for coefficients in the upper half of the unsigned range, even with checks. Partial: refinement, exact ranges. |
| C72 | N in the upper half of the unsigned range. Partial elsewhere. |
| C73 | N: silent truncation of the last convergent, negative denominators. Partial: exact whenever the returned number fits. |
| C74 | Proved. The overflow inside `Ratio::new` for the single pair (MIN, -1) is not modelled; the statement on yielded numbers is for non-negative pairs. |
| C75 | False in release builds (witness for all widths 4j, j ≥ 4); proved with overflow checks. |
| C76 | Proved. The bound is on the discriminant after the code has brought the number to the form (p+√d)/q. |
| C77 | False when a continuant read off the fraction exceeds the signed type (silent cast, both builds) and in release builds; proved with checks otherwise, and in explicit ranges for both builds. |
| C78 | False for the same two reasons; proved with checks otherwise, and in an explicit range for finite fractions in both builds. |
| C79 | False with checks (panic though the root is representable) and in release builds (wrong root). Partial: with checks up to overflow panics; exact ranges in both builds. |
| C80 | False in both kinds of build for widths 16–128; i8 and rational surds fail for other reasons. Partial as for C79. |
| C81 | N. The sign of `to_f64` is wrong under cancellation, NaN for huge integers. Error bound relative to the terms; partial: no cancellation. |
| C82 | P. |
| C83 | N. False without checks (`(nx+1)/(nx+2)`, every width). Partial: with checks exact or a panic; exact range in both builds. |
| C84 | N. As C83. |
| C85 | Exact ranges in both builds. False: `e` panics two items early, and release builds give wrong items for `e` and `π`. |
| C86 | N. Partial: with checks exact or a panic; the numbers of items per type. False without checks for every type. |
| C87 | N. As C83 for `π` and `(ae+b)/(ce+d)`; the numbers of coefficients of `π` per width. |
| C88 | The period: P. The part before it: N; partial for numbers without a complete quotient whose integer part is computed too large. |
| C89 | P for finite fractions; N for periodic ones, exact for those written in the shortest way. |
| C90 | N (panic on the way back); partial: never another number; P for numbers with a conjugate of opposite sign. |
| C91 | Commutativity and inverses: P. Associativity, distributivity: N; partial for real numbers when both sides return. |
| C92 | P for Gaussian integers and within one ring. Across rings N; partial when both sides return. |
| C93 | N (double rounding). Partial: nearest up to 2^-49, overflow threshold; exact for small Gaussian integers. |
| C94 | P for commutativity, x-y = x+(-y) and all rational fractions. N for irrational ones; partial for results with a conjugate of opposite sign. |
| C95 | P for the value and `convergents`. N for `simplify` and `decimals`; partial: outputs and state of `simplify` represent γ. |
| C96 | P for t < 0, the digits for t = 0 and `exp(1).simplify()`. N for the digits of `exp(1)`, for t = 2, 3, and for `simplify` with t = 0. |
| C97 | P for the moves and what outputs leave behind; digits P for denominators without a pole at a positive argument, N otherwise. |
| C98 | P for `from_sqrt` (all but the least integer) and for the values of `to_i64`/`to_u64`. N: they can panic instead of returning `None`. |
| C99 | P. |
| C100 | P for surds. N for quadratic integers, with the exact condition. |
| C101 | P if the convergents that are read fit (explicit bound). N otherwise: for every width, in both kinds of build. |
| C102 | P. For surds about `cfValue`, the number whose fraction is computed (section 5). |
| C103 | P. The bound cannot be weakened to 1/q². |
| C104 | P. From the value alone (`cf_sqrt_period`, for shortest fractions) and for the converted surd. |
| C105 | P. Unbounded integers; over primitive integers the later convergents leave the range. |
| C106 | P. Rounds are the fuel of the model's loops. |
| C107 | P. A counter of `max (2n+5) (R(R+1))` rounds decides whether the conversion ends; see C36 for the numbers for which it does not. |
| C108 | `CF.Reach` (all sequences of calls). P for shape, value, exact panics. N for well-formedness; partial: `CF.Built`. |
| C109 | Spec `ConjRoots`, `CF.Pure`. P. |
| C110 | Spec `InPrim`, `Near32`. `_partial` and refuted for 128 bits and `to_f32`. |
| C111 | Lagrange: Legendre for `√N` from above, for `1/√N` from below; norms are the denominators of the complete quotients. |
| C112 | Consequence of C35, C39, C40 and of the arithmetic of surds, stated on the items of the iterators. |
| C113 | False as stated (finding 45); the exact outputs are the common prefix of two runs of the Euclidean algorithm, the columns of the last block. |
| C114 | False as stated (finding 46); the exact outputs, with the removal of common factors in `gmove` handled by proportional blocks. |
| C115 | Equivalence is generated by shift, negation and inversion, each of which keeps the property that the tails meet. |
| C116 | From the exactness of both iterators (C40, C41). |
| C117 | Every operation is the one of `(Z/2^w)[w]`; the laws are those of that ring. Checked builds follow by comparison with unchecked ones. `==` N. |
| C118 | Steps in another order panic with the same error, so swapping operands changes nothing. Associativity by comparison with exact arithmetic when checked. N without checks, for all widths. |
| C119 | As C118. N: `u.b*(v.a+v.b)` overflows in one order only. |
| C120 | P, with checks on or off and also for fractions that are misread. |
| C121 | N in both directions with witnesses; equal wherever both forms return. |
| C122 | Q: values proved for every formula; returning characterised over one square-free root; refuted for roots with square factors and for complex numbers. |
| C123 | P, unbounded and checked primitive integers; N without checks. |
| C124 | Q: proved for every formula over a root that is not a square and for Gaussian integers, and without overflow checks modulo `2^w`; refuted for squares. |
| C125 | Q: P for `GaussianInt` with the number of rounds; N for `QuadraticInt` (endless, panic, wrong result), partial without rational divisors. |
| C126 | Q: P for `simplify`, `convergents` and positive digits; N for the digits of a negative number (zeros, then a panic). |
| C127 | Q: the number stored is known for every formula; right value, equality and return under sign conditions; N without them. |
| C128 | Q: agreement for positive roots, and for negative ones without products of two multiples of the root; N for every negative root. |
| C129 | Q: laws of floor, oddness of trunc and fract; idempotence of fract for reduced surds; N in general. |
| C130 | Q: stored form unique over square-free roots; sign tests, floor, and to_contfrac with conjugate of opposite sign agree; N for trunc, to_rational, to_quadint, to_contfrac. |
| C131 | Q: simulation of programs over real numbers (Spec/SurdProg); finishing equivalence over one square-free root; N in general. |
| C132 | P: by hand the expansion of every irrational real surd works and is periodic (Lagrange). |
| C133 | P: bounds of Vahlen, Borel and Hurwitz for consecutive convergents. |
| C134 | P: the convergents at the ends of the periods of square roots are the powers of the first one. |
| C135 | P: the greatest common divisor of m and x+i with m dividing x²+1 has norm m. |
| C136 | P: expansions by hand over primitive integers: the same or an overflow; for square roots with 4N² representable never an overflow. |
| C137 | P: powers of the golden ratio and its convergents are made of Fibonacci numbers in every representation, and how far this goes over primitive integers. |
| C138 | P: neither the feature `complex` nor debug assertions change a result for real numbers; the panics that differ are listed. |
| C139 | Q: the same over primitive integers with overflow checks; false when products of roots wrap around (`fixed_config_mul_refuted`). |
| C140 | P: the functions that make sense for real numbers only panic exactly for numbers with a non-zero imaginary part. |
| C141 | Q: polynomials evaluated by Horner's rule; a solution put back into its equation gives the surd zero. Fails for purely imaginary numbers. |
| C142 | P: units of the rings: norm ±1, inverse by division, complete lists, powers of the convergent at the end of the period. |
| C143 | P: comparison by the sign of the difference is the order of the real numbers; sorting with it works. Wrong without overflow checks. |
| C144 | Q: divisibility tests with % and with / and *; % fails for rational operands. |
| C145 | Q: powers by repeated squaring; false for complex surds and for some real roots with a square factor. num_traits::pow is transcribed from the crate num-traits, not from /repo, and is trusted to be so. |
| C146 | Q: powers of continued fractions; false for square roots, of which no power but the first returns, and for others whose powers get incompatible roots. |
| C147 | Q: 1/c moves the coefficients by one place; false where the result cannot be expanded. |
| C148 | Q: Euclid's extended algorithm with /, * and -; works where the one with % (C125) fails, and may run for ever over other discriminants. |
| C149 | Q: programs with branches and loops over one ring do what they would do with complex numbers, unless they use both `/` and `==`; what they do then is described exactly (`==` also compares whether a discriminant is stored). |
| C150 | P: programs with branches and loops over Gaussian integers do what they would do with complex numbers. |
| C151 | Q: programs with branches and loops over finite continued fractions do what they would do with rational numbers, unless they add or subtract integers or use `is_one`. |

## 5. Spec notions

* **Surds** (Spec/Surd): `Surd.valC` in ℂ (with the principal root of a negative integer), `Surd.val` in ℝ;
  `Normal`/`Ok` is the normal form; `Reach` (Spec/SurdReach) is the closure of the constructors under all operations.
* **Regular fractions** (Spec/CF): `cfVal` evaluates a finite list by nesting; `ValOf a p x`: the finite truncations of the
  fraction with pre-period `a` and period `p` tend to `x` (equal it if `p` is empty); `HasVal` adds the sign;
  `Wf`/`Canonical`/`Std` are the documented normal forms.
* **Surd → fraction** (Spec/SurdCF): `cfValue` is the number that the code really expands (the conjugate or the negative
  in the cases `Swapped`, `Flipped`), `Hangs` describes by complete quotients when the first loop never ends.
* **Arithmetic of fractions** (Spec/CFArith): `NumOp`, `BinOp` name the operators, with their real meaning.
* **Generalized fractions** (Spec/GCF, Spec/Tails): `nest g n` evaluates `b₀ + a₁/(b₁ + …)` by nesting; `GVal g x`: these
  tend to `x`; `Outs`: the items collected by successive calls; `tails x n`: complete quotients by `x ↦ 1/(x - ⌊x⌋)`.
* **Text** (Spec/Text): a reader for expressions, so that "faithful" means that reading the printed text gives the
  number back.
* **Fixed width** (Spec/Fixed): `Refines r b`: the run `r` is `b` or an overflow panic; `Holds`: representable. `CF.Fits`: all stored coefficients fit the unsigned type; `absSum`: the sum of the absolute values of a list. `continuant`: the denominator of a list of coefficients read as a fraction; `CF.Reads w c`: the integers that the conversion to a surd or a ratio reads off `c` fit the signed type; `NumOp.runFx`, `BinOp.runFx`: the fixed-width model of the operators of Spec/CFArith.
* **γ** (Spec/Gamma): the sequences `Q_n`, `s_n`, `a_n`, `b_n`, `ρ_n` of the cited paper, written independently; the claim
  is that the code emits exactly `ρ_n ρ_{n-1} a_n`, `ρ_n b_n` and that these are integers.

* **Fixed width, infinite fractions** (Spec/FixedGen): `Through P`: every convergent that a call of `next` forms satisfies `P`;
  `ExpFits`: the integers which a call of the iterator of `exp` forms are representable.

## 6. Findings (claims that the code does not meet; each has a kernel-checked witness)

1. `==`, `Hash` on surds (C03, C04) and on quadratic integers (C54).
2. products/quotients of pure imaginary surds (C06, C07); `0/√2` panics (C08).
3. `trunc`, `to_rational`, `to_quadint`, `to_gaussint`, `is_quadint`, `is_gaussint` (C13, C15, C20, C21).
4. `from_equation(..).conj()` for rational roots (C16); `from_sqrt` may return the negative root (C18).
5. `reduced()` hangs on rationals and panics for `i8` (C19).
6. `ContinuedFraction::new`: wrong sign, panics, non-canonical results (C23–C25).
7. `into_coeffs` repeats one coefficient of the period (C27).
8. fixed-width convergents: cast to the signed type wraps; not fused (C29).
9. `approximated` misses the best convergent and ignores the sign for small limits (C30, C59, C61).
10. adding an integer to a fraction (C31); `√2-√2` and other rational results panic (C33).
11. surd → fraction: wrong for a negative irrational part, hangs on `3-√2` (C35, C36); fraction → surd panics (C37).
12. `bihomo`: typo in `update_right` (`qm22` for `qm12`), wrong flags; wrong digits, panics and hangs (C41).
13. generalized convergents panic on a zero denominator; capacity (C42); `decimals` of numbers ≥ 10 and for fixed
    widths (C44, C62); `generalize` swaps its pairs (C60).
14. `QuadraticInt`: constructors, `%`, Eisenstein division, `is_pure` (C49, C51, C52, C56).
15. surds over fixed-width integers: `new` overflows on arguments whose result fits, and gives another number in release
    builds (C65); in release builds `2^k√2 == 2^k√3` and `√2 - 2^(w-2)` is positive (C65).
16. quadratic and Gaussian integers over fixed-width integers in release builds: `2^k / 2^k` divides by zero,
    `2^k√2 == 2^k√3`, negative norm of `ω` for the discriminant `MIN + 1` (C68).
17. continued fractions over primitive integers: negative periodic coefficients are stored as huge ones, `new` with the sign
    flag loses or keeps the wrong sign (C69); ratios with numerator MIN (C70); shifts and iterators cast coefficients from
    `2^(w-1)` on to negative numbers silently, even with overflow checks (C71, C72); `to_rational` of a fraction that
    does not fit returns an earlier convergent marked exact (C73).
18. surd → fraction over primitive integers in release builds: `(2^(w/2)+1)√2` becomes the fraction of `√(2^(w/2+2)+2)` (C75).
19. fraction → surd over primitive integers: continuants are formed in the unsigned type and cast silently, so that
    `[0; (2^w-1)]` becomes the golden ratio even with overflow checks; in release builds `[0; (2^j)]` for the width `2j`
    becomes an integer (C77).
20. arithmetic of fractions over primitive integers: `[1; 1, 2^w-1] · 1 = [2]` even with overflow checks;
    `[2^(w-2)] · 4 = [0]` in release builds (C78).
21. `from_sqrt` over primitive integers uses `checked_mul` for numerator·denominator but then normalises with unchecked
    products: it panics on `√(n/d)` whenever `d²` does not fit (e.g. `√(1/4294967298)` over i64), and in release builds
    returns a wrong root: `√(9/265)` over i16 is `√265/88`, `√((51+3√8)/2)` over i8 is `(12+√8)/4` (C79).
22. `reduced()` over primitive integers: `(6+(2^(w-1)-1)√12)/6` panics with checks and becomes `(3-√3)/3` without, though
    the reduced form `(3+(2^(w-1)-1)√3)/3` is representable; over i8 no call returns a surd (C80).
23. `to_f64` of the i64 surd `-9007199254735350 + 6369051672521783√2` is `1.0` although the surd is negative (and `is_negative`
    says so); of a quotient of two integers beyond 2^1024 it is NaN, not `None` (C81).
24. `homo`, `simplify` over primitive integers in release builds: wrong coefficients for every width (C83, C84).
25. `E.cfrac()` computes its next counter two calls before it is needed and so panics while the coefficient is 1; in release
    builds the coefficients of `e` start again from the beginning (unsigned) or become negative (signed); the partial
    numerators of `π` become 0 (C85).
26. `exp(2^(w-2))` panics on its fourth pair though that is representable (C85); `γ` over i8 panics on `(36, 59)` (C86).
27. `Pi.gfrac().simplify()` in release builds: after 1, 2, 4, 21, 45 right coefficients the next is wrong for all ten types, e.g.
    1 instead of 84 over u64 (C87).
28. Equal surds can give different fractions, one of them not the shortest: `30-√7` gives `[27;2,1,(4,1,1,1)]`, and the same
    number as `(60-√28)/2`, which `new(420,-7,14,28)` returns, gives `[27;2,(1,4,1,1)]` (C88). `==` on fractions tells
    `[1;2,(2)]` and `[1;(2)]` apart (C89).
29. `(8042+48√62)/11571` is converted to a fraction which is refused on the way back (C90).
30. `(√8+√18)+(-√18)` panics, `√8+(√18+(-√18))` does not; with the `complex` feature `(i·i)·(1+i)` and `i·(i·(1+i))` are
    opposite (C91).
31. For no discriminant other than -3, -2, -1, 2, 3, 5, 13 is the remainder always of smaller norm (C52).
32. `u = (3+√2)/3` is stored as 1 with discriminant 2, so `u+1 == 1+u` and `u-u == 0` are false; `(√18+√50)+(-√50)` panics,
    `√18+(√50-√50)` does not; `(√2·√18)/√18` is 0 (C92).
33. `to_rational` is wrong for every irrational surd with b < 0 (C15), and `from_sqrt` returns the negative root for every
    number whose non-negative root has a negative rational part (C18).
34. `to_complex32` rounds twice: `2^60+2^36+1` becomes `2^60`, though `2^60+2^37` is nearer (C93).
35. `x-x` and `x/x` panic for every irrational continued fraction, also if `x` is written in the shortest way; `(√7-3)+3` is
    a fraction for `6-√7`, and `√7-3` and `-√7+3` are the same fraction (C94).
36. The digits of Euler's constant are `0578` followed by a panic, and `simplify` yields `[0,1,1,2,1,2,1,3,1,-4,-1,0,…]` (C95).
37. `exp(1).decimals()` is wrong from the 13th digit on (`…458:` for `…4590`), `exp(2).simplify()` yields negative
    coefficients, `exp(3).simplify()` begins with 19 though e³ > 20, and `exp(0).simplify()` hangs in the second call (C96).
38. A block with a pole at a positive argument can give a wrong digit: `(3x-7)/(2x-4)` gives 1 though it is 2 at `x = 1` (C97).
39. `from_sqrt` of the least integer panics with `complex`, although the result is representable; `to_i64` of `2^(w/2-1)·√2`
    panics instead of returning `None`, in every kind of build (C98).
40. `0 + x == x` and `is_one` fail for the number one stored with discriminant 2, which is `(3+√2)/3` (C100).
41. Over primitive integers `approximated` can mark a wrong number as exact: `[0;1,2^(w-1)+1]` at the largest limit gives
    `Exact((2^(w-1)-1)/(2^(w-1)-2))`, greater than one, and `√2` over `i8` gives `Exact(17/87)` (C101).
42. `new([1,0],[2],false)` keeps its zero; its `convergents()` and `to_rational` divide by zero (C108).
43. `FromStr` for continued fractions is `unimplemented!()`: parsing any text, printed fractions included, panics (C34).
44. `to_i128`, `to_u128`, `from_i128`, `from_u128` of surds go through the 64-bit methods, so they give `None` for integers outside the 64-bit range even when `T` is `i128` or `BigInt` (`surd_prim128_refuted`).
45. `homo` on a finite source (infinite.rs:74-85): when the source ends the iterator returns `None`, although the rest of the result, the expansion of `pm1/qm1`, is then known. So the last coefficients are always lost: the identity map on `[2]` yields nothing, doubling `11/7 = [1; 1, 1, 3]` yields only `[3]` instead of `[3; 7]`.
46. `simplify` and `decimals` on a finite source (general.rs:95-131) end when the source ends, as `homo` does: of `1 + 3/(2 + 5/4) = 25/13` `simplify` yields nothing, of `2 + 1/2` `decimals` yields only the digit `2`, and of a single pair neither yields anything.
47. Over primitive integers without checks, `x*(y+z) == x*y+x*z` can fail although the coefficients agree: `u = 2^(w-2)√2` times 4 is stored as `(0, 0, 2)` by `Mul<T>`, `u*2 + u*2` as `(0, 0, 0)` by `from_coeffs`, and `==` answers false (integer.rs:475-488) (C117).
48. Over primitive integers without checks, `+` and `*` of surds are not associative and not distributive, with all steps returning: `(1/P + 1/3) - 1/3` gives `9/P` for `P = 2^(w-2)` in every type (C118). Unlike the coefficients of `QuadraticInt`, a wrapped denominator changes the value for good.
49. With overflow checks, `x * y` may panic where `y * x` returns, for `QuadraticInt` with discriminants 1 modulo 4: the product is computed as `u.a*v.b + u.b*(v.a+v.b)` (integer.rs:187-200), which treats the factors differently. `(-1+w)*(MAX + MAX*w)` panics, the other order returns `MAX*w` (C119).
50. `x / y` and `x * y.recip()` do not panic together: `(-2-2√18) / (-2-2√8)` is "incompatible" while the product with the
    reciprocal is `(11-√2)/7`, and `(1+√18) / (3+√72)` is `(11-√2)/21` while the product panics (C121). Over primitive
    integers without checks `1/2 - y` and `1/2 + (-y)` may have opposite signs; `y = (-62+√2)/4` in `i8` is one case.
51. One root throughout a calculation is not enough for it to return: `(2+√72)/2 + (3+√72)/3` panics with
    "incompatible", since the constructor divides the square of a common factor out of the root, which leaves 18 in one
    summand and 8 in the other (C122). With a square-free root this cannot happen.
52. Euclid's algorithm written with `%` of `QuadraticInt` never ends for 6 and 4, panics for the Eisenstein integers `7+3ω`
    and `2+ω`, and returns -3 for `5+ω` and `8+ω`, which divides neither (C125): the remainder by a rational divisor is the
    quotient (integer.rs:651). With `GaussianInt` it works.
53. `decimals()` of a negative number prints the leading zeros and then panics in `to_u8().unwrap()`; for `-√2` the first
    call panics (C126). The source has a TODO for signs at general.rs:118, but the function documents no panic.
54. For a negative root the two types disagree: `√r·√r` is `-r` as a product of surds and `r` as a product of quadratic integers, for every such `r` (C128); the surd product is the wrong one.
55. `reduce` is not idempotent, and `trunc` depends on the stored form: `new(30, -3, 12, 60)` is stored as `(10-√60)/4` with `trunc` 0; its `fract` is the same number stored as `(5-√15)/2` with `trunc` 1, so `fract` is not idempotent and equal surds truncate differently (C129).
56. Equal surds are not interchangeable: `new(12, -2, 18, 18) == new(2, -1, 3, 2)`, but only the first converts to a continued fraction of its value; `new(6, 3, 6, 12) == new(1, 1, 1, 3)`, but only the second converts exactly to a quadratic integer, and `to_rational` gives 5/2 and 2 (C130).
57. Without overflow checks the feature `complex` changes what real calculations do: over `i8`, `sqrt(13)*sqrt(11)` wraps around to `sqrt(-113)`, a complex number with the feature and the panic about a negative root without it (`fixed_config_mul_refuted`).
58. Repeated squaring is wrong for complex surds: `num_traits::pow` of `1+i` with exponent `4` squares `2i`, which gives `4` instead of `-4` (`surd_pow_refuted`); the same power of the quadratic integer is right.
59. Powers of one real surd may be stored with roots that do not divide each other, because `reduce` takes a square factor out of the root only if the whole gcd is a square: the 7th and 8th power of `(24375+sqrt(455625000))/6000` have the roots `3240` and `9000`, and their product, hence the 15th power by repeated squaring, panics as if they belonged to different fields (`surd_pow_panics`).
60. Programs cannot raise the continued fraction of a square root to any power but the first: the square is rational, and turning it back into a fraction panics (`cf_pow_refuted`).
61. Multiplying a continued fraction with its own square may panic as if the two belonged to different fields: `[2; (8, 1)]`, which is `(6+sqrt(6))/4`, is turned into `(24+sqrt(96))/16`, its square into `(21+sqrt(216))/8`, and these are found incompatible (`cf_pow_panics`).
62. C149: a program that divides quadratic integers and compares the quotient with `==` can take the wrong branch: `(5 + √2)/3` is rounded to 2 but keeps the discriminant 2, so it is not `== 2`. `is_zero` and `is_rational` are not affected.
63. C151: a program over finite continued fractions that adds or subtracts an integer computes a wrong number (`1/4 - 1` is `3/4`), and one that asks `is_one` can take the wrong branch (`-1`). Adding the integer as a `Ratio`, or comparing with `==`, is right.
