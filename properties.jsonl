{"id": "C01", "title": "Surd constructors preserve the number", "statement": "QuadraticSurd::new(a,b,c,r), from_coeffs and From<T>/From<Ratio> return a surd whose parts (a',b',c',r') denote exactly the number (a+b*sqrt(r))/c that was asked for.", "quantifier": "all integers a,b,c,r for which the constructor returns, with and without the complex feature", "why_tests_cant": "normalisation divides by gcds and by square factors shared between a, c and r; a wrong branch only shows for particular factorisations", "anchors": [{"file": "src/quadratic/surd.rs", "symbols": ["QuadraticSurd::new", "QuadraticSurd::from_coeffs", "QuadraticSurd::reduce", "From<Ratio<T>>"]}]}
{"id": "C02", "title": "Surd normal form and exact panic condition of the constructor", "statement": "new/from_coeffs panic exactly when c = 0, or when r < 0 without the complex feature; otherwise parts() has positive denominator, gcd(a,b,c)=1, b=0 iff r=0, and r is not a perfect square unless it is 0. Every public operation that returns a surd preserves this form.", "quantifier": "all integers a,b,c,r and all histories of public surd operations", "why_tests_cant": "an invariant over every reachable value, not over sampled ones", "anchors": [{"file": "src/quadratic/surd.rs", "symbols": ["QuadraticSurd::new", "reduce", "conj", "neg", "numer", "denom"]}]}
{"id": "C03", "title": "Surd equality is numeric equality", "statement": "x == y holds if and only if x and y are the same number.", "quantifier": "all pairs of surds obtainable from the public API, including different root bases", "why_tests_cant": "depends on coincidences between two different root bases (18 and 2); the false positives are pairs of conjugates", "anchors": [{"file": "src/quadratic/surd.rs", "symbols": ["PartialEq for QuadraticSurd"]}]}
{"id": "C04", "title": "Surd Eq is an equivalence relation and agrees with Hash", "statement": "== on surds is reflexive, symmetric and transitive, and equal surds feed equal data to the derived Hash.", "quantifier": "all pairs and triples of surds obtainable from the public API", "why_tests_cant": "a law over triples of values with different representations", "anchors": [{"file": "src/quadratic/surd.rs", "symbols": ["PartialEq for QuadraticSurd", "derive(Hash)"]}]}
{"id": "C05", "title": "Surd addition and subtraction are exact", "statement": "x + y and x - y, whenever they return, denote exactly the sum and the difference of the two numbers, also across different but compatible root bases.", "quantifier": "all pairs of surds obtainable from the public API, real or complex", "why_tests_cant": "unbounded integers and all factorisations of the two root bases", "anchors": [{"file": "src/quadratic/surd.rs", "symbols": ["Add for QuadraticSurd", "Sub for QuadraticSurd", "reduce_bin_op", "reduce_root_hinted"]}]}
{"id": "C06", "title": "Surd multiplication is exact", "statement": "x * y, whenever it returns, denotes exactly the product of the two numbers, including products of pure surds with unrelated bases.", "quantifier": "all pairs of surds obtainable from the public API, real or complex", "why_tests_cant": "the pure-surd shortcut combines gcds of two arbitrary roots and signs of two roots", "anchors": [{"file": "src/quadratic/surd.rs", "symbols": ["Mul for QuadraticSurd", "QuadraticOps::mul for QuadraticSurdCoeffs"]}]}
{"id": "C07", "title": "Surd division and reciprocal are exact", "statement": "x / y and recip, whenever they return, denote exactly the quotient and the inverse.", "quantifier": "all pairs of surds obtainable from the public API, real or complex", "why_tests_cant": "same as multiplication, plus the rationalisation of the denominator", "anchors": [{"file": "src/quadratic/surd.rs", "symbols": ["Div for QuadraticSurd", "QuadraticSurd::recip", "QuadraticOps::div for QuadraticSurdCoeffs"]}]}
{"id": "C08", "title": "Binary surd operations fail exactly when documented", "statement": "x+y and x-y panic exactly when both are irrational and neither root is the other times a perfect square; x*y additionally succeeds when both are pure; x/y additionally panics exactly when y is zero.", "quantifier": "all pairs of surds obtainable from the public API", "why_tests_cant": "a totality claim: absence of panics over every pair", "anchors": [{"file": "src/quadratic/surd.rs", "symbols": ["reduce_bin_op_unwrap", "Add", "Sub", "Mul", "Div"]}]}
{"id": "C09", "title": "Integer and rational operands", "statement": "x + k, x - k, x * k, x / k for an integer or rational k denote the exact result; only division by zero panics.", "quantifier": "all surds obtainable from the public API and all integers/rationals k", "why_tests_cant": "unbounded operands; the equal-denominator shortcut is a separate code path", "anchors": [{"file": "src/quadratic/surd.rs", "symbols": ["forward_binop", "Add<Ratio<T>> for QuadraticSurdCoeffs", "Div<Ratio<T>> for QuadraticSurdCoeffs"]}]}
{"id": "C10", "title": "Conjugation and norm", "statement": "conj denotes (a-b*sqrt(r))/c, is an involution, and norm of the coefficients equals the product of a number and its conjugate; negation denotes the additive inverse; numer/denom reconstruct the number.", "quantifier": "all surds obtainable from the public API", "why_tests_cant": "algebraic law over all values", "anchors": [{"file": "src/quadratic/surd.rs", "symbols": ["QuadraticSurd::conj", "QuadraticOps::norm", "Neg", "numer", "denom"]}]}
{"id": "C11", "title": "Sign predicates", "statement": "is_positive / is_negative are true exactly when the real number is > 0 / < 0, is_zero exactly for 0 and is_one exactly for 1.", "quantifier": "all real surds obtainable from the public API", "why_tests_cant": "the decision compares a^2 with b^2*r and must be right arbitrarily close to zero", "anchors": [{"file": "src/quadratic/surd.rs", "symbols": ["QuadraticSurd::is_positive", "QuadraticSurd::is_negative", "Zero::is_zero", "One::is_one"]}]}
{"id": "C12", "title": "floor", "statement": "floor(x) is the greatest integer not larger than x.", "quantifier": "all real surds obtainable from the public API", "why_tests_cant": "off-by-one at numbers arbitrarily close to integers", "anchors": [{"file": "src/quadratic/surd.rs", "symbols": ["QuadraticSurd::floor"]}]}
{"id": "C13", "title": "trunc and to_integer round toward zero", "statement": "trunc(x) and to_integer(x).value() are x rounded toward zero, and to_integer is Exact only if x is an integer.", "quantifier": "all real surds obtainable from the public API", "why_tests_cant": "off-by-one only for one combination of the signs of x and of its irrational part", "anchors": [{"file": "src/quadratic/surd.rs", "symbols": ["QuadraticSurd::trunc", "QuadraticSurd::to_integer"]}]}
{"id": "C14", "title": "trunc + fract recomposes", "statement": "fract(x) + trunc(x) is x again for real surds.", "quantifier": "all real surds obtainable from the public API", "why_tests_cant": "round trip over all values", "anchors": [{"file": "src/quadratic/surd.rs", "symbols": ["QuadraticSurd::fract", "QuadraticSurd::trunc"]}]}
{"id": "C15", "title": "to_rational", "statement": "to_rational is Exact with the exact value for a rational surd, and otherwise Approximated with the square root part rounded toward zero, i.e. within 1/c of the number.", "quantifier": "all real surds obtainable from the public API", "why_tests_cant": "sign of the irrational part must be respected for every value", "anchors": [{"file": "src/quadratic/surd.rs", "symbols": ["QuadraticSurd::to_rational"]}]}
{"id": "C16", "title": "from_rationals and from_equation", "statement": "from_rationals(a,b,r) denotes a+b*sqrt(r). from_equation(a,b,c) returns a root of ax^2+bx+c, returns None only if there is no (real) root or a=b=0, and its conjugate is the other root.", "quantifier": "all rationals a,b,c,r", "why_tests_cant": "holds over all rational coefficient triples, including degenerate ones", "anchors": [{"file": "src/quadratic/surd.rs", "symbols": ["QuadraticSurd::from_rationals", "QuadraticSurd::from_equation"]}]}
{"id": "C17", "title": "from_sqrt of integers and rationals", "statement": "from_sqrt(t) returns the non-negative square root of t >= 0; for t<0 it reports Complex without the complex feature and otherwise returns i*sqrt(|t|); it reports Overflow only when numerator*denominator does not fit the integer type.", "quantifier": "all integers and rationals t and all integer ranges", "why_tests_cant": "unbounded input, and a range-dependent error branch", "anchors": [{"file": "src/quadratic/surd.rs", "symbols": ["FromSqrt<T> for QuadraticSurd", "FromSqrt<Ratio<T>> for QuadraticSurd"]}, {"file": "src/traits.rs", "symbols": ["SqrtErrorKind"]}]}
{"id": "C18", "title": "from_sqrt of surds", "statement": "from_sqrt(x), when Ok, is the non-negative square root of x; it is Unrepresentable only if no quadratic surd squares to x; an error carries back a surd equal to x.", "quantifier": "all surds obtainable from the public API", "why_tests_cant": "soundness and completeness of a search for a rational solution of a quadratic equation", "anchors": [{"file": "src/quadratic/surd.rs", "symbols": ["FromSqrt<QuadraticSurd<T>> for QuadraticSurd", "get_abc", "reconstruct"]}]}
{"id": "C19", "title": "reduced() returns and keeps the number", "statement": "reduced() terminates on every surd, keeps the value and leaves a root not divisible by p^2 for any prime p <= 251.", "quantifier": "all surds obtainable from the public API", "why_tests_cant": "termination over all inputs", "anchors": [{"file": "src/quadratic/surd.rs", "symbols": ["QuadraticSurd::reduced", "QuadraticSurd::reduce_root"]}]}
{"id": "C20", "title": "Classification of surds", "statement": "is_rational, is_integer, is_quadint, is_gaussint and is_pure answer the mathematical question in their documentation.", "quantifier": "all surds obtainable from the public API", "why_tests_cant": "an if-and-only-if about all values", "anchors": [{"file": "src/quadratic/surd.rs", "symbols": ["is_integer", "is_rational", "is_quadint", "is_gaussint", "is_pure"]}]}
{"id": "C21", "title": "to_quadint and to_gaussint", "statement": "to_quadint and to_gaussint return (never panic); when Exact the result is the same number.", "quantifier": "all surds obtainable from the public API", "why_tests_cant": "panic freedom over all inputs, including rational ones", "anchors": [{"file": "src/quadratic/surd.rs", "symbols": ["to_quadint", "to_gaussint"]}, {"file": "src/quadratic/integer.rs", "symbols": ["QuadraticInt::new"]}]}
{"id": "C22", "title": "Surd Display is faithful", "statement": "The text printed for a surd, read as an arithmetic expression, denotes the surd; two surds that print the same are the same number.", "quantifier": "all surds obtainable from the public API, plain and alternate form", "why_tests_cant": "a round trip over all values and all 36 format branches", "anchors": [{"file": "src/quadratic/surd.rs", "symbols": ["fmt::Display for QuadraticSurd"]}]}
{"id": "C23", "title": "ContinuedFraction::new keeps the value of finite fractions", "statement": "For a finite list of integer coefficients (zeros and negative ones allowed) whose nested fraction is defined, new(a,[],negate) returns a fraction with that value (negated when requested) and does not panic.", "quantifier": "all finite lists of integers and both values of negate", "why_tests_cant": "rewriting of unbounded coefficient lists with zeros and sign changes in any position", "anchors": [{"file": "src/cont_frac/simple.rs", "symbols": ["ContinuedFraction::new", "FromIterator"]}]}
{"id": "C24", "title": "ContinuedFraction::new is canonical", "statement": "new returns non-negative first coefficient, positive later coefficients, last coefficient at least 2 unless it is the only one and no sign on zero; hence two finite inputs of equal value give equal (==) fractions.", "quantifier": "all pairs of finite integer lists", "why_tests_cant": "uniqueness over all pairs of representations", "anchors": [{"file": "src/cont_frac/simple.rs", "symbols": ["ContinuedFraction::new", "derive(PartialEq)"]}]}
{"id": "C25", "title": "ContinuedFraction::new with a periodic part", "statement": "new(a,p,negate) with periodic part p returns a fraction denoting the number of the given infinite fraction.", "quantifier": "all coefficient lists a, p whose infinite fraction converges, both values of negate", "why_tests_cant": "values of infinite fractions; sign bookkeeping across the aperiodic/periodic boundary", "anchors": [{"file": "src/cont_frac/simple.rs", "symbols": ["ContinuedFraction::new"]}]}
{"id": "C26", "title": "Rational to continued fraction and back", "statement": "From<Ratio>/From<T> give the canonical fraction of the rational, to_rational gives back exactly that rational, and is_integer/is_rational/to_integer answer correctly.", "quantifier": "all rationals", "why_tests_cant": "round trip with an unbounded Euclidean loop", "anchors": [{"file": "src/cont_frac/simple.rs", "symbols": ["From<Ratio<T>>", "From<T>", "to_rational", "to_integer"]}]}
{"id": "C27", "title": "Coefficient iterators agree", "statement": "coeffs_unsigned yields the aperiodic coefficients followed by the periodic part repeated forever; coeffs and generalized apply the sign; into_coeffs yields the same sequence as coeffs.", "quantifier": "all continued fractions and all positions in the sequence", "why_tests_cant": "claims about every element of an infinite sequence", "anchors": [{"file": "src/cont_frac/simple.rs", "symbols": ["Coefficients", "SignedCoefficients", "OwnedCoefficients", "GeneralCoefficients"]}]}
{"id": "C28", "title": "Convergents", "statement": "The n-th item of convergents() is the value of the fraction truncated after n+1 coefficients, it is in lowest terms, lies alternately below and above the value, differs from it by less than 1/q^2, the sequence converges to the value, and for a finite fraction the last item is the value.", "quantifier": "all well-formed continued fractions and all n", "why_tests_cant": "statements about an unbounded sequence and its limit", "anchors": [{"file": "src/cont_frac/simple.rs", "symbols": ["Convergents", "convergents"]}, {"file": "src/cont_frac/block.rs", "symbols": ["Block::checked_rmove", "Block::update"]}]}
{"id": "C29", "title": "Convergents of fixed-width integers stop instead of being wrong", "statement": "With w-bit integers every item of convergents() is a true convergent and the iterator stops at the first one that does not fit.", "quantifier": "all widths, all continued fractions, all positions", "why_tests_cant": "quantifies over all widths and all histories of next()", "anchors": [{"file": "src/cont_frac/simple.rs", "symbols": ["Convergents::next"]}, {"file": "src/cont_frac/block.rs", "symbols": ["checked_rmove"]}, {"file": "src/traits.rs", "symbols": ["to_signed"]}]}
{"id": "C30", "title": "approximated() of a continued fraction", "statement": "approximated(limit) returns a convergent with denominator not above limit whose error is below 1/limit^2, and says Exact only if it equals the number.", "quantifier": "all well-formed continued fractions and all positive limits", "why_tests_cant": "error bound of a loop over an unbounded sequence", "anchors": [{"file": "src/cont_frac/simple.rs", "symbols": ["Computable::approximated"]}, {"file": "src/traits.rs", "symbols": ["Computable"]}]}
{"id": "C31", "title": "Negation and integer shift of continued fractions", "statement": "-c, c + k and c - k denote the exact result and are well-formed.", "quantifier": "all well-formed continued fractions and all integers k", "why_tests_cant": "sign flips interact with the first and second coefficient and the periodic part", "anchors": [{"file": "src/cont_frac/simple.rs", "symbols": ["Neg", "Add<T>", "Sub<T>"]}]}
{"id": "C32", "title": "Rational arithmetic on continued fractions", "statement": "For rational fractions +,-,*,/ with integers, rationals and other rational fractions return the canonical fraction of the exact result.", "quantifier": "all rational continued fractions", "why_tests_cant": "composition of two unbounded conversions", "anchors": [{"file": "src/cont_frac/simple.rs", "symbols": ["Mul<T>", "Div<T>", "impl_binop_for_ratio_surd"]}]}
{"id": "C33", "title": "Arithmetic on periodic continued fractions", "statement": "For periodic fractions +,-,*,/ return, without panicking or looping, a fraction denoting the exact result whenever that result is a quadratic number of the same field.", "quantifier": "all well-formed continued fractions", "why_tests_cant": "termination and value over all pairs, including results that become rational", "anchors": [{"file": "src/cont_frac/simple.rs", "symbols": ["Mul<T>", "Div<T>", "impl_binop_for_ratio_surd"]}, {"file": "src/quadratic/surd.rs", "symbols": ["TryFrom<QuadraticSurd<T>> for ContinuedFraction<U>"]}]}
{"id": "C34", "title": "ContinuedFraction Display is faithful", "statement": "The printed text determines the fraction: distinct fractions print differently.", "quantifier": "all well-formed continued fractions", "why_tests_cant": "injectivity over all values", "anchors": [{"file": "src/cont_frac/simple.rs", "symbols": ["fmt::Display for ContinuedFraction"]}]}
{"id": "C35", "title": "Surd to continued fraction keeps the number", "statement": "ContinuedFraction::try_from(x), when it returns, denotes x (irrational real x).", "quantifier": "all real irrational surds obtainable from the public API", "why_tests_cant": "value of an infinite periodic fraction produced by a data-dependent loop", "anchors": [{"file": "src/quadratic/surd.rs", "symbols": ["quadsurd_to_contfrac", "TryFrom<QuadraticSurd<T>> for ContinuedFraction<U>"]}]}
{"id": "C36", "title": "Surd to continued fraction always returns", "statement": "ContinuedFraction::try_from(x) terminates without panicking for every real surd x.", "quantifier": "all real surds obtainable from the public API", "why_tests_cant": "termination of two data-dependent loops (Lagrange's theorem)", "anchors": [{"file": "src/quadratic/surd.rs", "symbols": ["quadsurd_to_contfrac"]}]}
{"id": "C37", "title": "Continued fraction to surd", "statement": "QuadraticSurd::from(c) returns the surd denoted by the fraction c, for every well-formed c.", "quantifier": "all well-formed continued fractions", "why_tests_cant": "value of an infinite periodic fraction and panic freedom of the intermediate divisions", "anchors": [{"file": "src/quadratic/surd.rs", "symbols": ["From<ContinuedFraction<T>> for QuadraticSurd<U>"]}]}
{"id": "C38", "title": "Square roots round-trip through continued fractions", "statement": "For every non-square n >= 2 converting sqrt(n) to a continued fraction returns and the fraction converges to sqrt(n).", "quantifier": "all non-square n", "why_tests_cant": "termination plus limit for infinitely many n", "anchors": [{"file": "src/quadratic/surd.rs", "symbols": ["quadsurd_to_contfrac", "from_sqrt"]}]}
{"id": "C39", "title": "Homographic function of a continued fraction is exact", "statement": "The coefficients emitted by homo(a,b,c,d) expand (ax+b)/(cx+d): after any number of outputs the number equals the emitted prefix followed by the block applied to the rest of x; for non-negative a,b,c,d every output is the true integer part, so the output is the regular expansion.", "quantifier": "all coefficient streams, all a,b,c,d, all numbers of outputs", "why_tests_cant": "every prefix of an infinite computation", "anchors": [{"file": "src/cont_frac/infinite.rs", "symbols": ["homo", "HomographicResult::next"]}, {"file": "src/cont_frac/block.rs", "symbols": ["Block::reduce_recip", "Block::rmove", "Block::check_integer"]}]}
{"id": "C40", "title": "Homographic function is productive", "statement": "For irrational x > 0 given by its regular expansion and non-negative a,b,c,d with ad != bc, every call of next() on homo(a,b,c,d) returns the next coefficient after finitely many steps.", "quantifier": "all irrational x and all such a,b,c,d, all outputs", "why_tests_cant": "termination of each call over all histories", "anchors": [{"file": "src/cont_frac/infinite.rs", "symbols": ["HomographicResult::next"]}]}
{"id": "C41", "title": "Bihomographic function", "statement": "bihomo(y; a..h) yields the expansion of (axy+bx+cy+d)/(exy+fx+gy+h) and does not panic.", "quantifier": "all pairs of coefficient streams and all a..h", "why_tests_cant": "every prefix of an infinite computation on two streams", "anchors": [{"file": "src/cont_frac/infinite.rs", "symbols": ["bihomo", "BihomographicResult::next"]}, {"file": "src/cont_frac/block.rs", "symbols": ["DualBlock"]}]}
{"id": "C42", "title": "Convergents of generalized continued fractions", "statement": "The n-th convergent of a generalized continued fraction equals the n-th nested fraction b1+a2/(b2+...+an/bn), in spite of the common factors removed on the way.", "quantifier": "all coefficient streams and all n", "why_tests_cant": "the removed common factors depend on all earlier coefficients", "anchors": [{"file": "src/cont_frac/general.rs", "symbols": ["Convergents::next"]}, {"file": "src/cont_frac/block.rs", "symbols": ["checked_gmove", "gmove"]}]}
{"id": "C43", "title": "simplify() of a generalized continued fraction", "statement": "simplify() emits coefficients that expand the same number; with positive coefficients every output is the true integer part.", "quantifier": "all positive coefficient streams and all numbers of outputs", "why_tests_cant": "every prefix of an infinite computation", "anchors": [{"file": "src/cont_frac/general.rs", "symbols": ["Simplified::next"]}, {"file": "src/cont_frac/block.rs", "symbols": ["gmove", "reduce_recip"]}]}
{"id": "C44", "title": "Decimal digits", "statement": "Every digit emitted by decimals() of a positive generalized fraction is the correct next decimal digit of the number.", "quantifier": "all positive coefficient streams of numbers below 10 and all positions", "why_tests_cant": "every prefix of an infinite computation", "anchors": [{"file": "src/cont_frac/general.rs", "symbols": ["DecimalDigits::next"]}, {"file": "src/cont_frac/block.rs", "symbols": ["reduce_mul", "checked_gmove"]}]}
{"id": "C45", "title": "exp(t) generalized fraction", "statement": "The n-th convergent of exp(t) is the Taylor partial sum of order n, so the convergents tend to e^t.", "quantifier": "all integers t and all n", "why_tests_cant": "limit statement over an infinite sequence", "anchors": [{"file": "src/cont_frac/general.rs", "symbols": ["exp", "ExpCoefficients::next"]}]}
{"id": "C46", "title": "Coefficients of e", "statement": "E.cfrac() yields 2 then 1,2k,1 for k=1,2,...; its convergents tend to e.", "quantifier": "all positions", "why_tests_cant": "infinite sequence and its limit", "anchors": [{"file": "src/symbols.rs", "symbols": ["ECoefficients::next"]}]}
{"id": "C47", "title": "Coefficients of pi", "statement": "Pi.gfrac() yields (1,0),(4,1),(k^2,2k+1)...; its convergents tend to pi, simplify() yields the regular coefficients of pi and decimals() its digits, without ever stalling for unbounded integers.", "quantifier": "all positions", "why_tests_cant": "infinite sequence, its limit, and termination of every next()", "anchors": [{"file": "src/symbols.rs", "symbols": ["PiCoefficients::next"]}, {"file": "src/cont_frac/general.rs", "symbols": ["Simplified::next", "DecimalDigits::next"]}]}
{"id": "C48", "title": "Coefficients of gamma", "statement": "Gamma.gfrac() never panics and its to_integer() roundings are exact, i.e. the emitted pairs are the rational sequence (rho_n rho_{n-1} a_n, rho_n b_n) without loss.", "quantifier": "all positions", "why_tests_cant": "integrality of an unbounded rational recurrence", "anchors": [{"file": "src/symbols.rs", "symbols": ["GammaCoefficients::next"]}]}
{"id": "C49", "title": "QuadraticInt constructors", "statement": "QuadraticInt::new(a,b,r) denotes a+b*sqrt(r), from_coeffs((a,b),D) denotes a+b*omega_D, and they fail only as documented.", "quantifier": "all integers a,b,r", "why_tests_cant": "depends on residue classes and squares", "anchors": [{"file": "src/quadratic/integer.rs", "symbols": ["QuadraticInt::new", "QuadraticInt::from_coeffs", "mod4d2"]}]}
{"id": "C50", "title": "QuadraticInt ring operations are exact", "statement": "+,-,*,neg of quadratic integers, whenever they return, denote the exact result, also for compatible different bases.", "quantifier": "all pairs of quadratic integers obtainable from the public API", "why_tests_cant": "all residues and factorisations of the discriminants", "anchors": [{"file": "src/quadratic/integer.rs", "symbols": ["Add", "Sub", "Mul", "QuadraticOps::mul for QuadraticIntCoeffs", "reduce_root_hinted"]}]}
{"id": "C51", "title": "QuadraticInt division with remainder", "statement": "x/y rounds both coordinates of the exact quotient to the nearest integer (halves away from zero) and x = (x/y)*y + x%y.", "quantifier": "all pairs of quadratic integers obtainable from the public API with y != 0", "why_tests_cant": "rounding law over all values and signs", "anchors": [{"file": "src/quadratic/integer.rs", "symbols": ["Div", "Rem", "div_rem", "div_rem_round"]}]}
{"id": "C52", "title": "Gaussian and Eisenstein integers are Euclidean", "statement": "For Gaussian integers (and D=-3) the remainder x%y has norm smaller than the norm of y, and x=(x/y)*y+x%y.", "quantifier": "all x and all non-zero y", "why_tests_cant": "a bound over all pairs that makes the Euclidean algorithm terminate", "anchors": [{"file": "src/quadratic/integer.rs", "symbols": ["GaussianInt", "div_rem"]}]}
{"id": "C53", "title": "Conjugate and norm of quadratic integers", "statement": "norm(x) = x*conj(x), the norm is multiplicative and conj is an involution.", "quantifier": "all quadratic integers", "why_tests_cant": "algebraic law over all values", "anchors": [{"file": "src/quadratic/integer.rs", "symbols": ["conj", "norm", "norm_ref"]}]}
{"id": "C54", "title": "QuadraticInt equality is numeric equality", "statement": "x == y iff they are the same number.", "quantifier": "all pairs of quadratic integers obtainable from the public API", "why_tests_cant": "coincidences between different discriminants", "anchors": [{"file": "src/quadratic/integer.rs", "symbols": ["PartialEq for QuadraticInt"]}]}
{"id": "C55", "title": "Nearest-integer division", "statement": "The rounding division used by quadratic integers returns q,r with x=q*y+r, |r| <= |y|/2, ties away from zero.", "quantifier": "all integers x and y != 0", "why_tests_cant": "all residues and signs", "anchors": [{"file": "src/quadratic/integer.rs", "symbols": ["div_rem_round", "Div<T> for QuadraticIntCoeffs", "Rem<T> for QuadraticIntCoeffs"]}]}
{"id": "C56", "title": "QuadraticInt is_pure / is_rational", "statement": "is_rational iff the number is rational; is_pure iff the number is a multiple of sqrt(D).", "quantifier": "all quadratic integers obtainable from the public API", "why_tests_cant": "if-and-only-if over all values", "anchors": [{"file": "src/quadratic/integer.rs", "symbols": ["is_pure", "is_rational"]}]}
{"id": "C57", "title": "Primitive conversions of surds", "statement": "from_i64/from_u64 then to_i64/to_u64 round-trip when in range; to_i64/to_u64 return Some(v) only if the surd is exactly v.", "quantifier": "all surds and all integers", "why_tests_cant": "range conditions over all values", "anchors": [{"file": "src/quadratic/surd.rs", "symbols": ["FromPrimitive", "ToPrimitive"]}]}
{"id": "C58", "title": "Zero and one of continued fractions", "statement": "zero() is 0, one() is 1; is_zero holds iff the fraction denotes 0 and is_one iff it denotes 1.", "quantifier": "all fractions in standard form", "why_tests_cant": "if-and-only-if over all values", "anchors": [{"file": "src/cont_frac/simple.rs", "symbols": ["Zero for ContinuedFraction", "One for ContinuedFraction"]}]}
{"id": "C59", "title": "approximated() of a surd", "statement": "approximated(limit) of a real surd returns a rational with denominator not above limit whose error is below 1/limit^2, and says Exact only if it equals the number.", "quantifier": "all real surds and all positive limits", "why_tests_cant": "conversion loop followed by a loop over an unbounded sequence", "anchors": [{"file": "src/quadratic/surd.rs", "symbols": ["Computable for QuadraticSurd"]}, {"file": "src/traits.rs", "symbols": ["Computable"]}]}
{"id": "C60", "title": "generalize() keeps the number", "statement": "generalize() of a regular continued fraction yields the generalized fraction with pairs (1, c_k), which has the same convergents and denotes the same number.", "quantifier": "all sequences of coefficients", "why_tests_cant": "a law over all infinite sequences", "anchors": [{"file": "src/cont_frac/infinite.rs", "symbols": ["generalize"]}]}
{"id": "C61", "title": "approximated() of a generalized continued fraction", "statement": "approximated(limit) of a generalized fraction returns a convergent with denominator not above limit whose error is below 1/limit^2, says Exact only if it is the number itself, and does not panic.", "quantifier": "all convergent generalized fractions and all positive limits", "why_tests_cant": "a loop over an unbounded sequence with reductions", "anchors": [{"file": "src/cont_frac/general.rs", "symbols": ["Computable::approximated"]}, {"file": "src/traits.rs", "symbols": ["Computable"]}]}
{"id": "C62", "title": "decimals() stops at the capacity of the integer type", "statement": "On a fixed-width integer type decimals() emits only correct digits, and ends without panic when the capacity is reached.", "quantifier": "all positive generalized fractions, all widths, both overflow check settings", "why_tests_cant": "needs the arithmetic of every width on every stream", "anchors": [{"file": "src/cont_frac/general.rs", "symbols": ["DecimalDigits", "decimals"]}]}
{"id": "C63", "title": "Surds over fixed-width integers with overflow checks", "statement": "For T = i8 ... i128 built with overflow checks, every constructor and operation of QuadraticSurd either panics with an overflow or does exactly what it does over BigInt; with or without checks every stored coefficient is a value of T.", "quantifier": "all widths, all operands representable in the type", "why_tests_cant": "every intermediate product of every operation on every width", "anchors": [{"file": "src/quadratic/surd.rs", "symbols": ["reduce", "new", "from_coeffs", "from_rationals", "recip", "floor", "trunc", "Add", "Sub", "Mul", "Div", "reduce_root_hinted", "reduce_bin_op"]}]}
{"id": "C64", "title": "Overflow-free operand ranges", "statement": "If all coefficients and the root are at most B in absolute value, then new does not overflow when 2B^2 fits, + - * when 4B^4 fits, / when 4B^10 fits, recip when 4B^6 fits, floor when 5B^3 fits, == when B^5 fits, and the result is the exact one in debug and release builds.", "quantifier": "all widths and all operands in the range", "why_tests_cant": "a quantitative bound over all operands and all intermediate results", "anchors": [{"file": "src/quadratic/surd.rs", "symbols": ["reduce", "new", "recip", "floor", "Add", "Sub", "Mul", "Div", "PartialEq"]}]}
{"id": "C65", "title": "No silent wrong numbers in release builds", "statement": "Without overflow checks a surd constructor whose arguments and exact result are representable returns the exact result.", "quantifier": "all widths and all representable arguments whose exact result is representable", "why_tests_cant": "wrap-around of intermediate values for rare arguments", "anchors": [{"file": "src/quadratic/surd.rs", "symbols": ["reduce", "new"]}]}
{"id": "C66", "title": "Quadratic and Gaussian integers over fixed-width integers with overflow checks", "statement": "For T = i8 ... i128 built with overflow checks, every constructor and operation of QuadraticInt and GaussianInt either panics with an overflow or does exactly what it does over BigInt; with or without checks every stored coefficient is a value of T.", "quantifier": "all widths, all operands representable in the type", "why_tests_cant": "every intermediate product of every operation on every width", "anchors": [{"file": "src/quadratic/integer.rs", "symbols": ["new", "from_coeffs", "norm", "conj", "Add", "Sub", "Mul", "Div", "Rem", "PartialEq", "reduce_bin_op", "reduce_root_hinted", "GaussianInt"]}, {"file": "src/quadratic/surd.rs", "symbols": ["to_gaussint", "to_quadint"]}]}
{"id": "C67", "title": "Overflow-free ranges of quadratic and Gaussian integers", "statement": "If all fields are at most B in absolute value and the discriminants agree (or an operand is rational), QuadraticInt + and - are exact when 4B^2 fits the type, * when 6B^4 fits, / when 20B^5 fits, % when 40B^6 fits, norm when 5B^3 fits, == when 4B^3 fits; GaussianInt + and - when 2B fits, * and norm when 2B^2 fits, / and % when 4B^3 fits; in debug and release builds.", "quantifier": "all widths and all operands in the range", "why_tests_cant": "a quantitative bound over all operands and all intermediate results", "anchors": [{"file": "src/quadratic/integer.rs", "symbols": ["new", "norm", "Add", "Sub", "Mul", "Div", "Rem", "PartialEq", "GaussianInt"]}]}
{"id": "C68", "title": "No silent wrong quadratic integers in release builds", "statement": "Without overflow checks an operation of QuadraticInt or GaussianInt whose operands and exact result are representable returns the exact result.", "quantifier": "all widths and all representable operands whose exact result is representable", "why_tests_cant": "wrap-around of intermediate values for rare operands", "anchors": [{"file": "src/quadratic/integer.rs", "symbols": ["norm", "Add", "Sub", "Mul", "Div", "Rem", "PartialEq", "GaussianInt"]}]}
{"id": "C69", "title": "Continued fractions over primitive integers: new", "statement": "For coefficients of a primitive integer type, ContinuedFraction::new with overflow checks either panics with an overflow or gives what it gives over BigInt; the stored coefficients fit; it is exact in both kinds of build when the sum of the absolute values of the aperiodic coefficients fits the type.", "quantifier": "all widths, signed and unsigned, all coefficient lists and both sign flags", "why_tests_cant": "overflow depends on sums formed inside the rewriting loop, for every width", "anchors": [{"file": "src/cont_frac/simple.rs", "symbols": ["ContinuedFraction::new"]}, {"file": "src/traits.rs", "symbols": ["impl_primitive_sign"]}]}
{"id": "C70", "title": "Continued fractions over primitive integers: conversions in", "statement": "From<T> and From<Ratio<T>> are exact for every representable integer and ratio, in both kinds of build.", "quantifier": "all widths, all representable integers and ratios", "why_tests_cant": "the exceptions are single values at the end of the range of each width", "anchors": [{"file": "src/cont_frac/simple.rs", "symbols": ["From<T>", "From<Ratio<T>>"]}]}
{"id": "C71", "title": "Continued fractions over primitive integers: integer shifts", "statement": "Add<T> and Sub<T> with overflow checks either panic with an overflow or give what they give over BigInt; the stored coefficients fit; both are exact in both kinds of build whenever the sum of the coefficients and the integer fits the signed type.", "quantifier": "all widths, all fractions whose coefficients fit, all integers of the type", "why_tests_cant": "the casts between the unsigned and the signed type are silent even with overflow checks", "anchors": [{"file": "src/cont_frac/simple.rs", "symbols": ["Add<T>", "Sub<T>", "ContinuedFraction::new"]}, {"file": "src/traits.rs", "symbols": ["impl_primitive_sign"]}]}
{"id": "C72", "title": "Continued fractions over primitive integers: coefficient iterators", "statement": "coeffs, generalized and into_coeffs yield at every index what they yield over BigInt.", "quantifier": "all widths, all fractions whose coefficients fit, all indices", "why_tests_cant": "coefficients in the upper half of the unsigned range, for every width", "anchors": [{"file": "src/cont_frac/simple.rs", "symbols": ["SignedCoefficients", "OwnedCoefficients", "GeneralCoefficients"]}]}
{"id": "C73", "title": "Continued fractions over primitive integers: conversions out", "statement": "convergents, to_integer and to_rational give the exact number (marked as exact only if it is) whenever it is representable, and never a wrong number.", "quantifier": "all widths, all fractions whose coefficients fit, all indices", "why_tests_cant": "overflow in the recurrence, in the casts and inside Ratio::new, for every width", "anchors": [{"file": "src/cont_frac/simple.rs", "symbols": ["Convergents", "to_integer", "to_rational"]}, {"file": "src/traits.rs", "symbols": ["impl_primitive_sign"]}]}
{"id": "C74", "title": "Generalized fractions over primitive integers keep representable state", "statement": "Over a primitive integer type every call of next on the convergents or on the decimals of a generalized fraction leaves the four integers of its state in the range of the type, whether or not it yields something; for non-negative pairs the numerator and the denominator of every yielded convergent, also after an overflow, are in the range of the type.", "quantifier": "all widths, signed and unsigned, all pair sequences, all calls", "why_tests_cant": "the checked operations fail at a different step for each width and pair sequence", "anchors": [{"file": "src/cont_frac/general.rs", "symbols": ["GeneralContinuedFraction", "Convergents", "DecimalDigits"]}, {"file": "src/cont_frac/block.rs", "symbols": ["checked_gmove", "reduce_mul"]}]}
{"id": "C75", "title": "Surd to continued fraction over primitive integers: never a wrong fraction", "statement": "Over a primitive integer type the conversion of a surd to a continued fraction either panics with an overflow or gives exactly what it gives over BigInt, in both kinds of build; its coefficients always fit the unsigned type.", "quantifier": "all widths, both kinds of build, all normal surds, all step budgets", "why_tests_cant": "needs every width and every surd; overflow may occur at any step of a period whose length is unbounded", "anchors": [{"file": "src/quadratic/surd.rs", "symbols": ["quadsurd_to_contfrac", "TryFrom<QuadraticSurd<T>> for ContinuedFraction"]}, {"file": "src/cont_frac/simple.rs", "symbols": ["ContinuedFraction::new"]}]}
{"id": "C76", "title": "Surd to continued fraction over primitive integers: range without overflow", "statement": "If 13 d + 2 p^2 fits the signed type, where (p+sqrt d)/q is the form the number is brought to first, the whole conversion runs without overflow and is exact; in particular when all four integers are at most B and 15 B^5 fits.", "quantifier": "all widths, both kinds of build, all irrational real surds in the range, all step budgets", "why_tests_cant": "a bound that holds at every step of a period of unbounded length, for every width", "anchors": [{"file": "src/quadratic/surd.rs", "symbols": ["quadsurd_to_contfrac", "is_reduced", "rho", "TryFrom<QuadraticSurd<T>> for ContinuedFraction"]}]}
{"id": "C77", "title": "Continued fraction to surd over primitive integers", "statement": "Over a primitive integer type the conversion of a continued fraction to a surd either panics with an overflow or gives the surd it gives over BigInt; it is exact in both kinds of build for a finite fraction whose value fits the type, and for one coefficient a before a period of continuant K if 16 K^4 and (14 + 4a) K^2 fit the type.", "quantifier": "all widths, both kinds of build, all fractions whose coefficients fit", "why_tests_cant": "the coefficients are multiplied up in the unsigned type and cast silently to the signed one; for every width", "anchors": [{"file": "src/quadratic/surd.rs", "symbols": ["TryFrom<ContinuedFraction<U>> for QuadraticSurd", "from_equation"]}, {"file": "src/cont_frac/simple.rs", "symbols": ["ContinuedFraction"]}, {"file": "src/traits.rs", "symbols": ["impl_primitive_sign"]}]}
{"id": "C78", "title": "Arithmetic of continued fractions over primitive integers", "statement": "Over a primitive integer type *, / with an integer, and +, -, *, / with a ratio or another continued fraction either panic with an overflow or give the fraction they give over BigInt, whose coefficients fit; they are exact in both kinds of build for finite fractions whose values have parts of at most B if 2B^2 fits the type.", "quantifier": "all widths, both kinds of build, all operators, all fractions whose coefficients fit", "why_tests_cant": "overflow or a silent cast anywhere in three conversions and an operation between them, for every width", "anchors": [{"file": "src/cont_frac/simple.rs", "symbols": ["Mul<T>", "Div<T>", "Add<Ratio<T>>", "Sub<Ratio<T>>", "Mul<Ratio<T>>", "Div<Ratio<T>>", "Add", "Sub", "Mul", "Div"]}]}
{"id": "C79", "title": "Square roots over primitive integers", "statement": "Over a primitive integer type from_sqrt of a ratio or surd never panics and gives what it gives over BigInt: a representable surd that squares to the argument, or an error that is right (Complex only for negative numbers, Overflow only if numerator*denominator does not fit, Unrepresentable only if no surd squares to the argument).", "quantifier": "all widths, both kinds of build, all ratios and all normal surds whose integers fit", "why_tests_cant": "a chain of about fifty machine operations of which any may overflow, for every width and every argument", "anchors": [{"file": "src/quadratic/surd.rs", "symbols": ["FromSqrt<Ratio<T>>", "FromSqrt<QuadraticSurd<T>>", "from_sqrt", "from_rationals"]}]}
{"id": "C80", "title": "reduced over primitive integers", "statement": "Over a primitive integer type reduced() terminates without a panic on every irrational surd whose reduced form is representable, keeps the value and leaves a root that is not divisible by the square of a small prime whose square fits.", "quantifier": "all widths, both kinds of build, all normal surds whose integers fit", "why_tests_cant": "needs every width and every surd; the overflow depends on the square part of the root and on the other coefficient", "anchors": [{"file": "src/quadratic/surd.rs", "symbols": ["reduced", "reduce_root", "reduce"]}]}
{"id": "C81", "title": "Conversion of surds to floating point numbers", "statement": "to_f64 is None exactly for a negative root and otherwise a finite float that is near the value (relative error at most 2^-50) with the right sign; small rationals are rounded to the nearest float; to_complex64 does the same for the real and the imaginary part, and gives 0 for the imaginary part of a real surd.", "quantifier": "all surds, over primitive integers and BigInt", "why_tests_cant": "the error depends on the cancellation between the two terms of the numerator and on the size of the integers; tests look at four constants", "anchors": [{"file": "src/quadratic/surd.rs", "symbols": ["to_f64", "to_complex64"]}]}
{"id": "C82", "title": "Floating point constants and from_f64", "statement": "E::value() and Pi::value() are the floats nearest to e and pi; from_f64 returns exactly the fraction that Ratio::from_f64 finds and None only if there is none or it does not fit.", "quantifier": "all floats m*2^e as competitors; all fractions and integer types", "why_tests_cant": "nearness to a transcendental number among all floats is a statement about real numbers", "anchors": [{"file": "src/symbols.rs", "symbols": ["value"]}, {"file": "src/quadratic/surd.rs", "symbols": ["from_f64"]}]}
{"id": "C83", "title": "homo and bihomo over primitive integers", "statement": "Over a primitive integer type the result of homo emits only coefficients of the regular expansion of (ax+b)/(cx+d), in both kinds of build, and panics only if a convergent is not representable; bihomo does what it does over BigInt or panics.", "quantifier": "all widths, signed and unsigned, both kinds of build, all input sequences and all step budgets", "why_tests_cant": "needs every width and every sequence of coefficients; the block grows without bound between two outputs", "anchors": [{"file": "src/cont_frac/infinite.rs", "symbols": ["homo", "bihomo", "HomographicResult", "BihomographicResult"]}, {"file": "src/cont_frac/block.rs", "symbols": ["rmove", "check_integer", "reduce_recip", "rmove_right", "rmove_down"]}]}
{"id": "C84", "title": "simplify over primitive integers", "statement": "Over a primitive integer type simplify of a generalized fraction with positive pairs emits only coefficients of the regular expansion of its value, in both kinds of build, and panics only if a convergent is not representable.", "quantifier": "all widths, signed and unsigned, both kinds of build, all sequences of pairs and all step budgets", "why_tests_cant": "needs every width and every sequence of pairs", "anchors": [{"file": "src/cont_frac/general.rs", "symbols": ["simplify", "Simplified"]}, {"file": "src/cont_frac/block.rs", "symbols": ["gmove", "reduce_recip"]}]}
{"id": "C85", "title": "Coefficients of e, pi and exp over primitive integers", "statement": "Over a primitive integer type the iterators of e, pi and exp(x) yield their exact items, in both kinds of build, and panic only if an item is not representable.", "quantifier": "all widths, signed and unsigned, both kinds of build, all item numbers, all exponents", "why_tests_cant": "the counters overflow after about 3*2^(w-2) items; tests look at ten", "anchors": [{"file": "src/symbols.rs", "symbols": ["ECoefficients", "PiCoefficients", "cfrac", "gfrac"]}, {"file": "src/cont_frac/general.rs", "symbols": ["ExpCoefficients", "exp"]}]}
{"id": "C86", "title": "Coefficients of Euler's constant over primitive integers", "statement": "Over a signed primitive integer type the iterator of gamma yields exactly the pairs of the cited paper, in both kinds of build, and panics only if a pair is not representable.", "quantifier": "all widths, both kinds of build, all item numbers", "why_tests_cant": "each item is a chain of about sixty machine operations on ratios; tests look at six items over i32", "anchors": [{"file": "src/symbols.rs", "symbols": ["GammaCoefficients", "gfrac"]}]}
{"id": "C87", "title": "Regular expansions of pi and of homographic functions of e over primitive integers", "statement": "Pi.gfrac().simplify() and E.cfrac().homo(a,b,c,d) over a primitive integer type emit only coefficients of the regular expansions of pi and (ae+b)/(ce+d), in both kinds of build; for pi the number of coefficients is 1, 2, 4, 21, 45 for 8, 16, 32, 64, 128 bits.", "quantifier": "all widths, signed and unsigned, both kinds of build, all non-negative a, b, c, d", "why_tests_cant": "that the coefficients belong to pi or e is a statement about real numbers", "anchors": [{"file": "src/symbols.rs", "symbols": ["PiCoefficients", "ECoefficients"]}, {"file": "src/cont_frac/general.rs", "symbols": ["Simplified"]}, {"file": "src/cont_frac/infinite.rs", "symbols": ["HomographicResult"]}]}
{"id": "C88", "title": "Continued fractions of surds are written in the shortest way", "statement": "TryFrom<QuadraticSurd> for ContinuedFraction writes its result with the fewest coefficients before the period and the shortest period; so surds that denote the same number are converted to equal fractions.", "quantifier": "all real irrational surds, however they are written", "why_tests_cant": "minimality speaks about all other ways of writing the same infinite sequence of coefficients", "anchors": [{"file": "src/quadratic/surd.rs", "symbols": ["quadsurd_to_contfrac"]}, {"file": "src/cont_frac/simple.rs", "symbols": ["new"]}]}
{"id": "C89", "title": "Equality of continued fractions is numeric equality", "statement": "ContinuedFraction == is an equivalence relation, and two fractions are equal exactly if they have the same value.", "quantifier": "all pairs of well-formed fractions, finite or periodic", "why_tests_cant": "the values of periodic fractions are limits; distinct lists can denote the same sequence", "anchors": [{"file": "src/cont_frac/simple.rs", "symbols": ["ContinuedFraction", "new"]}]}
{"id": "C90", "title": "Surds round-trip through continued fractions", "statement": "Converting a real irrational surd to a continued fraction and back returns a surd of the same value, and converting a periodic fraction to a surd and back returns the same fraction.", "quantifier": "all real irrational surds and all well-formed periodic fractions", "why_tests_cant": "both directions are loops over an unbounded number of coefficients; tests look at a few square roots", "anchors": [{"file": "src/quadratic/surd.rs", "symbols": ["quadsurd_to_contfrac"]}, {"file": "src/cont_frac/simple.rs", "symbols": ["try_from", "to_surd"]}]}
{"id": "C91", "title": "Laws of arithmetic of surds", "statement": "Addition and multiplication of surds are commutative and associative and multiplication distributes over addition, up to == and including whether the operation panics; x - x and x + (-x) are zero, x / x is one for x other than zero.", "quantifier": "all surds, with and without the complex feature", "why_tests_cant": "needs all triples of surds with all combinations of roots", "anchors": [{"file": "src/quadratic/surd.rs", "symbols": ["add", "sub", "mul", "div", "eq"]}]}
{"id": "C92", "title": "Laws of arithmetic of quadratic and Gaussian integers", "statement": "QuadraticInt and GaussianInt satisfy the laws of a commutative ring up to ==, including whether the operation panics; x - x is zero, and (x * y) / y is x for y other than zero.", "quantifier": "all quadratic and Gaussian integers, with and without the complex feature", "why_tests_cant": "needs all triples of numbers with all combinations of discriminants", "anchors": [{"file": "src/quadratic/integer.rs", "symbols": ["add", "sub", "mul", "div", "eq"]}]}
{"id": "C93", "title": "Conversion of surds to single precision complex numbers", "statement": "to_complex32 never gives None, and the two parts are the f32 nearest to the two parts of the number, or an infinity of the right sign if they are beyond the range; Gaussian integers of 24 bits are exact.", "quantifier": "all surds over primitive integers", "why_tests_cant": "two roundings follow each other, and only few numbers show the difference to one rounding", "anchors": [{"file": "src/quadratic/surd.rs", "symbols": ["to_complex32"]}]}
{"id": "C94", "title": "Laws of arithmetic of continued fractions", "statement": "Addition and multiplication of continued fractions are commutative and associative, multiplication distributes over addition, x - y is x + (-y), x - x is zero, x / x is one for x other than zero, and (x + y) - y and (x * y) / y are x; all with equality of the stored fractions and including whether the operation panics.", "quantifier": "all triples of well-formed fractions, rational or periodic", "why_tests_cant": "the operations convert periodic fractions to surds and back by loops of unbounded length; needs all triples", "anchors": [{"file": "src/cont_frac/simple.rs", "symbols": ["add", "sub", "mul", "div", "neg"]}, {"file": "src/quadratic/surd.rs", "symbols": ["quadsurd_to_contfrac"]}]}
{"id": "C95", "title": "Value of Euler's constant", "statement": "Gamma.gfrac() represents Euler's constant: every nested fraction of its pairs is defined, convergents() tends to Euler's constant, simplify() yields its regular continued fraction and decimals() its decimal digits.", "quantifier": "all positions of the streams", "why_tests_cant": "the pairs are defined by a recursion with rational intermediate values; the limit is about infinitely many items", "anchors": [{"file": "src/symbols.rs", "symbols": ["GammaCoefficients", "gfrac"]}, {"file": "src/cont_frac/general.rs", "symbols": ["convergents", "simplify", "decimals"]}]}
{"id": "C96", "title": "Regular coefficients and digits of exp(t)", "statement": "For every integer t, exp(t).simplify() yields the coefficients of the regular continued fraction of e^t and ends where that ends, and exp(t).decimals() yields the decimal digits of e^t.", "quantifier": "all integers t and all positions of the streams", "why_tests_cant": "infinitely many exponents, and errors appear only after many items (the 13th digit of e)", "anchors": [{"file": "src/cont_frac/general.rs", "symbols": ["exp", "ExpCoefficients", "simplify", "decimals"]}]}
{"id": "C97", "title": "Moves and digits of the block", "statement": "Block::new, identity, rmove and gmove compute the substitution of the next quotient, gmove cancels every common factor, the checked moves succeed exactly when all products and sums are representable and otherwise leave the block unchanged, and reduce_recip and reduce_mul give a digit exactly when it is the value (rounded towards zero) for every non-negative argument, and then continue with 1/(f-i) and base*(f-i).", "quantifier": "all blocks, all quotients, all bases, all arguments", "why_tests_cant": "a property of a real function on an unbounded interval for every matrix; the tests use five matrices", "anchors": [{"file": "src/cont_frac/block.rs", "symbols": ["Block", "rmove", "gmove", "checked_rmove", "checked_gmove", "reduce_recip", "reduce_mul", "check_integer"]}]}
{"id": "C98", "title": "Square roots and conversions of primitive surds", "statement": "QuadraticSurd::from_sqrt of a primitive integer is its square root in every kind of build, and to_i64 and to_u64 of a surd over a primitive type return Some(v) exactly when the surd is the number v in range, and None otherwise, without panicking.", "quantifier": "all widths, all integers, all valid surds, both kinds of build", "why_tests_cant": "overflow of an intermediate product for operands that themselves fit", "anchors": [{"file": "src/quadratic/surd.rs", "symbols": ["from_sqrt", "to_i64", "to_u64", "trunc", "is_integer"]}]}
{"id": "C99", "title": "Rebuilding a continued fraction from its coefficients", "statement": "ContinuedFraction::new of the aperiodic and the periodic coefficients and the sign of a fraction in standard form is that fraction; collecting the coefficients of a finite fraction gives it back exactly when it is canonical; and collecting those of a periodic one never ends.", "quantifier": "all continued fractions, finite and periodic", "why_tests_cant": "the periodic part can be rotated or shortened in unboundedly many ways", "anchors": [{"file": "src/cont_frac/simple.rs", "symbols": ["new", "aperiodic_coeffs", "periodic_coeffs", "is_negative", "coeffs", "from_iter"]}]}
{"id": "C100", "title": "Zero and One are neutral", "statement": "For surds and for quadratic integers x+0, 0+x, x*1 and 1*x return a value equal to x, and is_zero and is_one recognise exactly the numbers 0 and 1.", "quantifier": "all valid values, with and without the feature complex", "why_tests_cant": "the neutral element is stored with radicand 0, so each law mixes two fields", "anchors": [{"file": "src/quadratic/surd.rs", "symbols": ["zero", "one", "is_zero", "add", "mul"]}, {"file": "src/quadratic/integer.rs", "symbols": ["zero", "one", "is_zero", "add", "mul"]}]}
{"id": "C101", "title": "Rational approximations over primitive integers", "statement": "approximated of a continued fraction or a surd over a primitive integer type returns the same answer as over arbitrary-precision integers: a convergent with a denominator of at most the limit, marked as exact exactly if it is the number.", "quantifier": "all widths, all fractions and valid surds, all limits, both kinds of build", "why_tests_cant": "the convergent that is read and dropped can overflow although the answer itself fits", "anchors": [{"file": "src/cont_frac/simple.rs", "symbols": ["approximated", "next"]}, {"file": "src/quadratic/surd.rs", "symbols": ["approximated"]}]}
{"id": "C102", "title": "Best approximations", "statement": "Every convergent p/q of a continued fraction minimises |q*x-p| among all fractions with a denominator below that of the next convergent, so approximated of a fraction or a surd returns the fraction that does so among all denominators below the limit.", "quantifier": "all continued fractions with a value, all surds for which the conversion returns, all limits >= 1", "why_tests_cant": "a statement about infinitely many competing fractions for every number and every limit", "anchors": [{"file": "src/cont_frac/simple.rs", "symbols": ["approximated", "convergents", "next"]}, {"file": "src/quadratic/surd.rs", "symbols": ["approximated"]}]}
{"id": "C103", "title": "Good approximations are convergents", "statement": "Every fraction p/q that differs from the value of a continued fraction by less than 1/(2q^2) is among the items of convergents().", "quantifier": "all continued fractions with a value, all fractions p/q", "why_tests_cant": "unboundedly many fractions and an unbounded iterator", "anchors": [{"file": "src/cont_frac/simple.rs", "symbols": ["convergents", "next"]}]}
{"id": "C104", "title": "Shape of square roots", "statement": "The conversion of b*sqrt(r)/c always ends and gives one coefficient a0 before the period, or 0, a0 for numbers below one; the period is a palindrome followed by 2*a0, where a0 is the integer part of the absolute value or of its reciprocal.", "quantifier": "all real irrational surds with a = 0", "why_tests_cant": "infinitely many radicands with periods of unbounded length", "anchors": [{"file": "src/quadratic/surd.rs", "symbols": ["quadsurd_to_contfrac", "try_from"]}]}
{"id": "C105", "title": "Pell's equation", "statement": "The n-th convergent p/q of the fraction computed for sqrt(N) satisfies |p^2-N*q^2| = 1 exactly if the length of the period divides n+1, then with the sign (-1)^(n+1); all positive solutions of this equation are such convergents; -1 is attained exactly if the period has odd length.", "quantifier": "all surds with the value sqrt(N), all N, all indices, all solutions", "why_tests_cant": "infinitely many radicands, convergents and solutions; the smallest solutions are often enormous", "anchors": [{"file": "src/cont_frac/simple.rs", "symbols": ["convergents", "next"]}, {"file": "src/quadratic/surd.rs", "symbols": ["quadsurd_to_contfrac", "try_from"]}]}
{"id": "C106", "title": "Number of coefficients and convergents", "statement": "The n-th convergent has a denominator of at least the Fibonacci number n+1, which is attained; From<Ratio> finds n coefficients only for denominators of at least the Fibonacci number n+1; approximated returns after at most k rounds if the limit is at most the Fibonacci number k+1, so after at most 93 for 64-bit limits.", "quantifier": "all continued fractions, all rationals, all limits >= 1", "why_tests_cant": "a bound on the running time over all inputs; the worst cases are the Fibonacci quotients", "anchors": [{"file": "src/cont_frac/simple.rs", "symbols": ["convergents", "next", "from", "approximated"]}]}
{"id": "C107", "title": "Length of the period and number of rounds", "statement": "The period of the fraction computed for a surd has at most R(R+1) coefficients, where R is the integer part of the root of the radicand it works with; numbers with a conjugate of opposite sign are converted within max(2, R(R+1)) rounds of either loop. In general, if the denominator c is below 2^n, the first loop takes at most 2n+5 rounds and the second at most R(R+1), or the conversion never ends; at most 4n+10 coefficients precede the period.", "quantifier": "all real irrational surds for which the conversion returns", "why_tests_cant": "periods are of unbounded and irregular length", "anchors": [{"file": "src/quadratic/surd.rs", "symbols": ["quadsurd_to_contfrac", "try_from"]}]}
{"id": "C108", "title": "Fractions built by programs are well-formed", "statement": "Every continued fraction that any sequence of calls of the public interface builds has a first coefficient, positive coefficients after it, exactly one value, is canonical if finite, and can be printed, converted and used in operations; the operations panic only on division by zero, rational results of periodic operands and incompatible roots.", "quantifier": "all sequences of constructors, conversions and operations with arbitrary arguments", "why_tests_cant": "unboundedly long sequences of operations over unbounded numbers", "anchors": [{"file": "src/cont_frac/simple.rs", "symbols": ["new", "add", "sub", "mul", "div", "neg", "from"]}, {"file": "src/quadratic/surd.rs", "symbols": ["quadsurd_to_contfrac", "try_from"]}]}
{"id": "C109", "title": "Purely periodic fractions (Galois)", "statement": "A periodic fraction is periodic from its first coefficient on exactly when its value is greater than 1 and the conjugate of its value lies between -1 and 0; the fraction with the period read backwards has the value -1/conjugate; and surds of this kind are converted to a fraction with their integer part before the period and again at the end of it.", "quantifier": "all periodic fractions and all reduced surds", "why_tests_cant": "unbounded numbers and periods, a statement about limits", "anchors": [{"file": "src/quadratic/surd.rs", "symbols": ["quadsurd_to_contfrac", "from"]}, {"file": "src/cont_frac/simple.rs", "symbols": ["ContinuedFraction"]}]}
{"id": "C110", "title": "Conversions to and from the other primitive types", "statement": "The integer conversions provided by ToPrimitive and FromPrimitive (8 to 128 bits) return Some(v) exactly if the surd is the integer v and v fits the type; to_f32 returns the nearest f32 of every real surd and None for the others.", "quantifier": "all surds, all primitive integer types, all integers", "why_tests_cant": "unbounded integers and all floats as competitors", "anchors": [{"file": "src/quadratic/surd.rs", "symbols": ["to_i64", "to_u64", "to_f64", "from_i64", "from_u64"]}]}
{"id": "C111", "title": "Small norms are found among the convergents of square roots", "statement": "If p, q are positive and |p^2 - N q^2| < sqrt(N), then p/q is one of the convergents of the fraction computed for sqrt(N); the values p^2 - N q^2 of its convergents are never 0 and below 2 sqrt(N); and a number below sqrt(N) is p^2 - N q^2 for coprime p, q exactly if one of the convergents of the first two periods has this value.", "quantifier": "all non-square N, all integers p, q", "why_tests_cant": "unbounded integers; every fraction as competitor", "anchors": [{"file": "src/quadratic/surd.rs", "symbols": ["to_contfrac"]}, {"file": "src/cont_frac/simple.rs", "symbols": ["convergents"]}]}
{"id": "C112", "title": "Homographic functions of quadratic numbers agree with surd arithmetic", "statement": "For a quadratic number x > 0 given by a periodic fraction and non-negative p, q, k, d with pd != qk, coeffs().homo(p,q,k,d) yields, call by call, exactly the coefficients of the periodic fraction of (px+q)/(kx+d); in particular those of the fraction which to_contfrac computes for the surd (x*p+q)/(x*k+d).", "quantifier": "all periodic fractions, all non-negative p, q, k, d, all numbers of calls", "why_tests_cant": "infinitely many outputs, unbounded coefficients, two independent algorithms", "anchors": [{"file": "src/cont_frac/infinite.rs", "symbols": ["homo"]}, {"file": "src/quadratic/surd.rs", "symbols": ["to_contfrac"]}]}
{"id": "C113", "title": "Homographic functions of finite continued fractions", "statement": "For a finite continued fraction l of non-negative coefficients and non-negative p, q, k, d, the iterator homo(p,q,k,d) yields the coefficients of (px+q)/(kx+d), x the value of l, and then ends.", "quantifier": "all finite lists of coefficients, all non-negative p, q, k, d", "why_tests_cant": "unbounded lengths and coefficients; the library's tests only take the first outputs of infinite sources", "anchors": [{"file": "src/cont_frac/block.rs", "symbols": ["check_integer"]}, {"file": "src/cont_frac/infinite.rs", "symbols": ["homo"]}]}
{"id": "C114", "title": "simplify and decimals of finite generalized continued fractions", "statement": "For a positive generalized continued fraction with finitely many pairs, simplify() yields the regular coefficients of its value, decimals() the decimal digits of its value (below ten), as far as they are determined, and then both end.", "quantifier": "all finite positive sequences of pairs, unbounded integers", "why_tests_cant": "unbounded numbers of pairs and of outputs; the library's tests only use infinite sources", "anchors": [{"file": "src/cont_frac/general.rs", "symbols": ["Simplified"]}, {"file": "src/cont_frac/general.rs", "symbols": ["DecimalDigits"]}]}
{"id": "C115", "title": "Equivalent numbers have the same continued fraction in the end", "statement": "Two irrational numbers whose regular continued fractions agree from some place on are exactly those related by (ax+b)/(cx+d) with ad-bc = 1 or -1 (Serret). Hence a homographic function of determinant 1 or -1 changes only a beginning of the coefficients, and fractions computed from surds related by such a function (integer shift, negation, inversion) have the same period up to rotation; conjugate numbers have reversed periods.", "quantifier": "all irrational numbers, all homographic functions with non-negative entries, all surds and periodic fractions", "why_tests_cant": "a statement about infinitely many coefficients and all pairs of numbers; tests compare a few expansions", "anchors": [{"file": "src/cont_frac/infinite.rs", "symbols": ["HomographicResult"]}, {"file": "src/quadratic/surd.rs", "symbols": ["From"]}]}
{"id": "C116", "title": "Homographic functions compose", "statement": "Feeding the output of homo(a,b,c,d) into homo(a',b',c',d') yields the same coefficients as the single function with the product matrix.", "quantifier": "all positive irrational sources, all non-negative entries with non-zero determinants, any number of outputs", "why_tests_cant": "infinitely many outputs and unbounded entries", "anchors": [{"file": "src/cont_frac/infinite.rs", "symbols": ["homo"]}, {"file": "src/cont_frac/block.rs", "symbols": ["Block"]}]}
{"id": "C117", "title": "Laws of arithmetic of quadratic and Gaussian integers over primitive integers", "statement": "Without overflow checks, addition, subtraction, negation and multiplication of quadratic integers with one discriminant, and of Gaussian integers, always return the exact result with both coefficients reduced modulo 2^w. Hence the laws of a commutative ring hold for the coefficients whatever overflows, the norm is multiplicative and the conjugation a homomorphism. With overflow checks they hold whenever both sides return. For QuadraticInt they hold only for the coefficients: a zero result of an overflow may be stored with the discriminant or without, and == tells the two apart.", "quantifier": "every width of at least 3 bits, every discriminant, all representable operands, with and without checks", "why_tests_cant": "the laws must hold for all triples, in particular for those that overflow", "anchors": [{"file": "src/quadratic/integer.rs", "symbols": ["QuadraticInt"]}, {"file": "src/quadratic/integer.rs", "symbols": ["GaussianInt"]}]}
{"id": "C118", "title": "Laws of arithmetic of surds over primitive integers", "statement": "Over a primitive integer type, x + y and y + x are the same run, and so are x * y and y * x: the same fields or the same panic, in every build. x - x returns zero in every build. (x + y) + z equals x + (y + z), (x * y) * z equals x * (y * z) and x * (y + z) equals x * y + x * z for real numbers whenever every step returns.", "quantifier": "every width, every build, all representable operands in normal form", "why_tests_cant": "the laws must hold for all triples, in particular for those where an intermediate product overflows and where the panics come in another order", "anchors": [{"file": "src/quadratic/surd.rs", "symbols": ["Add"]}, {"file": "src/quadratic/surd.rs", "symbols": ["Sub"]}, {"file": "src/quadratic/surd.rs", "symbols": ["Mul"]}, {"file": "src/quadratic/surd.rs", "symbols": ["reduce_bin_op"]}]}
{"id": "C119", "title": "Commutativity of quadratic and Gaussian integers over primitive integers, panics included", "statement": "Over a primitive integer type, x + y and y + x are the same run, and so are x * y and y * x: the same fields or the same panic, in every build.", "quantifier": "every width, every build, all operands in the stored form", "why_tests_cant": "one order may panic on an intermediate sum where the other returns; a test has to hit an operand pair at the edge of the type in both orders", "anchors": [{"file": "src/quadratic/integer.rs", "symbols": ["QuadraticInt"]}, {"file": "src/quadratic/integer.rs", "symbols": ["GaussianInt"]}, {"file": "src/quadratic/integer.rs", "symbols": ["reduce_bin_op"]}]}
{"id": "C120", "title": "Commutativity of continued fractions over primitive integers", "statement": "Over a primitive integer type, c + e and e + c return the same fraction, or both panic, and the same holds for c * e and e * c. A surd that is a rational number is never converted to a continued fraction, whatever wraps around on the way: the conversion panics.", "quantifier": "every width of at least two bits, every build, all pairs of fractions; if exactly one is finite that one must be readable in the type", "why_tests_cant": "the two orders take different branches of the operator (ratio arithmetic, surd arithmetic with the number on the left or on the right), and wrapped intermediate values differ between the branches; a test covers a few pairs of one width", "anchors": [{"file": "src/cont_frac/simple.rs", "symbols": ["Add", "Mul"]}, {"file": "src/quadratic/surd.rs", "symbols": ["quadsurd_to_contfrac", "Add", "Mul"]}]}
{"id": "C121", "title": "A quotient is the product with the reciprocal, a difference is the sum with the negative", "statement": "x / y and x * y.recip() are the same number or both panic; x - y and x + (-y) are the same or both panic, over unbounded and over primitive integers.", "quantifier": "all normalised surds and all well-formed fractions, every width, with and without overflow checks", "why_tests_cant": "the two forms take different branches, and panics and overflows sit at different intermediate values; a test compares a few pairs that return in both forms", "anchors": [{"file": "src/quadratic/surd.rs", "symbols": ["recip", "Div", "Mul", "Sub", "Add", "Neg"]}, {"file": "src/cont_frac/simple.rs", "symbols": ["Sub", "Add", "Neg"]}]}
{"id": "C122", "title": "Whole calculations with surds", "statement": "A formula built from surds with negation, reciprocal and the four operations, calculated step by step, returns the number it denotes; two calculations of the same number compare equal; with one root throughout the calculation returns unless something is divided by zero.", "quantifier": "all formulas of any size over all integer coefficients; all widths with overflow checks", "why_tests_cant": "single operations are tested on a few operands; what a calculation stores after many steps, and whether two different calculations of one number end in the same fields, is not reachable by samples", "anchors": [{"file": "src/quadratic/surd.rs", "symbols": ["new", "recip", "Add", "Sub", "Mul", "Div", "Neg", "PartialEq"]}]}
{"id": "C123", "title": "Whole calculations with finite continued fractions", "statement": "A formula of rational numbers calculated with continued fractions returns the canonical fraction of the number it denotes, or panics with a division by zero; over primitive integers with checks it does the same or overflows, so any identity between rationals holds of the fractions returned.", "quantifier": "all formulas of any size over all rationals; every width", "why_tests_cant": "tests try single operations on a few short fractions", "anchors": [{"file": "src/cont_frac/simple.rs", "symbols": ["From", "Add", "Sub", "Mul", "Div", "Neg"]}]}
{"id": "C124", "title": "Whole calculations with quadratic and Gaussian integers", "statement": "A formula built from numbers a + b*sqrt(r) over one root with negation, conjugation, sum, difference and product, calculated with QuadraticInt (or GaussianInt) step by step, returns the number it denotes, and two calculations of one number return the same fields.", "quantifier": "all formulas of any size, all integers a and b, all roots; all widths with overflow checks", "why_tests_cant": "tests try single operations on a few numbers", "anchors": [{"file": "src/quadratic/integer.rs", "symbols": ["new", "conj", "Neg", "Add", "Sub", "Mul", "GaussianInt"]}]}
{"id": "C125", "title": "Euclid's algorithm with the remainders of the library", "statement": "The loop (a, b) = (b, a % b) until b is zero ends and leaves a greatest common divisor, for GaussianInt and for QuadraticInt over the discriminants for which the division is Euclidean.", "quantifier": "all numbers; all widths with overflow checks; all numbers in a stated range without", "why_tests_cant": "termination and the value of the result need all remainders at once; each remainder alone looks plausible", "anchors": [{"file": "src/quadratic/integer.rs", "symbols": ["Rem", "GaussianInt", "is_zero", "div_rem"]}]}
{"id": "C126", "title": "Negative generalized fractions and the digits of periodic fractions", "statement": "Turning every second entry of each pair negative negates every coefficient of simplify and every convergent, call by call, with the same panics and the same calls that never return. For a periodic fraction generalized().simplify() gives coeffs() back and generalized().decimals() prints its decimal digits, hence the digits of a surd.", "quantifier": "all streams of pairs; all canonical periodic fractions of either sign; any number of calls", "why_tests_cant": "negative streams and digits of surds through generalized() are not tested at all, and never beyond finitely many calls", "anchors": [{"file": "src/cont_frac/general.rs", "symbols": ["Convergents", "Simplified", "DecimalDigits"]}, {"file": "src/cont_frac/simple.rs", "symbols": ["generalized"]}, {"file": "src/quadratic/surd.rs", "symbols": ["QuadraticSurd"]}]}
{"id": "C127", "title": "Whole calculations with periodic continued fractions", "statement": "A formula built from continued fractions, finite or periodic, with negation, operations with numbers and the four operations, calculated step by step, returns a fraction of the number it denotes; two calculations of the same number return the same fraction.", "quantifier": "all formulas of any size over all well-formed fractions", "why_tests_cant": "tests try single operations on a few square roots; errors that build up over several steps and results with other signs are out of their reach", "anchors": [{"file": "src/cont_frac/simple.rs", "symbols": ["Add", "Sub", "Mul", "Div", "Neg", "From"]}, {"file": "src/quadratic/surd.rs", "symbols": ["QuadraticSurd"]}]}
{"id": "C128", "title": "Surds and quadratic integers calculate alike", "statement": "A formula in numbers a + b*sqrt(r) with sums, differences, products and conjugates gives the same number whether it is calculated with QuadraticSurd or with QuadraticInt; the surd has denominator 1 and to_quadint turns it into that very quadratic integer. For r = -1 the same holds of GaussianInt and to_gaussint.", "quantifier": "all formulas of any size, all non-square roots, both builds, arbitrary precision and primitive integers of any width", "why_tests_cant": "the two types are tested apart; no test runs the same calculation on both", "anchors": [{"file": "src/quadratic/surd.rs", "symbols": ["to_quadint", "to_gaussint", "Add", "Sub", "Mul", "conj"]}, {"file": "src/quadratic/integer.rs", "symbols": ["new", "Add", "Sub", "Mul", "conj"]}]}
{"id": "C129", "title": "Laws of rounding", "statement": "floor, trunc and fract are functions of the number, not of how it is stored. floor keeps the order and moves with integers; trunc and fract commute with negation; rounding twice is rounding once, fract(fract(x)) = fract(x) and trunc(fract(x)) = 0; trunc and floor agree on positive numbers, whose fract is not negative.", "quantifier": "all real surds", "why_tests_cant": "tests round single surds; no test compares two stored forms of one number or applies two rounding functions in a row", "anchors": [{"file": "src/quadratic/surd.rs", "symbols": ["floor", "trunc", "fract", "neg"]}]}
{"id": "C130", "title": "Functions of the number and functions of the stored form", "statement": "Two surds that hold the same number are interchangeable: the sign tests, floor, trunc, the tests for rational numbers and integers, and the conversions to rationals, quadratic integers and continued fractions give the same on both.", "quantifier": "all pairs of real surds with the same value", "why_tests_cant": "tests use one stored form of each number; equal surds with different roots are never passed to the same function and compared", "anchors": [{"file": "src/quadratic/surd.rs", "symbols": ["eq", "floor", "trunc", "is_positive", "to_rational", "to_quadint", "to_contfrac"]}]}
{"id": "C131", "title": "Programs with variables, branches and loops", "statement": "A program that computes with surds - with variables, arithmetic, integer and rational operands, floor, branches and loops that ask for signs, zero, one, rationality, integrality and equality - does what it would do with real numbers: it takes the same branches, runs its loops equally often, ends exactly if it would end, panics only where real numbers would fail, and leaves the same numbers in all variables.", "quantifier": "all programs, all starting states, executions of any length", "why_tests_cant": "tests run single operations; a control-flow decision taken on a computed surd, or a loop over surds, is never run", "anchors": [{"file": "src/quadratic/surd.rs", "symbols": ["new", "add", "sub", "mul", "div", "recip", "floor", "is_positive", "is_negative", "eq", "is_rational", "is_integer"]}]}
{"id": "C132", "title": "Expanding a surd by hand (Lagrange's theorem)", "statement": "Repeating (x - x.floor()).recip() on an irrational real surd never panics and computes the complete quotients of the number; their floors are the coefficients of its regular continued fraction; after finitely many steps it returns to a surd it has met before, field by field. Hence every irrational real surd is the value of a periodic fraction of the library's type, also where to_contfrac never ends.", "quantifier": "all irrational real surds, all numbers of steps", "why_tests_cant": "tests call floor, subtraction and recip once each; that the loop is periodic is a statement about all steps", "anchors": [{"file": "src/quadratic/surd.rs", "symbols": ["floor", "sub", "recip", "to_contfrac"]}, {"file": "src/cont_frac/simple.rs", "symbols": ["ContinuedFraction"]}]}
{"id": "C133", "title": "Consecutive convergents", "statement": "Of two consecutive items of convergents() one differs from the number by at most 1/(2q^2); of three one differs by less than 1/(sqrt(5)*q^2), and two do not suffice; no constant greater than sqrt(5) would do, because of [1; (1)].", "quantifier": "all well-formed continued fractions, all indices", "why_tests_cant": "tests compare single convergents with stored values; the bounds hold for all positions of all fractions", "anchors": [{"file": "src/cont_frac/simple.rs", "symbols": ["convergents", "next"]}]}
{"id": "C134", "title": "The solutions of Pell's equation are powers", "statement": "Let p/q be the convergent of sqrt(N) at the end of the first period. Multiplying the surd p+q*sqrt(N) with itself never panics, and its (k+1)-th power is stored as p'+q'*sqrt(N), where p'/q' is the convergent at the end of period k+1.", "quantifier": "all surds with the value sqrt(N), all N, all exponents", "why_tests_cant": "it relates unboundedly many steps of three different parts of the library: conversion, convergents and multiplication", "anchors": [{"file": "src/quadratic/surd.rs", "symbols": ["mul", "quadsurd_to_contfrac", "try_from"]}, {"file": "src/cont_frac/simple.rs", "symbols": ["convergents", "next"]}]}
{"id": "C135", "title": "Sums of two squares", "statement": "If m divides x^2+1, then Euclid's algorithm with the remainders of Gaussian integers, started at m and x+i, ends with u+vi where u^2+v^2 = m. A prime number is found in this way exactly if it is not 3 modulo 4. Over primitive integers with overflow checks the result is the same or an overflow, and the same without checks if 4m^3 fits and |x| <= m.", "quantifier": "all m and x, all prime numbers, all widths", "why_tests_cant": "the number of remainders is unbounded, and a remainder that is too large or not congruent may show only for some m", "anchors": [{"file": "src/quadratic/integer.rs", "symbols": ["GaussianInt", "Rem", "div_rem", "norm"]}]}
{"id": "C136", "title": "Expanding a surd by hand over primitive integers", "statement": "Over a primitive integer type with overflow checks, repeating (s - s.floor()).recip() gives the same surds as over BigInt until it panics with an overflow. If 4*N^2 is representable, the expansion of sqrt(N) goes on for ever without an overflow, with or without checks, and the floors are the coefficients of the continued fraction of sqrt(N).", "quantifier": "all surds, all N, all numbers of rounds, all widths", "why_tests_cant": "the number of rounds is unbounded, and whether the numbers of all rounds stay small is a theorem about reduced quadratic numbers", "anchors": [{"file": "src/quadratic/surd.rs", "symbols": ["floor", "sub", "recip", "reduce"]}]}
{"id": "C137", "title": "Fibonacci numbers", "statement": "The (k+1)-th power of the quadratic integer w = (1+sqrt(5))/2 is F(k) + F(k+1)*w, the (k+1)-th power of the surd (1+sqrt(5))/2 is (2F(k+2)-F(k+1) + F(k+1)*sqrt(5))/2 in lowest terms, and the n-th convergent of [1; 1, 1, ...] is F(n+2)/F(n+1). Over a primitive type with overflow checks the powers of w are right until F(k+1) is not representable, and then overflow is reported; the convergents are right exactly while F(n+2) fits the signed type, and the iterator ends when F(n+2) does not fit the unsigned type.", "quantifier": "all exponents and indices, all widths", "why_tests_cant": "exponents and indices are unbounded", "anchors": [{"file": "src/quadratic/integer.rs", "symbols": ["mul"]}, {"file": "src/quadratic/surd.rs", "symbols": ["mul", "reduce"]}, {"file": "src/cont_frac/simple.rs", "symbols": ["convergents", "next"]}]}
{"id": "C138", "title": "The build configuration does not change results", "statement": "For real numbers (no negative number under a root) neither the feature complex nor debug assertions change what is returned: constructors, all operators, conversions, square roots of non-negative surds, the construction of continued fractions from any coefficients, the surd of any continued fraction, the expansion of a surd, the arithmetic of continued fractions and of quadratic integers. Panics are the same too, except that expanding a rational surd (and continued fraction arithmetic ending in a rational number) and the remainder of a rational by an irrational quadratic integer panic with a failed assertion in debug builds and with a division by zero in release builds. Whole programs with branches and loops over surds behave identically in all builds.", "quantifier": "all operands with non-negative roots, all coefficient lists, all pairs of configurations, all programs", "why_tests_cant": "tests run in one configuration at a time, and the assertions that must never fail range over unbounded inputs", "anchors": [{"file": "src/quadratic/surd.rs", "symbols": ["reduce_bin_op", "from_sqrt", "new"]}, {"file": "src/cont_frac/simple.rs", "symbols": ["new"]}, {"file": "src/quadratic/integer.rs", "symbols": ["reduce_bin_op", "rem"]}]}
{"id": "C139", "title": "The build configuration does not change results over primitive integers", "statement": "With overflow checks, surds with non-negative roots over a primitive type behave identically whatever the feature complex and the debug assertions: every operator and predicate returns the same value or panics in the same way, overflow included, roots stay non-negative, and so do whole programs with branches and loops. Without overflow checks this fails: the product of two roots can wrap around to a negative number, which is a complex number with the feature and a panic without it.", "quantifier": "all widths, all representable operands with non-negative roots, all programs, all pairs of configurations", "why_tests_cant": "operands and programs are unbounded; tests run in one configuration", "anchors": [{"file": "src/quadratic/surd.rs", "symbols": ["reduce_bin_op", "reduce", "mul", "div"]}]}
{"id": "C140", "title": "Functions of real numbers refuse complex numbers", "statement": "to_integer, to_rational, floor, is_positive and is_negative panic with the message about complex numbers exactly when the number is not real, in every build, and return for every other number; over a primitive type a negative root is refused before anything is computed.", "quantifier": "all surds in normal form that a build can hold, all configurations, all widths", "why_tests_cant": "the refusal depends on the feature flag and on the sign of the root, and tests only exercise real numbers", "anchors": [{"file": "src/quadratic/surd.rs", "symbols": ["panic_if_complex", "to_integer", "to_rational", "floor", "is_positive", "is_negative"]}]}
{"id": "C141", "title": "Polynomials at surds, and solutions put back into their equation", "statement": "Evaluating any polynomial with rational coefficients at a surd by Horner's rule never panics and returns the value of the polynomial; the solution from_equation returns, and its conjugate when irrational, put back into the equation that way gives exactly the surd zero; every surd is found again, up to conjugation, from its own equation.", "quantifier": "all surds in normal form, all lists of rational coefficients, all equations, all configurations", "why_tests_cant": "the root stored by each intermediate result may lose square factors, and addition or multiplication panics if two roots stop matching; only an invariant over the whole evaluation excludes that", "anchors": [{"file": "src/quadratic/surd.rs", "symbols": ["from_equation", "mul", "add"]}]}
{"id": "C142", "title": "Units of the rings of quadratic integers", "statement": "A quadratic integer has an inverse in its ring exactly if norm is 1 or -1; 1/x is then that inverse, and it is the conjugate up to the sign. The units of imaginary rings and of the Gaussian integers are the known finite lists; those of the ring of sqrt(N), N = 2 or 3 modulo 4, are 1, -1 and, up to sign and conjugation, the powers (multiplied with QuadraticInt) of the number read off the last convergent of sqrt(N) before the period repeats; for N = 1 modulo 4 and N > 16 they are found among the convergents of sqrt(N).", "quantifier": "all quadratic integers of a ring, all discriminants, all configurations", "why_tests_cant": "the real rings have infinitely many units, and completeness of the list is a theorem about all numbers of the ring", "anchors": [{"file": "src/quadratic/integer.rs", "symbols": ["norm", "conj", "mul", "div"]}, {"file": "src/cont_frac/simple.rs", "symbols": ["convergents"]}]}
{"id": "C143", "title": "Comparing and sorting surds by the sign of their difference", "statement": "(x - y).is_negative() is true exactly if x < y, for real surds whose roots go together, and panics for all others; it is a strict total order on the real surds of one field, and sorting a list of them with it returns a rearrangement in ascending order. Over primitive integers with overflow checks the same, or an overflow panic.", "quantifier": "all real surds in normal form, all lists of surds of one field, all configurations, all widths", "why_tests_cant": "a sort makes many comparisons whose operands are stored with different roots; a single wrong sign breaks the order", "anchors": [{"file": "src/quadratic/surd.rs", "symbols": ["sub", "is_negative"]}]}
{"id": "C144", "title": "Testing divisibility", "statement": "Gaussian integers: y divides x exactly if x % y is zero, and x / y is then the quotient. Quadratic integers of one ring: y divides x exactly if (x / y) * y gives x back, and exactly if x % y is zero.", "quantifier": "all Gaussian integers, all quadratic integers of a ring, all configurations", "why_tests_cant": "division rounds to the nearest number of the ring, so that a test on samples does not show that no multiple is missed", "anchors": [{"file": "src/quadratic/integer.rs", "symbols": ["div", "rem", "mul"]}]}
{"id": "C145", "title": "Powers with num_traits::pow", "statement": "Raising a quadratic integer or a surd to a power by repeated squaring, as num_traits::pow does with the library's One and Mul, returns the power. Over primitive integers with overflow checks it is the same power or an overflow panic; without them the coefficients of a power of a quadratic integer are the right ones modulo 2^w.", "quantifier": "all quadratic integers of a ring, all surds in normal form, all exponents, all configurations, all widths", "why_tests_cant": "the number of squarings grows with the exponent and each one renormalises the number, so that samples reach a few exponents only", "anchors": [{"file": "src/quadratic/integer.rs", "symbols": ["mul", "one"]}, {"file": "src/quadratic/surd.rs", "symbols": ["mul", "one"]}]}
{"id": "C146", "title": "Powers of continued fractions", "statement": "Raising a continued fraction to a power with num_traits::pow, with the library's One and Mul, returns the fraction of the power of the number.", "quantifier": "all canonical finite fractions, all well-formed periodic fractions, all exponents", "why_tests_cant": "every product goes through a surd and back to a fraction, and the number of products grows with the exponent", "anchors": [{"file": "src/cont_frac/simple.rs", "symbols": ["mul", "one"]}]}
{"id": "C147", "title": "Reciprocal of a continued fraction", "statement": "One divided by a continued fraction is the fraction with the same sign and the same coefficients, moved by one place: a zero is put in front, or taken away if there is one.", "quantifier": "all canonical finite fractions, all well-formed periodic fractions, all configurations", "why_tests_cant": "the quotient is calculated through rational numbers or surds and expanded again, so that the coefficients are found anew and never copied", "anchors": [{"file": "src/cont_frac/simple.rs", "symbols": ["div", "one"]}]}
{"id": "C148", "title": "Euclid's extended algorithm with quotients", "statement": "Euclid's extended algorithm written with /, * and - (without %) ends for any two Gaussian integers or quadratic integers of one ring and returns a greatest common divisor g of a and b in the ring together with factors s and t such that g = s*a + t*b; over the Gaussian integers it gives the inverse of a modulo b exactly if there is one.", "quantifier": "all pairs of Gaussian integers, all pairs of quadratic integers over one discriminant (rational ones included), all primitive widths with overflow checks", "why_tests_cant": "the claim is about a loop of unbounded length over all pairs of numbers, and says that the result is divisible by every common divisor", "anchors": [{"file": "src/quadratic/integer.rs", "symbols": ["div"]}, {"file": "src/quadratic/integer.rs", "symbols": ["mul"]}, {"file": "src/quadratic/integer.rs", "symbols": ["sub"]}, {"file": "src/quadratic/integer.rs", "symbols": ["div_rem"]}]}
{"id": "C149", "title": "Programs over quadratic integers of one ring", "statement": "A program with variables, branches and loops over quadratic integers of one ring, using +, -, *, /, conj, integer operands, is_zero, is_rational and ==, ends exactly if the same program over complex numbers (quotients rounded in both coordinates, halves away from zero) ends, with the same numbers in all variables; it panics only on division by zero.", "quantifier": "all programs, all starting values of one ring, all non-square discriminants not divisible by 4 allowed by the configuration, runs of any length", "why_tests_cant": "the claim is about every program and runs of unbounded length", "anchors": [{"file": "src/quadratic/integer.rs", "symbols": ["from_coeffs"]}, {"file": "src/quadratic/integer.rs", "symbols": ["add"]}, {"file": "src/quadratic/integer.rs", "symbols": ["sub"]}, {"file": "src/quadratic/integer.rs", "symbols": ["mul"]}, {"file": "src/quadratic/integer.rs", "symbols": ["div"]}, {"file": "src/quadratic/integer.rs", "symbols": ["conj"]}, {"file": "src/quadratic/integer.rs", "symbols": ["is_zero"]}, {"file": "src/quadratic/integer.rs", "symbols": ["is_rational"]}, {"file": "src/quadratic/integer.rs", "symbols": ["eq"]}]}
{"id": "C150", "title": "Programs over Gaussian integers", "statement": "A program with variables, branches and loops over GaussianInt, using +, -, *, /, %, conj, == and comparison of norms, ends exactly if the same program over complex numbers (quotients with both parts rounded, halves away from zero) ends, with the same numbers in all variables; its only panic is division by zero. Over primitive integers with overflow checks it does the same, step by step, or panics with an overflow.", "quantifier": "all programs, all starting values, all primitive widths, runs of any length", "why_tests_cant": "the claim is about every program and runs of unbounded length", "anchors": [{"file": "src/quadratic/integer.rs", "symbols": ["GaussianInt"]}, {"file": "src/quadratic/integer.rs", "symbols": ["conj"]}, {"file": "src/quadratic/integer.rs", "symbols": ["norm"]}, {"file": "src/quadratic/integer.rs", "symbols": ["add"]}, {"file": "src/quadratic/integer.rs", "symbols": ["sub"]}, {"file": "src/quadratic/integer.rs", "symbols": ["mul"]}, {"file": "src/quadratic/integer.rs", "symbols": ["div"]}, {"file": "src/quadratic/integer.rs", "symbols": ["rem"]}]}
{"id": "C151", "title": "Programs over finite continued fractions", "statement": "A program with variables, branches and loops over finite continued fractions, using +, -, *, /, negation, integer and Ratio operands, is_zero, is_one, is_negative, is_integer and ==, does step by step what it would do with rational numbers: every variable holds the continued fraction of its rational number, every branch goes the same way, and it panics exactly where a rational number is divided by zero.", "quantifier": "all programs, all rational starting values, runs of any length", "why_tests_cant": "the claim is about every program and runs of unbounded length", "anchors": [{"file": "src/cont_frac/simple.rs", "symbols": ["from"]}, {"file": "src/cont_frac/simple.rs", "symbols": ["neg"]}, {"file": "src/cont_frac/simple.rs", "symbols": ["add"]}, {"file": "src/cont_frac/simple.rs", "symbols": ["sub"]}, {"file": "src/cont_frac/simple.rs", "symbols": ["mul"]}, {"file": "src/cont_frac/simple.rs", "symbols": ["div"]}, {"file": "src/cont_frac/simple.rs", "symbols": ["is_zero"]}, {"file": "src/cont_frac/simple.rs", "symbols": ["is_one"]}, {"file": "src/cont_frac/simple.rs", "symbols": ["is_negative"]}, {"file": "src/cont_frac/simple.rs", "symbols": ["is_integer"]}]}
