#!/usr/bin/env python3
"""Source of properties.jsonl (kept as a script so that ids, titles and wording stay in one place)."""
import json
S="src/quadratic/surd.rs"; Q="src/quadratic/integer.rs"; CF="src/cont_frac/simple.rs"
B="src/cont_frac/block.rs"; I="src/cont_frac/infinite.rs"; G="src/cont_frac/general.rs"; Y="src/symbols.rs"; T="src/traits.rs"
P=[]
def p(title,statement,quantifier,why,anchors):
    P.append(dict(id="C%02d"%(len(P)+1),title=title,statement=statement,quantifier=quantifier,why_tests_cant=why,anchors=anchors))
def a(f,*syms): return {"file":f,"symbols":list(syms)}

p("Surd constructors preserve the number",
  "QuadraticSurd::new(a,b,c,r), from_coeffs and From<T>/From<Ratio> return a surd whose parts (a',b',c',r') denote exactly the number (a+b*sqrt(r))/c that was asked for.",
  "all integers a,b,c,r for which the constructor returns, with and without the complex feature",
  "normalisation divides by gcds and by square factors shared between a, c and r; a wrong branch only shows for particular factorisations",
  [a(S,"QuadraticSurd::new","QuadraticSurd::from_coeffs","QuadraticSurd::reduce","From<Ratio<T>>")])
p("Surd normal form and exact panic condition of the constructor",
  "new/from_coeffs panic exactly when c = 0, or when r < 0 without the complex feature; otherwise parts() has positive denominator, gcd(a,b,c)=1, b=0 iff r=0, and r is not a perfect square unless it is 0. Every public operation that returns a surd preserves this form.",
  "all integers a,b,c,r and all histories of public surd operations",
  "an invariant over every reachable value, not over sampled ones",
  [a(S,"QuadraticSurd::new","reduce","conj","neg","numer","denom")])
p("Surd equality is numeric equality",
  "x == y holds if and only if x and y are the same number.",
  "all pairs of surds obtainable from the public API, including different root bases",
  "depends on coincidences between two different root bases (18 and 2); the false positives are pairs of conjugates",
  [a(S,"PartialEq for QuadraticSurd")])
p("Surd Eq is an equivalence relation and agrees with Hash",
  "== on surds is reflexive, symmetric and transitive, and equal surds feed equal data to the derived Hash.",
  "all pairs and triples of surds obtainable from the public API",
  "a law over triples of values with different representations",
  [a(S,"PartialEq for QuadraticSurd","derive(Hash)")])
p("Surd addition and subtraction are exact",
  "x + y and x - y, whenever they return, denote exactly the sum and the difference of the two numbers, also across different but compatible root bases.",
  "all pairs of surds obtainable from the public API, real or complex",
  "unbounded integers and all factorisations of the two root bases",
  [a(S,"Add for QuadraticSurd","Sub for QuadraticSurd","reduce_bin_op","reduce_root_hinted")])
p("Surd multiplication is exact",
  "x * y, whenever it returns, denotes exactly the product of the two numbers, including products of pure surds with unrelated bases.",
  "all pairs of surds obtainable from the public API, real or complex",
  "the pure-surd shortcut combines gcds of two arbitrary roots and signs of two roots",
  [a(S,"Mul for QuadraticSurd","QuadraticOps::mul for QuadraticSurdCoeffs")])
p("Surd division and reciprocal are exact",
  "x / y and recip, whenever they return, denote exactly the quotient and the inverse.",
  "all pairs of surds obtainable from the public API, real or complex",
  "same as multiplication, plus the rationalisation of the denominator",
  [a(S,"Div for QuadraticSurd","QuadraticSurd::recip","QuadraticOps::div for QuadraticSurdCoeffs")])
p("Binary surd operations fail exactly when documented",
  "x+y and x-y panic exactly when both are irrational and neither root is the other times a perfect square; x*y additionally succeeds when both are pure; x/y additionally panics exactly when y is zero.",
  "all pairs of surds obtainable from the public API",
  "a totality claim: absence of panics over every pair",
  [a(S,"reduce_bin_op_unwrap","Add","Sub","Mul","Div")])
p("Integer and rational operands",
  "x + k, x - k, x * k, x / k for an integer or rational k denote the exact result; only division by zero panics.",
  "all surds obtainable from the public API and all integers/rationals k",
  "unbounded operands; the equal-denominator shortcut is a separate code path",
  [a(S,"forward_binop","Add<Ratio<T>> for QuadraticSurdCoeffs","Div<Ratio<T>> for QuadraticSurdCoeffs")])
p("Conjugation and norm",
  "conj denotes (a-b*sqrt(r))/c, is an involution, and norm of the coefficients equals the product of a number and its conjugate; negation denotes the additive inverse; numer/denom reconstruct the number.",
  "all surds obtainable from the public API",
  "algebraic law over all values",
  [a(S,"QuadraticSurd::conj","QuadraticOps::norm","Neg","numer","denom")])
p("Sign predicates",
  "is_positive / is_negative are true exactly when the real number is > 0 / < 0, is_zero exactly for 0 and is_one exactly for 1.",
  "all real surds obtainable from the public API",
  "the decision compares a^2 with b^2*r and must be right arbitrarily close to zero",
  [a(S,"QuadraticSurd::is_positive","QuadraticSurd::is_negative","Zero::is_zero","One::is_one")])
p("floor",
  "floor(x) is the greatest integer not larger than x.",
  "all real surds obtainable from the public API",
  "off-by-one at numbers arbitrarily close to integers",
  [a(S,"QuadraticSurd::floor")])
p("trunc and to_integer round toward zero",
  "trunc(x) and to_integer(x).value() are x rounded toward zero, and to_integer is Exact only if x is an integer.",
  "all real surds obtainable from the public API",
  "off-by-one only for one combination of the signs of x and of its irrational part",
  [a(S,"QuadraticSurd::trunc","QuadraticSurd::to_integer")])
p("trunc + fract recomposes",
  "fract(x) + trunc(x) is x again for real surds.",
  "all real surds obtainable from the public API",
  "round trip over all values",
  [a(S,"QuadraticSurd::fract","QuadraticSurd::trunc")])
p("to_rational",
  "to_rational is Exact with the exact value for a rational surd, and otherwise Approximated with the square root part rounded toward zero, i.e. within 1/c of the number.",
  "all real surds obtainable from the public API",
  "sign of the irrational part must be respected for every value",
  [a(S,"QuadraticSurd::to_rational")])
p("from_rationals and from_equation",
  "from_rationals(a,b,r) denotes a+b*sqrt(r). from_equation(a,b,c) returns a root of ax^2+bx+c, returns None only if there is no (real) root or a=b=0, and its conjugate is the other root.",
  "all rationals a,b,c,r",
  "holds over all rational coefficient triples, including degenerate ones",
  [a(S,"QuadraticSurd::from_rationals","QuadraticSurd::from_equation")])
p("from_sqrt of integers and rationals",
  "from_sqrt(t) returns the non-negative square root of t >= 0; for t<0 it reports Complex without the complex feature and otherwise returns i*sqrt(|t|); it reports Overflow only when numerator*denominator does not fit the integer type.",
  "all integers and rationals t and all integer ranges",
  "unbounded input, and a range-dependent error branch",
  [a(S,"FromSqrt<T> for QuadraticSurd","FromSqrt<Ratio<T>> for QuadraticSurd"),a(T,"SqrtErrorKind")])
p("from_sqrt of surds",
  "from_sqrt(x), when Ok, is the non-negative square root of x; it is Unrepresentable only if no quadratic surd squares to x; an error carries back a surd equal to x.",
  "all surds obtainable from the public API",
  "soundness and completeness of a search for a rational solution of a quadratic equation",
  [a(S,"FromSqrt<QuadraticSurd<T>> for QuadraticSurd","get_abc","reconstruct")])
p("reduced() returns and keeps the number",
  "reduced() terminates on every surd, keeps the value and leaves a root not divisible by p^2 for any prime p <= 251.",
  "all surds obtainable from the public API",
  "termination over all inputs",
  [a(S,"QuadraticSurd::reduced","QuadraticSurd::reduce_root")])
p("Classification of surds",
  "is_rational, is_integer, is_quadint, is_gaussint and is_pure answer the mathematical question in their documentation.",
  "all surds obtainable from the public API",
  "an if-and-only-if about all values",
  [a(S,"is_integer","is_rational","is_quadint","is_gaussint","is_pure")])
p("to_quadint and to_gaussint",
  "to_quadint and to_gaussint return (never panic); when Exact the result is the same number.",
  "all surds obtainable from the public API",
  "panic freedom over all inputs, including rational ones",
  [a(S,"to_quadint","to_gaussint"),a(Q,"QuadraticInt::new")])
p("Surd Display is faithful",
  "The text printed for a surd, read as an arithmetic expression, denotes the surd; two surds that print the same are the same number.",
  "all surds obtainable from the public API, plain and alternate form",
  "a round trip over all values and all 36 format branches",
  [a(S,"fmt::Display for QuadraticSurd")])
p("ContinuedFraction::new keeps the value of finite fractions",
  "For a finite list of integer coefficients (zeros and negative ones allowed) whose nested fraction is defined, new(a,[],negate) returns a fraction with that value (negated when requested) and does not panic.",
  "all finite lists of integers and both values of negate",
  "rewriting of unbounded coefficient lists with zeros and sign changes in any position",
  [a(CF,"ContinuedFraction::new","FromIterator")])
p("ContinuedFraction::new is canonical",
  "new returns non-negative first coefficient, positive later coefficients, last coefficient at least 2 unless it is the only one and no sign on zero; hence two finite inputs of equal value give equal (==) fractions.",
  "all pairs of finite integer lists",
  "uniqueness over all pairs of representations",
  [a(CF,"ContinuedFraction::new","derive(PartialEq)")])
p("ContinuedFraction::new with a periodic part",
  "new(a,p,negate) with periodic part p returns a fraction denoting the number of the given infinite fraction.",
  "all coefficient lists a, p whose infinite fraction converges, both values of negate",
  "values of infinite fractions; sign bookkeeping across the aperiodic/periodic boundary",
  [a(CF,"ContinuedFraction::new")])
p("Rational to continued fraction and back",
  "From<Ratio>/From<T> give the canonical fraction of the rational, to_rational gives back exactly that rational, and is_integer/is_rational/to_integer answer correctly.",
  "all rationals",
  "round trip with an unbounded Euclidean loop",
  [a(CF,"From<Ratio<T>>","From<T>","to_rational","to_integer")])
p("Coefficient iterators agree",
  "coeffs_unsigned yields the aperiodic coefficients followed by the periodic part repeated forever; coeffs and generalized apply the sign; into_coeffs yields the same sequence as coeffs.",
  "all continued fractions and all positions in the sequence",
  "claims about every element of an infinite sequence",
  [a(CF,"Coefficients","SignedCoefficients","OwnedCoefficients","GeneralCoefficients")])
p("Convergents",
  "The n-th item of convergents() is the value of the fraction truncated after n+1 coefficients, it is in lowest terms, lies alternately below and above the value, differs from it by less than 1/q^2, the sequence converges to the value, and for a finite fraction the last item is the value.",
  "all well-formed continued fractions and all n",
  "statements about an unbounded sequence and its limit",
  [a(CF,"Convergents","convergents"),a(B,"Block::checked_rmove","Block::update")])
p("Convergents of fixed-width integers stop instead of being wrong",
  "With w-bit integers every item of convergents() is a true convergent and the iterator stops at the first one that does not fit.",
  "all widths, all continued fractions, all positions",
  "quantifies over all widths and all histories of next()",
  [a(CF,"Convergents::next"),a(B,"checked_rmove"),a(T,"to_signed")])
p("approximated() of a continued fraction",
  "approximated(limit) returns a convergent with denominator not above limit whose error is below 1/limit^2, and says Exact only if it equals the number.",
  "all well-formed continued fractions and all positive limits",
  "error bound of a loop over an unbounded sequence",
  [a(CF,"Computable::approximated"),a(T,"Computable")])
p("Negation and integer shift of continued fractions",
  "-c, c + k and c - k denote the exact result and are well-formed.",
  "all well-formed continued fractions and all integers k",
  "sign flips interact with the first and second coefficient and the periodic part",
  [a(CF,"Neg","Add<T>","Sub<T>")])
p("Rational arithmetic on continued fractions",
  "For rational fractions +,-,*,/ with integers, rationals and other rational fractions return the canonical fraction of the exact result.",
  "all rational continued fractions",
  "composition of two unbounded conversions",
  [a(CF,"Mul<T>","Div<T>","impl_binop_for_ratio_surd")])
p("Arithmetic on periodic continued fractions",
  "For periodic fractions +,-,*,/ return, without panicking or looping, a fraction denoting the exact result whenever that result is a quadratic number of the same field.",
  "all well-formed continued fractions",
  "termination and value over all pairs, including results that become rational",
  [a(CF,"Mul<T>","Div<T>","impl_binop_for_ratio_surd"),a(S,"TryFrom<QuadraticSurd<T>> for ContinuedFraction<U>")])
p("ContinuedFraction Display is faithful",
  "The printed text determines the fraction: distinct fractions print differently.",
  "all well-formed continued fractions",
  "injectivity over all values",
  [a(CF,"fmt::Display for ContinuedFraction")])
p("Surd to continued fraction keeps the number",
  "ContinuedFraction::try_from(x), when it returns, denotes x (irrational real x).",
  "all real irrational surds obtainable from the public API",
  "value of an infinite periodic fraction produced by a data-dependent loop",
  [a(S,"quadsurd_to_contfrac","TryFrom<QuadraticSurd<T>> for ContinuedFraction<U>")])
p("Surd to continued fraction always returns",
  "ContinuedFraction::try_from(x) terminates without panicking for every real surd x.",
  "all real surds obtainable from the public API",
  "termination of two data-dependent loops (Lagrange's theorem)",
  [a(S,"quadsurd_to_contfrac")])
p("Continued fraction to surd",
  "QuadraticSurd::from(c) returns the surd denoted by the fraction c, for every well-formed c.",
  "all well-formed continued fractions",
  "value of an infinite periodic fraction and panic freedom of the intermediate divisions",
  [a(S,"From<ContinuedFraction<T>> for QuadraticSurd<U>")])
p("Square roots round-trip through continued fractions",
  "For every non-square n >= 2 converting sqrt(n) to a continued fraction returns and the fraction converges to sqrt(n).",
  "all non-square n",
  "termination plus limit for infinitely many n",
  [a(S,"quadsurd_to_contfrac","from_sqrt")])
p("Homographic function of a continued fraction is exact",
  "The coefficients emitted by homo(a,b,c,d) expand (ax+b)/(cx+d): after any number of outputs the number equals the emitted prefix followed by the block applied to the rest of x; for non-negative a,b,c,d every output is the true integer part, so the output is the regular expansion.",
  "all coefficient streams, all a,b,c,d, all numbers of outputs",
  "every prefix of an infinite computation",
  [a(I,"homo","HomographicResult::next"),a(B,"Block::reduce_recip","Block::rmove","Block::check_integer")])
p("Homographic function is productive",
  "For irrational x > 0 given by its regular expansion and non-negative a,b,c,d with ad != bc, every call of next() on homo(a,b,c,d) returns the next coefficient after finitely many steps.",
  "all irrational x and all such a,b,c,d, all outputs",
  "termination of each call over all histories",
  [a(I,"HomographicResult::next")])
p("Bihomographic function",
  "bihomo(y; a..h) yields the expansion of (axy+bx+cy+d)/(exy+fx+gy+h) and does not panic.",
  "all pairs of coefficient streams and all a..h",
  "every prefix of an infinite computation on two streams",
  [a(I,"bihomo","BihomographicResult::next"),a(B,"DualBlock")])
p("Convergents of generalized continued fractions",
  "The n-th convergent of a generalized continued fraction equals the n-th nested fraction b1+a2/(b2+...+an/bn), in spite of the common factors removed on the way.",
  "all coefficient streams and all n",
  "the removed common factors depend on all earlier coefficients",
  [a(G,"Convergents::next"),a(B,"checked_gmove","gmove")])
p("simplify() of a generalized continued fraction",
  "simplify() emits coefficients that expand the same number; with positive coefficients every output is the true integer part.",
  "all positive coefficient streams and all numbers of outputs",
  "every prefix of an infinite computation",
  [a(G,"Simplified::next"),a(B,"gmove","reduce_recip")])
p("Decimal digits",
  "Every digit emitted by decimals() of a positive generalized fraction is the correct next decimal digit of the number.",
  "all positive coefficient streams of numbers below 10 and all positions",
  "every prefix of an infinite computation",
  [a(G,"DecimalDigits::next"),a(B,"reduce_mul","checked_gmove")])
p("exp(t) generalized fraction",
  "The n-th convergent of exp(t) is the Taylor partial sum of order n, so the convergents tend to e^t.",
  "all integers t and all n",
  "limit statement over an infinite sequence",
  [a(G,"exp","ExpCoefficients::next")])
p("Coefficients of e",
  "E.cfrac() yields 2 then 1,2k,1 for k=1,2,...; its convergents tend to e.",
  "all positions",
  "infinite sequence and its limit",
  [a(Y,"ECoefficients::next")])
p("Coefficients of pi",
  "Pi.gfrac() yields (1,0),(4,1),(k^2,2k+1)...; its convergents tend to pi, simplify() yields the regular coefficients of pi and decimals() its digits, without ever stalling for unbounded integers.",
  "all positions",
  "infinite sequence, its limit, and termination of every next()",
  [a(Y,"PiCoefficients::next"),a(G,"Simplified::next","DecimalDigits::next")])
p("Coefficients of gamma",
  "Gamma.gfrac() never panics and its to_integer() roundings are exact, i.e. the emitted pairs are the rational sequence (rho_n rho_{n-1} a_n, rho_n b_n) without loss.",
  "all positions",
  "integrality of an unbounded rational recurrence",
  [a(Y,"GammaCoefficients::next")])
p("QuadraticInt constructors",
  "QuadraticInt::new(a,b,r) denotes a+b*sqrt(r), from_coeffs((a,b),D) denotes a+b*omega_D, and they fail only as documented.",
  "all integers a,b,r",
  "depends on residue classes and squares",
  [a(Q,"QuadraticInt::new","QuadraticInt::from_coeffs","mod4d2")])
p("QuadraticInt ring operations are exact",
  "+,-,*,neg of quadratic integers, whenever they return, denote the exact result, also for compatible different bases.",
  "all pairs of quadratic integers obtainable from the public API",
  "all residues and factorisations of the discriminants",
  [a(Q,"Add","Sub","Mul","QuadraticOps::mul for QuadraticIntCoeffs","reduce_root_hinted")])
p("QuadraticInt division with remainder",
  "x/y rounds both coordinates of the exact quotient to the nearest integer (halves away from zero) and x = (x/y)*y + x%y.",
  "all pairs of quadratic integers obtainable from the public API with y != 0",
  "rounding law over all values and signs",
  [a(Q,"Div","Rem","div_rem","div_rem_round")])
p("Gaussian and Eisenstein integers are Euclidean",
  "For Gaussian integers (and D=-3) the remainder x%y has norm smaller than the norm of y, and x=(x/y)*y+x%y.",
  "all x and all non-zero y",
  "a bound over all pairs that makes the Euclidean algorithm terminate",
  [a(Q,"GaussianInt","div_rem")])
p("Conjugate and norm of quadratic integers",
  "norm(x) = x*conj(x), the norm is multiplicative and conj is an involution.",
  "all quadratic integers",
  "algebraic law over all values",
  [a(Q,"conj","norm","norm_ref")])
p("QuadraticInt equality is numeric equality",
  "x == y iff they are the same number.",
  "all pairs of quadratic integers obtainable from the public API",
  "coincidences between different discriminants",
  [a(Q,"PartialEq for QuadraticInt")])
p("Nearest-integer division",
  "The rounding division used by quadratic integers returns q,r with x=q*y+r, |r| <= |y|/2, ties away from zero.",
  "all integers x and y != 0",
  "all residues and signs",
  [a(Q,"div_rem_round","Div<T> for QuadraticIntCoeffs","Rem<T> for QuadraticIntCoeffs")])
p("QuadraticInt is_pure / is_rational",
  "is_rational iff the number is rational; is_pure iff the number is a multiple of sqrt(D).",
  "all quadratic integers obtainable from the public API",
  "if-and-only-if over all values",
  [a(Q,"is_pure","is_rational")])
p("Primitive conversions of surds",
  "from_i64/from_u64 then to_i64/to_u64 round-trip when in range; to_i64/to_u64 return Some(v) only if the surd is exactly v.",
  "all surds and all integers",
  "range conditions over all values",
  [a(S,"FromPrimitive","ToPrimitive")])
p("Zero and one of continued fractions",
  "zero() is 0, one() is 1; is_zero holds iff the fraction denotes 0 and is_one iff it denotes 1.",
  "all fractions in standard form",
  "if-and-only-if over all values",
  [a(CF,"Zero for ContinuedFraction","One for ContinuedFraction")])
p("approximated() of a surd",
  "approximated(limit) of a real surd returns a rational with denominator not above limit whose error is below 1/limit^2, and says Exact only if it equals the number.",
  "all real surds and all positive limits",
  "conversion loop followed by a loop over an unbounded sequence",
  [a(S,"Computable for QuadraticSurd"), a("src/traits.rs","Computable")])
p("generalize() keeps the number",
  "generalize() of a regular continued fraction yields the generalized fraction with pairs (1, c_k), which has the same convergents and denotes the same number.",
  "all sequences of coefficients",
  "a law over all infinite sequences",
  [a("src/cont_frac/infinite.rs","generalize")])
p("approximated() of a generalized continued fraction",
  "approximated(limit) of a generalized fraction returns a convergent with denominator not above limit whose error is below 1/limit^2, says Exact only if it is the number itself, and does not panic.",
  "all convergent generalized fractions and all positive limits",
  "a loop over an unbounded sequence with reductions",
  [a("src/cont_frac/general.rs","Computable::approximated"), a("src/traits.rs","Computable")])
p("decimals() stops at the capacity of the integer type",
  "On a fixed-width integer type decimals() emits only correct digits, and ends without panic when the capacity is reached.",
  "all positive generalized fractions, all widths, both overflow check settings",
  "needs the arithmetic of every width on every stream",
  [a("src/cont_frac/general.rs","DecimalDigits","decimals")])
p("Surds over fixed-width integers with overflow checks",
  "For T = i8 ... i128 built with overflow checks, every constructor and operation of QuadraticSurd either panics with an overflow or does exactly what it does over BigInt; with or without checks every stored coefficient is a value of T.",
  "all widths, all operands representable in the type",
  "every intermediate product of every operation on every width",
  [a(S,"reduce","new","from_coeffs","from_rationals","recip","floor","trunc","Add","Sub","Mul","Div","reduce_root_hinted","reduce_bin_op")])
p("Overflow-free operand ranges",
  "If all coefficients and the root are at most B in absolute value, then new does not overflow when 2B^2 fits, + - * when 4B^4 fits, / when 4B^10 fits, recip when 4B^6 fits, floor when 5B^3 fits, == when B^5 fits, and the result is the exact one in debug and release builds.",
  "all widths and all operands in the range",
  "a quantitative bound over all operands and all intermediate results",
  [a(S,"reduce","new","recip","floor","Add","Sub","Mul","Div","PartialEq")])
p("No silent wrong numbers in release builds",
  "Without overflow checks a surd constructor whose arguments and exact result are representable returns the exact result.",
  "all widths and all representable arguments whose exact result is representable",
  "wrap-around of intermediate values for rare arguments",
  [a(S,"reduce","new")])
p("Quadratic and Gaussian integers over fixed-width integers with overflow checks",
  "For T = i8 ... i128 built with overflow checks, every constructor and operation of QuadraticInt and GaussianInt either panics with an overflow or does exactly what it does over BigInt; with or without checks every stored coefficient is a value of T.",
  "all widths, all operands representable in the type",
  "every intermediate product of every operation on every width",
  [a("src/quadratic/integer.rs","new","from_coeffs","norm","conj","Add","Sub","Mul","Div","Rem","PartialEq","reduce_bin_op","reduce_root_hinted","GaussianInt"), a(S,"to_gaussint","to_quadint")])
p("Overflow-free ranges of quadratic and Gaussian integers",
  "If all fields are at most B in absolute value and the discriminants agree (or an operand is rational), QuadraticInt + and - are exact when 4B^2 fits the type, * when 6B^4 fits, / when 20B^5 fits, % when 40B^6 fits, norm when 5B^3 fits, == when 4B^3 fits; GaussianInt + and - when 2B fits, * and norm when 2B^2 fits, / and % when 4B^3 fits; in debug and release builds.",
  "all widths and all operands in the range",
  "a quantitative bound over all operands and all intermediate results",
  [a("src/quadratic/integer.rs","new","norm","Add","Sub","Mul","Div","Rem","PartialEq","GaussianInt")])
p("No silent wrong quadratic integers in release builds",
  "Without overflow checks an operation of QuadraticInt or GaussianInt whose operands and exact result are representable returns the exact result.",
  "all widths and all representable operands whose exact result is representable",
  "wrap-around of intermediate values for rare operands",
  [a("src/quadratic/integer.rs","norm","Add","Sub","Mul","Div","Rem","PartialEq","GaussianInt")])
p("Continued fractions over primitive integers: new",
  "For coefficients of a primitive integer type, ContinuedFraction::new with overflow checks either panics with an overflow or gives what it gives over BigInt; the stored coefficients fit; it is exact in both kinds of build when the sum of the absolute values of the aperiodic coefficients fits the type.",
  "all widths, signed and unsigned, all coefficient lists and both sign flags",
  "overflow depends on sums formed inside the rewriting loop, for every width",
  [a(CF,"ContinuedFraction::new"), a("src/traits.rs","impl_primitive_sign")])
p("Continued fractions over primitive integers: conversions in",
  "From<T> and From<Ratio<T>> are exact for every representable integer and ratio, in both kinds of build.",
  "all widths, all representable integers and ratios",
  "the exceptions are single values at the end of the range of each width",
  [a(CF,"From<T>","From<Ratio<T>>")])
p("Continued fractions over primitive integers: integer shifts",
  "Add<T> and Sub<T> with overflow checks either panic with an overflow or give what they give over BigInt; the stored coefficients fit; both are exact in both kinds of build whenever the sum of the coefficients and the integer fits the signed type.",
  "all widths, all fractions whose coefficients fit, all integers of the type",
  "the casts between the unsigned and the signed type are silent even with overflow checks",
  [a(CF,"Add<T>","Sub<T>","ContinuedFraction::new"), a("src/traits.rs","impl_primitive_sign")])
p("Continued fractions over primitive integers: coefficient iterators",
  "coeffs, generalized and into_coeffs yield at every index what they yield over BigInt.",
  "all widths, all fractions whose coefficients fit, all indices",
  "coefficients in the upper half of the unsigned range, for every width",
  [a(CF,"SignedCoefficients","OwnedCoefficients","GeneralCoefficients")])
p("Continued fractions over primitive integers: conversions out",
  "convergents, to_integer and to_rational give the exact number (marked as exact only if it is) whenever it is representable, and never a wrong number.",
  "all widths, all fractions whose coefficients fit, all indices",
  "overflow in the recurrence, in the casts and inside Ratio::new, for every width",
  [a(CF,"Convergents","to_integer","to_rational"), a("src/traits.rs","impl_primitive_sign")])
p("Generalized fractions over primitive integers keep representable state",
  "Over a primitive integer type every call of next on the convergents or on the decimals of a generalized fraction leaves the four integers of its state in the range of the type, whether or not it yields something; for non-negative pairs the numerator and the denominator of every yielded convergent, also after an overflow, are in the range of the type.",
  "all widths, signed and unsigned, all pair sequences, all calls",
  "the checked operations fail at a different step for each width and pair sequence",
  [a("src/cont_frac/general.rs","GeneralContinuedFraction","Convergents","DecimalDigits"), a("src/cont_frac/block.rs","checked_gmove","reduce_mul")])
p("Surd to continued fraction over primitive integers: never a wrong fraction",
  "Over a primitive integer type the conversion of a surd to a continued fraction either panics with an overflow or gives exactly what it gives over BigInt, in both kinds of build; its coefficients always fit the unsigned type.",
  "all widths, both kinds of build, all normal surds, all step budgets",
  "needs every width and every surd; overflow may occur at any step of a period whose length is unbounded",
  [a(S,"quadsurd_to_contfrac","TryFrom<QuadraticSurd<T>> for ContinuedFraction"), a(CF,"ContinuedFraction::new")])
p("Surd to continued fraction over primitive integers: range without overflow",
  "If 13 d + 2 p^2 fits the signed type, where (p+sqrt d)/q is the form the number is brought to first, the whole conversion runs without overflow and is exact; in particular when all four integers are at most B and 15 B^5 fits.",
  "all widths, both kinds of build, all irrational real surds in the range, all step budgets",
  "a bound that holds at every step of a period of unbounded length, for every width",
  [a(S,"quadsurd_to_contfrac","is_reduced","rho","TryFrom<QuadraticSurd<T>> for ContinuedFraction")])
p("Continued fraction to surd over primitive integers",
  "Over a primitive integer type the conversion of a continued fraction to a surd either panics with an overflow or gives the surd it gives over BigInt; it is exact in both kinds of build for a finite fraction whose value fits the type, and for one coefficient a before a period of continuant K if 16 K^4 and (14 + 4a) K^2 fit the type.",
  "all widths, both kinds of build, all fractions whose coefficients fit",
  "the coefficients are multiplied up in the unsigned type and cast silently to the signed one; for every width",
  [a(S,"TryFrom<ContinuedFraction<U>> for QuadraticSurd","from_equation"), a(CF,"ContinuedFraction"), a("src/traits.rs","impl_primitive_sign")])
p("Arithmetic of continued fractions over primitive integers",
  "Over a primitive integer type *, / with an integer, and +, -, *, / with a ratio or another continued fraction either panic with an overflow or give the fraction they give over BigInt, whose coefficients fit; they are exact in both kinds of build for finite fractions whose values have parts of at most B if 2B^2 fits the type.",
  "all widths, both kinds of build, all operators, all fractions whose coefficients fit",
  "overflow or a silent cast anywhere in three conversions and an operation between them, for every width",
  [a(CF,"Mul<T>","Div<T>","Add<Ratio<T>>","Sub<Ratio<T>>","Mul<Ratio<T>>","Div<Ratio<T>>","Add","Sub","Mul","Div")])
p("Square roots over primitive integers",
  "Over a primitive integer type from_sqrt of a ratio or surd never panics and gives what it gives over BigInt: a representable surd that squares to the argument, or an error that is right (Complex only for negative numbers, Overflow only if numerator*denominator does not fit, Unrepresentable only if no surd squares to the argument).",
  "all widths, both kinds of build, all ratios and all normal surds whose integers fit",
  "a chain of about fifty machine operations of which any may overflow, for every width and every argument",
  [a(S,"FromSqrt<Ratio<T>>","FromSqrt<QuadraticSurd<T>>","from_sqrt","from_rationals")])
p("reduced over primitive integers",
  "Over a primitive integer type reduced() terminates without a panic on every irrational surd whose reduced form is representable, keeps the value and leaves a root that is not divisible by the square of a small prime whose square fits.",
  "all widths, both kinds of build, all normal surds whose integers fit",
  "needs every width and every surd; the overflow depends on the square part of the root and on the other coefficient",
  [a(S,"reduced","reduce_root","reduce")])
p("Conversion of surds to floating point numbers",
  "to_f64 is None exactly for a negative root and otherwise a finite float that is near the value (relative error at most 2^-50) with the right sign; small rationals are rounded to the nearest float; to_complex64 does the same for the real and the imaginary part, and gives 0 for the imaginary part of a real surd.",
  "all surds, over primitive integers and BigInt",
  "the error depends on the cancellation between the two terms of the numerator and on the size of the integers; tests look at four constants",
  [a(S,"to_f64","to_complex64")])
p("Floating point constants and from_f64",
  "E::value() and Pi::value() are the floats nearest to e and pi; from_f64 returns exactly the fraction that Ratio::from_f64 finds and None only if there is none or it does not fit.",
  "all floats m*2^e as competitors; all fractions and integer types",
  "nearness to a transcendental number among all floats is a statement about real numbers",
  [a(Y,"value"), a(S,"from_f64")])
p("homo and bihomo over primitive integers",
  "Over a primitive integer type the result of homo emits only coefficients of the regular expansion of (ax+b)/(cx+d), in both kinds of build, and panics only if a convergent is not representable; bihomo does what it does over BigInt or panics.",
  "all widths, signed and unsigned, both kinds of build, all input sequences and all step budgets",
  "needs every width and every sequence of coefficients; the block grows without bound between two outputs",
  [a(I,"homo","bihomo","HomographicResult","BihomographicResult"), a(B,"rmove","check_integer","reduce_recip","rmove_right","rmove_down")])
p("simplify over primitive integers",
  "Over a primitive integer type simplify of a generalized fraction with positive pairs emits only coefficients of the regular expansion of its value, in both kinds of build, and panics only if a convergent is not representable.",
  "all widths, signed and unsigned, both kinds of build, all sequences of pairs and all step budgets",
  "needs every width and every sequence of pairs",
  [a(G,"simplify","Simplified"), a(B,"gmove","reduce_recip")])
p("Coefficients of e, pi and exp over primitive integers",
  "Over a primitive integer type the iterators of e, pi and exp(x) yield their exact items, in both kinds of build, and panic only if an item is not representable.",
  "all widths, signed and unsigned, both kinds of build, all item numbers, all exponents",
  "the counters overflow after about 3*2^(w-2) items; tests look at ten",
  [a(Y,"ECoefficients","PiCoefficients","cfrac","gfrac"), a(G,"ExpCoefficients","exp")])
p("Coefficients of Euler's constant over primitive integers",
  "Over a signed primitive integer type the iterator of gamma yields exactly the pairs of the cited paper, in both kinds of build, and panics only if a pair is not representable.",
  "all widths, both kinds of build, all item numbers",
  "each item is a chain of about sixty machine operations on ratios; tests look at six items over i32",
  [a(Y,"GammaCoefficients","gfrac")])
p("Regular expansions of pi and of homographic functions of e over primitive integers",
  "Pi.gfrac().simplify() and E.cfrac().homo(a,b,c,d) over a primitive integer type emit only coefficients of the regular expansions of pi and (ae+b)/(ce+d), in both kinds of build; for pi the number of coefficients is 1, 2, 4, 21, 45 for 8, 16, 32, 64, 128 bits.",
  "all widths, signed and unsigned, both kinds of build, all non-negative a, b, c, d",
  "that the coefficients belong to pi or e is a statement about real numbers",
  [a(Y,"PiCoefficients","ECoefficients"), a(G,"Simplified"), a(I,"HomographicResult")])
p("Continued fractions of surds are written in the shortest way",
  "TryFrom<QuadraticSurd> for ContinuedFraction writes its result with the fewest coefficients before the period and the shortest period; so surds that denote the same number are converted to equal fractions.",
  "all real irrational surds, however they are written",
  "minimality speaks about all other ways of writing the same infinite sequence of coefficients",
  [a(S,"quadsurd_to_contfrac"), a(CF,"new")])
p("Equality of continued fractions is numeric equality",
  "ContinuedFraction == is an equivalence relation, and two fractions are equal exactly if they have the same value.",
  "all pairs of well-formed fractions, finite or periodic",
  "the values of periodic fractions are limits; distinct lists can denote the same sequence",
  [a(CF,"ContinuedFraction","new")])
p("Surds round-trip through continued fractions",
  "Converting a real irrational surd to a continued fraction and back returns a surd of the same value, and converting a periodic fraction to a surd and back returns the same fraction.",
  "all real irrational surds and all well-formed periodic fractions",
  "both directions are loops over an unbounded number of coefficients; tests look at a few square roots",
  [a(S,"quadsurd_to_contfrac"), a(CF,"try_from","to_surd")])
p("Laws of arithmetic of surds",
  "Addition and multiplication of surds are commutative and associative and multiplication distributes over addition, up to == and including whether the operation panics; x - x and x + (-x) are zero, x / x is one for x other than zero.",
  "all surds, with and without the complex feature",
  "needs all triples of surds with all combinations of roots",
  [a(S,"add","sub","mul","div","eq")])
p("Laws of arithmetic of quadratic and Gaussian integers",
  "QuadraticInt and GaussianInt satisfy the laws of a commutative ring up to ==, including whether the operation panics; x - x is zero, and (x * y) / y is x for y other than zero.",
  "all quadratic and Gaussian integers, with and without the complex feature",
  "needs all triples of numbers with all combinations of discriminants",
  [a(Q,"add","sub","mul","div","eq")])
p("Conversion of surds to single precision complex numbers",
  "to_complex32 never gives None, and the two parts are the f32 nearest to the two parts of the number, or an infinity of the right sign if they are beyond the range; Gaussian integers of 24 bits are exact.",
  "all surds over primitive integers",
  "two roundings follow each other, and only few numbers show the difference to one rounding",
  [a(S,"to_complex32")])
p("Laws of arithmetic of continued fractions",
  "Addition and multiplication of continued fractions are commutative and associative, multiplication distributes over addition, x - y is x + (-y), x - x is zero, x / x is one for x other than zero, and (x + y) - y and (x * y) / y are x; all with equality of the stored fractions and including whether the operation panics.",
  "all triples of well-formed fractions, rational or periodic",
  "the operations convert periodic fractions to surds and back by loops of unbounded length; needs all triples",
  [a(CF,"add","sub","mul","div","neg"), a(S,"quadsurd_to_contfrac")])
p("Value of Euler's constant",
  "Gamma.gfrac() represents Euler's constant: every nested fraction of its pairs is defined, convergents() tends to Euler's constant, simplify() yields its regular continued fraction and decimals() its decimal digits.",
  "all positions of the streams",
  "the pairs are defined by a recursion with rational intermediate values; the limit is about infinitely many items",
  [a(Y,"GammaCoefficients","gfrac"), a(G,"convergents","simplify","decimals")])
p("Regular coefficients and digits of exp(t)",
  "For every integer t, exp(t).simplify() yields the coefficients of the regular continued fraction of e^t and ends where that ends, and exp(t).decimals() yields the decimal digits of e^t.",
  "all integers t and all positions of the streams",
  "infinitely many exponents, and errors appear only after many items (the 13th digit of e)",
  [a(G,"exp","ExpCoefficients","simplify","decimals")])
p("Moves and digits of the block",
  "Block::new, identity, rmove and gmove compute the substitution of the next quotient, gmove cancels every common factor, the checked moves succeed exactly when all products and sums are representable and otherwise leave the block unchanged, and reduce_recip and reduce_mul give a digit exactly when it is the value (rounded towards zero) for every non-negative argument, and then continue with 1/(f-i) and base*(f-i).",
  "all blocks, all quotients, all bases, all arguments",
  "a property of a real function on an unbounded interval for every matrix; the tests use five matrices",
  [a(B,"Block","rmove","gmove","checked_rmove","checked_gmove","reduce_recip","reduce_mul","check_integer")])
p("Square roots and conversions of primitive surds",
  "QuadraticSurd::from_sqrt of a primitive integer is its square root in every kind of build, and to_i64 and to_u64 of a surd over a primitive type return Some(v) exactly when the surd is the number v in range, and None otherwise, without panicking.",
  "all widths, all integers, all valid surds, both kinds of build",
  "overflow of an intermediate product for operands that themselves fit",
  [a(S,"from_sqrt","to_i64","to_u64","trunc","is_integer")])
p("Rebuilding a continued fraction from its coefficients",
  "ContinuedFraction::new of the aperiodic and the periodic coefficients and the sign of a fraction in standard form is that fraction; collecting the coefficients of a finite fraction gives it back exactly when it is canonical; and collecting those of a periodic one never ends.",
  "all continued fractions, finite and periodic",
  "the periodic part can be rotated or shortened in unboundedly many ways",
  [a(CF,"new","aperiodic_coeffs","periodic_coeffs","is_negative","coeffs","from_iter")])
p("Zero and One are neutral",
  "For surds and for quadratic integers x+0, 0+x, x*1 and 1*x return a value equal to x, and is_zero and is_one recognise exactly the numbers 0 and 1.",
  "all valid values, with and without the feature complex",
  "the neutral element is stored with radicand 0, so each law mixes two fields",
  [a(S,"zero","one","is_zero","add","mul"),a(Q,"zero","one","is_zero","add","mul")])
p("Rational approximations over primitive integers",
  "approximated of a continued fraction or a surd over a primitive integer type returns the same answer as over arbitrary-precision integers: a convergent with a denominator of at most the limit, marked as exact exactly if it is the number.",
  "all widths, all fractions and valid surds, all limits, both kinds of build",
  "the convergent that is read and dropped can overflow although the answer itself fits",
  [a(CF,"approximated","next"),a(S,"approximated")])
p("Best approximations",
  "Every convergent p/q of a continued fraction minimises |q*x-p| among all fractions with a denominator below that of the next convergent, so approximated of a fraction or a surd returns the fraction that does so among all denominators below the limit.",
  "all continued fractions with a value, all surds for which the conversion returns, all limits >= 1",
  "a statement about infinitely many competing fractions for every number and every limit",
  [a(CF,"approximated","convergents","next"),a(S,"approximated")])
p("Good approximations are convergents",
  "Every fraction p/q that differs from the value of a continued fraction by less than 1/(2q^2) is among the items of convergents().",
  "all continued fractions with a value, all fractions p/q",
  "unboundedly many fractions and an unbounded iterator",
  [a(CF,"convergents","next")])
p("Shape of square roots",
  "The conversion of b*sqrt(r)/c always ends and gives one coefficient a0 before the period, or 0, a0 for numbers below one; the period is a palindrome followed by 2*a0, where a0 is the integer part of the absolute value or of its reciprocal.",
  "all real irrational surds with a = 0",
  "infinitely many radicands with periods of unbounded length",
  [a(S,"quadsurd_to_contfrac","try_from")])
p("Pell's equation",
  "The n-th convergent p/q of the fraction computed for sqrt(N) satisfies |p^2-N*q^2| = 1 exactly if the length of the period divides n+1, then with the sign (-1)^(n+1); all positive solutions of this equation are such convergents; -1 is attained exactly if the period has odd length.",
  "all surds with the value sqrt(N), all N, all indices, all solutions",
  "infinitely many radicands, convergents and solutions; the smallest solutions are often enormous",
  [a(CF,"convergents","next"),a(S,"quadsurd_to_contfrac","try_from")])
p("Number of coefficients and convergents",
  "The n-th convergent has a denominator of at least the Fibonacci number n+1, which is attained; From<Ratio> finds n coefficients only for denominators of at least the Fibonacci number n+1; approximated returns after at most k rounds if the limit is at most the Fibonacci number k+1, so after at most 93 for 64-bit limits.",
  "all continued fractions, all rationals, all limits >= 1",
  "a bound on the running time over all inputs; the worst cases are the Fibonacci quotients",
  [a(CF,"convergents","next","from","approximated")])
p("Length of the period and number of rounds",
  "The period of the fraction computed for a surd has at most R(R+1) coefficients, where R is the integer part of the root of the radicand it works with; numbers with a conjugate of opposite sign are converted within max(2, R(R+1)) rounds of either loop. In general, if the denominator c is below 2^n, the first loop takes at most 2n+5 rounds and the second at most R(R+1), or the conversion never ends; at most 4n+10 coefficients precede the period.",
  "all real irrational surds for which the conversion returns",
  "periods are of unbounded and irregular length",
  [a(S,"quadsurd_to_contfrac","try_from")])
p("Fractions built by programs are well-formed",
  "Every continued fraction that any sequence of calls of the public interface builds has a first coefficient, positive coefficients after it, exactly one value, is canonical if finite, and can be printed, converted and used in operations; the operations panic only on division by zero, rational results of periodic operands and incompatible roots.",
  "all sequences of constructors, conversions and operations with arbitrary arguments",
  "unboundedly long sequences of operations over unbounded numbers",
  [a(CF,"new","add","sub","mul","div","neg","from"),a(S,"quadsurd_to_contfrac","try_from")])
p("Purely periodic fractions (Galois)",
  "A periodic fraction is periodic from its first coefficient on exactly when its value is greater than 1 and the conjugate of its value lies between -1 and 0; the fraction with the period read backwards has the value -1/conjugate; and surds of this kind are converted to a fraction with their integer part before the period and again at the end of it.",
  "all periodic fractions and all reduced surds",
  "unbounded numbers and periods, a statement about limits",
  [a(S,"quadsurd_to_contfrac","from"),a(CF,"ContinuedFraction")])
p("Conversions to and from the other primitive types",
  "The integer conversions provided by ToPrimitive and FromPrimitive (8 to 128 bits) return Some(v) exactly if the surd is the integer v and v fits the type; to_f32 returns the nearest f32 of every real surd and None for the others.",
  "all surds, all primitive integer types, all integers",
  "unbounded integers and all floats as competitors",
  [a(S,"to_i64","to_u64","to_f64","from_i64","from_u64")])
p("Small norms are found among the convergents of square roots",
  "If p, q are positive and |p^2 - N q^2| < sqrt(N), then p/q is one of the convergents of the fraction computed for sqrt(N); the values p^2 - N q^2 of its convergents are never 0 and below 2 sqrt(N); and a number below sqrt(N) is p^2 - N q^2 for coprime p, q exactly if one of the convergents of the first two periods has this value.",
  "all non-square N, all integers p, q",
  "unbounded integers; every fraction as competitor",
  [a(S,"to_contfrac"),a(CF,"convergents")])
p("Homographic functions of quadratic numbers agree with surd arithmetic",
  "For a quadratic number x > 0 given by a periodic fraction and non-negative p, q, k, d with pd != qk, coeffs().homo(p,q,k,d) yields, call by call, exactly the coefficients of the periodic fraction of (px+q)/(kx+d); in particular those of the fraction which to_contfrac computes for the surd (x*p+q)/(x*k+d).",
  "all periodic fractions, all non-negative p, q, k, d, all numbers of calls",
  "infinitely many outputs, unbounded coefficients, two independent algorithms",
  [a(I,"homo"),a(S,"to_contfrac")])
p("Homographic functions of finite continued fractions",
  "For a finite continued fraction l of non-negative coefficients and non-negative p, q, k, d, the iterator homo(p,q,k,d) yields the coefficients of (px+q)/(kx+d), x the value of l, and then ends.",
  "all finite lists of coefficients, all non-negative p, q, k, d",
  "unbounded lengths and coefficients; the library's tests only take the first outputs of infinite sources",
  [a(B,"check_integer"),a(I,"homo")])
p("simplify and decimals of finite generalized continued fractions",
  "For a positive generalized continued fraction with finitely many pairs, simplify() yields the regular coefficients of its value, decimals() the decimal digits of its value (below ten), as far as they are determined, and then both end.",
  "all finite positive sequences of pairs, unbounded integers",
  "unbounded numbers of pairs and of outputs; the library's tests only use infinite sources",
  [a(G,"Simplified"),a(G,"DecimalDigits")])
p("Equivalent numbers have the same continued fraction in the end",
  "Two irrational numbers whose regular continued fractions agree from some place on are exactly those related by (ax+b)/(cx+d) with ad-bc = 1 or -1 (Serret). Hence a homographic function of determinant 1 or -1 changes only a beginning of the coefficients, and fractions computed from surds related by such a function (integer shift, negation, inversion) have the same period up to rotation; conjugate numbers have reversed periods.",
  "all irrational numbers, all homographic functions with non-negative entries, all surds and periodic fractions",
  "a statement about infinitely many coefficients and all pairs of numbers; tests compare a few expansions",
  [a(I,"HomographicResult"),a(S,"From")])
p("Homographic functions compose",
  "Feeding the output of homo(a,b,c,d) into homo(a',b',c',d') yields the same coefficients as the single function with the product matrix.",
  "all positive irrational sources, all non-negative entries with non-zero determinants, any number of outputs",
  "infinitely many outputs and unbounded entries",
  [a(I,"homo"),a(B,"Block")])
p("Laws of arithmetic of quadratic and Gaussian integers over primitive integers",
  "Without overflow checks, addition, subtraction, negation and multiplication of quadratic integers with one discriminant, and of Gaussian integers, always return the exact result with both coefficients reduced modulo 2^w. Hence the laws of a commutative ring hold for the coefficients whatever overflows, the norm is multiplicative and the conjugation a homomorphism. With overflow checks they hold whenever both sides return. For QuadraticInt they hold only for the coefficients: a zero result of an overflow may be stored with the discriminant or without, and == tells the two apart.",
  "every width of at least 3 bits, every discriminant, all representable operands, with and without checks",
  "the laws must hold for all triples, in particular for those that overflow",
  [a(Q,"QuadraticInt"),a(Q,"GaussianInt")])
p("Laws of arithmetic of surds over primitive integers",
  "Over a primitive integer type, x + y and y + x are the same run, and so are x * y and y * x: the same fields or the same panic, in every build. x - x returns zero in every build. (x + y) + z equals x + (y + z), (x * y) * z equals x * (y * z) and x * (y + z) equals x * y + x * z for real numbers whenever every step returns.",
  "every width, every build, all representable operands in normal form",
  "the laws must hold for all triples, in particular for those where an intermediate product overflows and where the panics come in another order",
  [a(S,"Add"),a(S,"Sub"),a(S,"Mul"),a(S,"reduce_bin_op")])
p("Commutativity of quadratic and Gaussian integers over primitive integers, panics included",
  "Over a primitive integer type, x + y and y + x are the same run, and so are x * y and y * x: the same fields or the same panic, in every build.",
  "every width, every build, all operands in the stored form",
  "one order may panic on an intermediate sum where the other returns; a test has to hit an operand pair at the edge of the type in both orders",
  [a(Q,"QuadraticInt"),a(Q,"GaussianInt"),a(Q,"reduce_bin_op")])
p("Commutativity of continued fractions over primitive integers",
  "Over a primitive integer type, c + e and e + c return the same fraction, or both panic, and the same holds for c * e and e * c. A surd that is a rational number is never converted to a continued fraction, whatever wraps around on the way: the conversion panics.",
  "every width of at least two bits, every build, all pairs of fractions; if exactly one is finite that one must be readable in the type",
  "the two orders take different branches of the operator (ratio arithmetic, surd arithmetic with the number on the left or on the right), and wrapped intermediate values differ between the branches; a test covers a few pairs of one width",
  [a(CF,"Add","Mul"),a(S,"quadsurd_to_contfrac","Add","Mul")])
p("A quotient is the product with the reciprocal, a difference is the sum with the negative",
  "x / y and x * y.recip() are the same number or both panic; x - y and x + (-y) are the same or both panic, over unbounded and over primitive integers.",
  "all normalised surds and all well-formed fractions, every width, with and without overflow checks",
  "the two forms take different branches, and panics and overflows sit at different intermediate values; a test compares a few pairs that return in both forms",
  [a(S,"recip","Div","Mul","Sub","Add","Neg"),a(CF,"Sub","Add","Neg")])
p("Whole calculations with surds",
  "A formula built from surds with negation, reciprocal and the four operations, calculated step by step, returns the number it denotes; two calculations of the same number compare equal; with one root throughout the calculation returns unless something is divided by zero.",
  "all formulas of any size over all integer coefficients; all widths with overflow checks",
  "single operations are tested on a few operands; what a calculation stores after many steps, and whether two different calculations of one number end in the same fields, is not reachable by samples",
  [a(S,"new","recip","Add","Sub","Mul","Div","Neg","PartialEq")])
p("Whole calculations with finite continued fractions",
  "A formula of rational numbers calculated with continued fractions returns the canonical fraction of the number it denotes, or panics with a division by zero; over primitive integers with checks it does the same or overflows, so any identity between rationals holds of the fractions returned.",
  "all formulas of any size over all rationals; every width",
  "tests try single operations on a few short fractions",
  [a(CF,"From","Add","Sub","Mul","Div","Neg")])
p("Whole calculations with quadratic and Gaussian integers",
  "A formula built from numbers a + b*sqrt(r) over one root with negation, conjugation, sum, difference and product, calculated with QuadraticInt (or GaussianInt) step by step, returns the number it denotes, and two calculations of one number return the same fields.",
  "all formulas of any size, all integers a and b, all roots; all widths with overflow checks",
  "tests try single operations on a few numbers",
  [a(Q,"new","conj","Neg","Add","Sub","Mul","GaussianInt")])
p("Euclid's algorithm with the remainders of the library",
  "The loop (a, b) = (b, a % b) until b is zero ends and leaves a greatest common divisor, for GaussianInt and for QuadraticInt over the discriminants for which the division is Euclidean.",
  "all numbers; all widths with overflow checks; all numbers in a stated range without",
  "termination and the value of the result need all remainders at once; each remainder alone looks plausible",
  [a(Q,"Rem","GaussianInt","is_zero","div_rem")])
p("Negative generalized fractions and the digits of periodic fractions",
  "Turning every second entry of each pair negative negates every coefficient of simplify and every convergent, call by call, with the same panics and the same calls that never return. For a periodic fraction generalized().simplify() gives coeffs() back and generalized().decimals() prints its decimal digits, hence the digits of a surd.",
  "all streams of pairs; all canonical periodic fractions of either sign; any number of calls",
  "negative streams and digits of surds through generalized() are not tested at all, and never beyond finitely many calls",
  [a(G,"Convergents","Simplified","DecimalDigits"),a(CF,"generalized"),a(S,"QuadraticSurd")])
p("Whole calculations with periodic continued fractions",
  "A formula built from continued fractions, finite or periodic, with negation, operations with numbers and the four operations, calculated step by step, returns a fraction of the number it denotes; two calculations of the same number return the same fraction.",
  "all formulas of any size over all well-formed fractions",
  "tests try single operations on a few square roots; errors that build up over several steps and results with other signs are out of their reach",
  [a(CF,"Add","Sub","Mul","Div","Neg","From"),a(S,"QuadraticSurd")])
p("Surds and quadratic integers calculate alike",
  "A formula in numbers a + b*sqrt(r) with sums, differences, products and conjugates gives the same number whether it is calculated with QuadraticSurd or with QuadraticInt; the surd has denominator 1 and to_quadint turns it into that very quadratic integer. For r = -1 the same holds of GaussianInt and to_gaussint.",
  "all formulas of any size, all non-square roots, both builds, arbitrary precision and primitive integers of any width",
  "the two types are tested apart; no test runs the same calculation on both",
  [a(S,"to_quadint","to_gaussint","Add","Sub","Mul","conj"),a(Q,"new","Add","Sub","Mul","conj")])
p("Laws of rounding",
  "floor, trunc and fract are functions of the number, not of how it is stored. floor keeps the order and moves with integers; trunc and fract commute with negation; rounding twice is rounding once, fract(fract(x)) = fract(x) and trunc(fract(x)) = 0; trunc and floor agree on positive numbers, whose fract is not negative.",
  "all real surds",
  "tests round single surds; no test compares two stored forms of one number or applies two rounding functions in a row",
  [a(S,"floor","trunc","fract","neg")])
p("Functions of the number and functions of the stored form",
  "Two surds that hold the same number are interchangeable: the sign tests, floor, trunc, the tests for rational numbers and integers, and the conversions to rationals, quadratic integers and continued fractions give the same on both.",
  "all pairs of real surds with the same value",
  "tests use one stored form of each number; equal surds with different roots are never passed to the same function and compared",
  [a(S,"eq","floor","trunc","is_positive","to_rational","to_quadint","to_contfrac")])
p("Programs with variables, branches and loops",
  "A program that computes with surds - with variables, arithmetic, integer and rational operands, floor, branches and loops that ask for signs, zero, one, rationality, integrality and equality - does what it would do with real numbers: it takes the same branches, runs its loops equally often, ends exactly if it would end, panics only where real numbers would fail, and leaves the same numbers in all variables.",
  "all programs, all starting states, executions of any length",
  "tests run single operations; a control-flow decision taken on a computed surd, or a loop over surds, is never run",
  [a(S,"new","add","sub","mul","div","recip","floor","is_positive","is_negative","eq","is_rational","is_integer")])
p("Expanding a surd by hand (Lagrange's theorem)",
  "Repeating (x - x.floor()).recip() on an irrational real surd never panics and computes the complete quotients of the number; their floors are the coefficients of its regular continued fraction; after finitely many steps it returns to a surd it has met before, field by field. Hence every irrational real surd is the value of a periodic fraction of the library's type, also where to_contfrac never ends.",
  "all irrational real surds, all numbers of steps",
  "tests call floor, subtraction and recip once each; that the loop is periodic is a statement about all steps",
  [a(S,"floor","sub","recip","to_contfrac"),a(CF,"ContinuedFraction")])
p("Consecutive convergents",
  "Of two consecutive items of convergents() one differs from the number by at most 1/(2q^2); of three one differs by less than 1/(sqrt(5)*q^2), and two do not suffice; no constant greater than sqrt(5) would do, because of [1; (1)].",
  "all well-formed continued fractions, all indices",
  "tests compare single convergents with stored values; the bounds hold for all positions of all fractions",
  [a(CF,"convergents","next")])
p("The solutions of Pell's equation are powers",
  "Let p/q be the convergent of sqrt(N) at the end of the first period. Multiplying the surd p+q*sqrt(N) with itself never panics, and its (k+1)-th power is stored as p'+q'*sqrt(N), where p'/q' is the convergent at the end of period k+1.",
  "all surds with the value sqrt(N), all N, all exponents",
  "it relates unboundedly many steps of three different parts of the library: conversion, convergents and multiplication",
  [a(S,"mul","quadsurd_to_contfrac","try_from"),a(CF,"convergents","next")])
p("Sums of two squares",
  "If m divides x^2+1, then Euclid's algorithm with the remainders of Gaussian integers, started at m and x+i, ends with u+vi where u^2+v^2 = m. A prime number is found in this way exactly if it is not 3 modulo 4. Over primitive integers with overflow checks the result is the same or an overflow, and the same without checks if 4m^3 fits and |x| <= m.",
  "all m and x, all prime numbers, all widths",
  "the number of remainders is unbounded, and a remainder that is too large or not congruent may show only for some m",
  [a(Q,"GaussianInt","Rem","div_rem","norm")])
p("Expanding a surd by hand over primitive integers",
  "Over a primitive integer type with overflow checks, repeating (s - s.floor()).recip() gives the same surds as over BigInt until it panics with an overflow. If 4*N^2 is representable, the expansion of sqrt(N) goes on for ever without an overflow, with or without checks, and the floors are the coefficients of the continued fraction of sqrt(N).",
  "all surds, all N, all numbers of rounds, all widths",
  "the number of rounds is unbounded, and whether the numbers of all rounds stay small is a theorem about reduced quadratic numbers",
  [a(S,"floor","sub","recip","reduce")])
p("Fibonacci numbers",
  "The (k+1)-th power of the quadratic integer w = (1+sqrt(5))/2 is F(k) + F(k+1)*w, the (k+1)-th power of the surd (1+sqrt(5))/2 is (2F(k+2)-F(k+1) + F(k+1)*sqrt(5))/2 in lowest terms, and the n-th convergent of [1; 1, 1, ...] is F(n+2)/F(n+1). Over a primitive type with overflow checks the powers of w are right until F(k+1) is not representable, and then overflow is reported; the convergents are right exactly while F(n+2) fits the signed type, and the iterator ends when F(n+2) does not fit the unsigned type.",
  "all exponents and indices, all widths",
  "exponents and indices are unbounded",
  [a(Q,"mul"),a(S,"mul","reduce"),a(CF,"convergents","next")])
p("The build configuration does not change results",
  "For real numbers (no negative number under a root) neither the feature complex nor debug assertions change what is returned: constructors, all operators, conversions, square roots of non-negative surds, the construction of continued fractions from any coefficients, the surd of any continued fraction, the expansion of a surd, the arithmetic of continued fractions and of quadratic integers. Panics are the same too, except that expanding a rational surd (and continued fraction arithmetic ending in a rational number) and the remainder of a rational by an irrational quadratic integer panic with a failed assertion in debug builds and with a division by zero in release builds. Whole programs with branches and loops over surds behave identically in all builds.",
  "all operands with non-negative roots, all coefficient lists, all pairs of configurations, all programs",
  "tests run in one configuration at a time, and the assertions that must never fail range over unbounded inputs",
  [a(S,"reduce_bin_op","from_sqrt","new"),a(CF,"new"),a(Q,"reduce_bin_op","rem")])
p("The build configuration does not change results over primitive integers",
  "With overflow checks, surds with non-negative roots over a primitive type behave identically whatever the feature complex and the debug assertions: every operator and predicate returns the same value or panics in the same way, overflow included, roots stay non-negative, and so do whole programs with branches and loops. Without overflow checks this fails: the product of two roots can wrap around to a negative number, which is a complex number with the feature and a panic without it.",
  "all widths, all representable operands with non-negative roots, all programs, all pairs of configurations",
  "operands and programs are unbounded; tests run in one configuration",
  [a(S,"reduce_bin_op","reduce","mul","div")])
p("Functions of real numbers refuse complex numbers",
  "to_integer, to_rational, floor, is_positive and is_negative panic with the message about complex numbers exactly when the number is not real, in every build, and return for every other number; over a primitive type a negative root is refused before anything is computed.",
  "all surds in normal form that a build can hold, all configurations, all widths",
  "the refusal depends on the feature flag and on the sign of the root, and tests only exercise real numbers",
  [a(S,"panic_if_complex","to_integer","to_rational","floor","is_positive","is_negative")])
p("Polynomials at surds, and solutions put back into their equation",
  "Evaluating any polynomial with rational coefficients at a surd by Horner's rule never panics and returns the value of the polynomial; the solution from_equation returns, and its conjugate when irrational, put back into the equation that way gives exactly the surd zero; every surd is found again, up to conjugation, from its own equation.",
  "all surds in normal form, all lists of rational coefficients, all equations, all configurations",
  "the root stored by each intermediate result may lose square factors, and addition or multiplication panics if two roots stop matching; only an invariant over the whole evaluation excludes that",
  [a(S,"from_equation","mul","add")])
p("Units of the rings of quadratic integers",
  "A quadratic integer has an inverse in its ring exactly if norm is 1 or -1; 1/x is then that inverse, and it is the conjugate up to the sign. The units of imaginary rings and of the Gaussian integers are the known finite lists; those of the ring of sqrt(N), N = 2 or 3 modulo 4, are 1, -1 and, up to sign and conjugation, the powers (multiplied with QuadraticInt) of the number read off the last convergent of sqrt(N) before the period repeats; for N = 1 modulo 4 and N > 16 they are found among the convergents of sqrt(N).",
  "all quadratic integers of a ring, all discriminants, all configurations",
  "the real rings have infinitely many units, and completeness of the list is a theorem about all numbers of the ring",
  [a(Q,"norm","conj","mul","div"),a(CF,"convergents")])
p("Comparing and sorting surds by the sign of their difference",
  "(x - y).is_negative() is true exactly if x < y, for real surds whose roots go together, and panics for all others; it is a strict total order on the real surds of one field, and sorting a list of them with it returns a rearrangement in ascending order. Over primitive integers with overflow checks the same, or an overflow panic.",
  "all real surds in normal form, all lists of surds of one field, all configurations, all widths",
  "a sort makes many comparisons whose operands are stored with different roots; a single wrong sign breaks the order",
  [a(S,"sub","is_negative")])
p("Testing divisibility",
  "Gaussian integers: y divides x exactly if x % y is zero, and x / y is then the quotient. Quadratic integers of one ring: y divides x exactly if (x / y) * y gives x back, and exactly if x % y is zero.",
  "all Gaussian integers, all quadratic integers of a ring, all configurations",
  "division rounds to the nearest number of the ring, so that a test on samples does not show that no multiple is missed",
  [a(Q,"div","rem","mul")])
p("Powers with num_traits::pow",
  "Raising a quadratic integer or a surd to a power by repeated squaring, as num_traits::pow does with the library's One and Mul, returns the power. Over primitive integers with overflow checks it is the same power or an overflow panic; without them the coefficients of a power of a quadratic integer are the right ones modulo 2^w.",
  "all quadratic integers of a ring, all surds in normal form, all exponents, all configurations, all widths",
  "the number of squarings grows with the exponent and each one renormalises the number, so that samples reach a few exponents only",
  [a(Q,"mul","one"),a(S,"mul","one")])
p("Powers of continued fractions",
  "Raising a continued fraction to a power with num_traits::pow, with the library's One and Mul, returns the fraction of the power of the number.",
  "all canonical finite fractions, all well-formed periodic fractions, all exponents",
  "every product goes through a surd and back to a fraction, and the number of products grows with the exponent",
  [a(CF,"mul","one")])
p("Reciprocal of a continued fraction",
  "One divided by a continued fraction is the fraction with the same sign and the same coefficients, moved by one place: a zero is put in front, or taken away if there is one.",
  "all canonical finite fractions, all well-formed periodic fractions, all configurations",
  "the quotient is calculated through rational numbers or surds and expanded again, so that the coefficients are found anew and never copied",
  [a(CF,"div","one")])
p("Euclid's extended algorithm with quotients",
 "Euclid's extended algorithm written with /, * and - (without %) ends for any two Gaussian integers or quadratic integers of one ring and returns a greatest common divisor g of a and b in the ring together with factors s and t such that g = s*a + t*b; over the Gaussian integers it gives the inverse of a modulo b exactly if there is one.",
 "all pairs of Gaussian integers, all pairs of quadratic integers over one discriminant (rational ones included), all primitive widths with overflow checks",
 "the claim is about a loop of unbounded length over all pairs of numbers, and says that the result is divisible by every common divisor",
 [a(Q,"div"),a(Q,"mul"),a(Q,"sub"),a(Q,"div_rem")])
p("Programs over quadratic integers of one ring",
 "A program with variables, branches and loops over quadratic integers of one ring, using +, -, *, /, conj, integer operands, is_zero, is_rational and ==, ends exactly if the same program over complex numbers (quotients rounded in both coordinates, halves away from zero) ends, with the same numbers in all variables; it panics only on division by zero.",
 "all programs, all starting values of one ring, all non-square discriminants not divisible by 4 allowed by the configuration, runs of any length",
 "the claim is about every program and runs of unbounded length",
 [a(Q,"from_coeffs"),a(Q,"add"),a(Q,"sub"),a(Q,"mul"),a(Q,"div"),a(Q,"conj"),a(Q,"is_zero"),a(Q,"is_rational"),a(Q,"eq")])
p("Programs over Gaussian integers",
 "A program with variables, branches and loops over GaussianInt, using +, -, *, /, %, conj, == and comparison of norms, ends exactly if the same program over complex numbers (quotients with both parts rounded, halves away from zero) ends, with the same numbers in all variables; its only panic is division by zero. Over primitive integers with overflow checks it does the same, step by step, or panics with an overflow.",
 "all programs, all starting values, all primitive widths, runs of any length",
 "the claim is about every program and runs of unbounded length",
 [a(Q,"GaussianInt"),a(Q,"conj"),a(Q,"norm"),a(Q,"add"),a(Q,"sub"),a(Q,"mul"),a(Q,"div"),a(Q,"rem")])
p("Programs over finite continued fractions",
 "A program with variables, branches and loops over finite continued fractions, using +, -, *, /, negation, integer and Ratio operands, is_zero, is_one, is_negative, is_integer and ==, does step by step what it would do with rational numbers: every variable holds the continued fraction of its rational number, every branch goes the same way, and it panics exactly where a rational number is divided by zero.",
 "all programs, all rational starting values, runs of any length",
 "the claim is about every program and runs of unbounded length",
 [a(CF,"from"),a(CF,"neg"),a(CF,"add"),a(CF,"sub"),a(CF,"mul"),a(CF,"div"),a(CF,"is_zero"),a(CF,"is_one"),a(CF,"is_negative"),a(CF,"is_integer")])
with open("/verif/properties.jsonl","w") as f:
    for x in P: f.write(json.dumps(x)+"\n")
print(len(P))
