{"id": "C01", "title": "Extended gcd returns a true Bezout identity", "statement": "gcd(a,b) is the non-negative greatest common divisor, and bezout(a,b,x,y) returns that same gcd with a*x+b*y equal to it; every intermediate coefficient stays bounded by max(|a|,|b|) so no long overflow is introduced by the algorithm itself.", "quantifier": "all pairs of integers a,b (any signs, including zero)", "why_tests_cant": "The input domain is infinite; a test samples finitely many inputs and a wrong branch (sign, zero, parity, common factor) may be hit by none of them.", "anchors": ["libsrc/arith.cc: gcd, lcm, bezout", "libsrc/moddata.cc: bezout_x"]}
{"id": "C02", "title": "Modular inverse is an inverse exactly when one exists", "statement": "invmod(a,m) returns x with a*x = 1 (mod m) whenever gcd(a,m)=1, and returns 0 otherwise.", "quantifier": "all a and all moduli m", "why_tests_cant": "The input domain is infinite; a test samples finitely many inputs and a wrong branch (sign, zero, parity, common factor) may be hit by none of them.", "anchors": ["libsrc/arith.cc: invmod", "libsrc/marith.cc: invmod"]}
{"id": "C03", "title": "Chinese remaindering solves both congruences or reports failure", "statement": "chrem(a1,a2,m1,m2) returns a common solution of x=a1 (mod m1), x=a2 (mod m2) whenever one exists (moduli need not be coprime) and returns 0 with a message exactly when none exists.", "quantifier": "all residues and all non-zero moduli", "why_tests_cant": "The input domain is infinite; a test samples finitely many inputs and a wrong branch (sign, zero, parity, common factor) may be hit by none of them.", "anchors": ["libsrc/marith.cc: chrem"]}
{"id": "C04", "title": "Residue functions land in their documented range", "statement": "For modulus b>0: mod(a,b) is congruent to a and lies in (-b/2, b/2]; posmod(a,b) is congruent to a and lies in [0,b); rounded_division(a,b) is a nearest integer to a/b.  (For negative long moduli posmod violates this: recorded as a disagreement.)", "quantifier": "all integers a and all moduli b", "why_tests_cant": "The input domain is infinite; a test samples finitely many inputs and a wrong branch (sign, zero, parity, common factor) may be hit by none of them.", "anchors": ["libsrc/arith.cc: mod, posmod", "libsrc/eclib/arith.h: rounded_division", "libsrc/marith.cc: mod, posmod, rounded_division"]}
{"id": "C05", "title": "legendre/kronecker compute the Jacobi symbol", "statement": "For odd positive b, leg/legendre(a,b) equals the Jacobi symbol (a/b); kronecker(a,n) equals the Kronecker symbol for every n, including even, negative and zero n, in both the long and multiprecision versions.", "quantifier": "all integers a, n", "why_tests_cant": "The input domain is infinite; a test samples finitely many inputs and a wrong branch (sign, zero, parity, common factor) may be hit by none of them.", "anchors": ["libsrc/arith.cc: chi2, chi4, hilbert2, leg, legendre, kronecker", "libsrc/marith.cc: leg, legendre, kronecker"]}
{"id": "C06", "title": "Valuation is the exact power", "statement": "For |f|>=2 and n<>0, val(f,n) is the unique e with f^e | n and f^(e+1) not dividing n; divide_out(n,f) removes exactly that power and returns e.", "quantifier": "all integers f, n", "why_tests_cant": "The input domain is infinite; a test samples finitely many inputs and a wrong branch (sign, zero, parity, common factor) may be hit by none of them.", "anchors": ["libsrc/arith.cc: val, divide_out", "libsrc/marith.cc: val, divide_out"]}
{"id": "C07", "title": "Divisor lists are complete and repetition-free", "statement": "Given the prime divisors of a, posdivs(a) lists every positive divisor of a exactly once, alldivs adds exactly the negatives, sqdivs lists exactly the d>0 with d^2|a, and sqfreedivs lists exactly the square-free positive divisors.", "quantifier": "all non-zero integers a with the list of their distinct prime divisors", "why_tests_cant": "The input domain is infinite; a test samples finitely many inputs and a wrong branch (sign, zero, parity, common factor) may be hit by none of them.", "anchors": ["libsrc/arith.cc: posdivs, alldivs, sqdivs, sqfreedivs", "libsrc/marith.cc: posdivs, alldivs, sqdivs, sqfreedivs"]}
{"id": "C08", "title": "Division-free modular multiplication is exact", "statement": "xmm0(a,b) is congruent to a*b modulo 1073741789 and lies in the symmetric range for all residues a,b in that range; mod0 and invmod0 are likewise correct.", "quantifier": "all pairs of residues (about 10^18 pairs)", "why_tests_cant": "The domain has about 10^18 pairs and the reduction uses a truncated reciprocal whose rounding error only shows on rare operands.", "anchors": ["libsrc/eclib/xmod.h: xmm0, mod0, xmodmul, invmod0, table_invs"]}
{"id": "C09", "title": "Rational reconstruction recovers small fractions", "statement": "If n is congruent to a/b (mod m) with |a|,|b| within the limit, modrat(n,m,a,b) (limit sqrt(m/2)) returns success and an equal fraction; when it reports success the returned fraction satisfies a = n*b (mod m) with both parts within the limit.", "quantifier": "all moduli m and residues n", "why_tests_cant": "The input domain is infinite; a test samples finitely many inputs and a wrong branch (sign, zero, parity, common factor) may be hit by none of them.", "anchors": ["libsrc/arith.cc: gauss_reduce, modrat", "libsrc/marith.cc: gauss_reduce, modrat"]}
{"id": "C10", "title": "Rational numbers stay in canonical form and compute exactly", "statement": "Every constructor and arithmetic operator of rational/bigrational yields gcd(num,den)=1 and den>=0, and the value equals the exact field operation on the operands; == holds exactly when the values are equal.", "quantifier": "all sequences of operations on rationals, all numerators and non-zero denominators", "why_tests_cant": "The input domain is infinite; a test samples finitely many inputs and a wrong branch (sign, zero, parity, common factor) may be hit by none of them.", "anchors": ["libsrc/eclib/rat.h: rational", "libsrc/eclib/bigrat.h: bigrational"]}
{"id": "C11", "title": "floor, ceil and round of a rational", "statement": "floor(q) is the largest integer <= q and ceil(q) the smallest integer >= q, for every rational q including negative ones.", "quantifier": "all rationals q", "why_tests_cant": "The input domain is infinite; a test samples finitely many inputs and a wrong branch (sign, zero, parity, common factor) may be hit by none of them.", "anchors": ["libsrc/eclib/rat.h: floor, ceil, round", "libsrc/eclib/bigrat.h: floor, ceil, round"]}
{"id": "C12", "title": "Perfect-square test is exact", "statement": "isqrt(a,root) returns 1 exactly when a is a perfect square, and then root is its non-negative square root; the modular sieve tables never reject a square.", "quantifier": "all integers a of any size", "why_tests_cant": "The input domain is infinite; a test samples finitely many inputs and a wrong branch (sign, zero, parity, common factor) may be hit by none of them.", "anchors": ["libsrc/marith.cc: isqrt, sqrtnr, carresmod tables"]}
{"id": "C13", "title": "Modular square roots are square roots", "statement": "Whenever sqrt_mod_2_power, sqrt_mod_p_power or sqrt_mod_m report success the value x returned satisfies x^2 = a modulo the given modulus.", "quantifier": "all a, all exponents, all odd primes, all factored moduli", "why_tests_cant": "The input domain is infinite; a test samples finitely many inputs and a wrong branch (sign, zero, parity, common factor) may be hit by none of them.", "anchors": ["libsrc/marith.cc: sqrt_mod_2_power, sqrt_mod_p_power, sqrt_mod_m"]}
{"id": "C14", "title": "Square-free decomposition", "statement": "sqfdecomp(a,a1,a2) gives a=a1*a2^2 with a1 square-free and the returned prime list is exactly the primes dividing a1; rusin_lem3 splits a pair as a=c1^2*m1*m3, b=c2^2*m2*m3 with pairwise coprime m's.", "quantifier": "all non-zero a (and pairs a,b)", "why_tests_cant": "The input domain is infinite; a test samples finitely many inputs and a wrong branch (sign, zero, parity, common factor) may be hit by none of them.", "anchors": ["libsrc/marith.cc: sqfdecomp, rusin_lem3"]}
{"id": "C15", "title": "Sparse vectors compute the same as dense vectors", "statement": "Every svec operation (+=, -=, add_scalar_times, add, sub, *=, dot product, reduce_mod_p, mod-p variants, make_primitive) has exactly the effect of the corresponding dense-vector operation on the entries read back through elem/as_vec.", "quantifier": "all sparse vectors of any dimension and support, all scalars, all moduli", "why_tests_cant": "The input domain is infinite; a test samples finitely many inputs and a wrong branch (sign, zero, parity, common factor) may be hit by none of them.", "anchors": ["libsrc/svec.cc: svec operators"]}
{"id": "C16", "title": "Sparse vectors hold no explicit zeros, so == is equality", "statement": "After every operation no stored entry is zero, hence two svecs representing the same vector compare equal and size() counts non-zero entries.  (Refuted for set(i,0) on an occupied slot and for *= 0: recorded as a disagreement, with the operations for which it holds.)", "quantifier": "all histories of svec operations", "why_tests_cant": "Needs all interleavings of updates; tests compare a handful of vectors built one way.", "anchors": ["libsrc/svec.cc: set, add, operator*=, operator=="]}
{"id": "C17", "title": "Echelon reduction modulo p", "statement": "echmodp returns a matrix whose rows span the same space over F_p as the input, in reduced row echelon form with the stated pivot columns, rank and nullity.", "quantifier": "all matrices of all sizes, all primes p", "why_tests_cant": "The input domain is infinite; a test samples finitely many inputs and a wrong branch (sign, zero, parity, common factor) may be hit by none of them.", "anchors": ["libsrc/mat.cc: echmodp, elimp, elimp1"]}
{"id": "C18", "title": "Kernel modulo p", "statement": "pkernel(m,p) is a basis of the right null space of m over F_p: every basis column is annihilated and every null vector is a combination of them.", "quantifier": "all matrices and primes", "why_tests_cant": "The input domain is infinite; a test samples finitely many inputs and a wrong branch (sign, zero, parity, common factor) may be hit by none of them.", "anchors": ["libsrc/sub.cc: pkernel"]}
{"id": "C19", "title": "Exact integer echelon form and kernel", "statement": "echelon of an integer matrix (fraction-free elimination) gives a matrix with the same row space over Q, denominator on the pivots, rank as counted; kernel(m) is a basis of the null space.", "quantifier": "all integer matrices of all sizes", "why_tests_cant": "The input domain is infinite; a test samples finitely many inputs and a wrong branch (sign, zero, parity, common factor) may be hit by none of them.", "anchors": ["libsrc/mat.cc: echelon0, conservative_elim, elim, clear", "libsrc/sub.cc: kernel"]}
{"id": "C20", "title": "Characteristic polynomial and determinant", "statement": "charpoly(M) returns the coefficients of det(X*I - M) and determinant(M) returns det M, using only exact integer division.", "quantifier": "all square integer matrices of any size n>=1", "why_tests_cant": "The input domain is infinite; a test samples finitely many inputs and a wrong branch (sign, zero, parity, common factor) may be hit by none of them.", "anchors": ["libsrc/mat.cc: charpoly, determinant, trace"]}
{"id": "C21", "title": "Restricting an operator to an invariant subspace", "statement": "If the column space of S is invariant under M then restrict_mat(M,S)=A satisfies denom*M*B = B*A on the basis B; combine(S1,S2) is the subspace of S1 cut out by S2 with product basis and composed pivots.", "quantifier": "all matrices, subspaces, dimensions", "why_tests_cant": "The input domain is infinite; a test samples finitely many inputs and a wrong branch (sign, zero, parity, common factor) may be hit by none of them.", "anchors": ["libsrc/sub.cc: restrict_mat, combine, prestrict, pcombine"]}
{"id": "C22", "title": "Unimodular matrix operations", "statement": "x_shift, y_shift, invert, negate and products keep determinant +-1 and act as multiplication by the corresponding elementary matrix; inverse() returns the two-sided inverse.  (Refuted for determinant -1: recorded as a disagreement.)", "quantifier": "all 2x2 integer matrices and shift amounts", "why_tests_cant": "The input domain is infinite; a test samples finitely many inputs and a wrong branch (sign, zero, parity, common factor) may be hit by none of them.", "anchors": ["libsrc/eclib/unimod.h: unimod", "libsrc/unimod.cc"]}
{"id": "C23", "title": "Binary quadratic form reduction", "statement": "transform(m), x_shift, y_shift and invert replace F(X,Z) by F composed with the recorded matrix and preserve the discriminant; reduce() of a positive definite form terminates in a form with |b|<=a<=c that equals the original composed with the returned unimodular matrix.", "quantifier": "all integer binary quadratic forms", "why_tests_cant": "The input domain is infinite; a test samples finitely many inputs and a wrong branch (sign, zero, parity, common factor) may be hit by none of them.", "anchors": ["libsrc/quadratic.cc", "libsrc/eclib/quadratic.h"]}
{"id": "C24", "title": "Binary cubic form transformations track their matrix", "statement": "transform, x_shift, y_shift, invert, negate preserve the discriminant, transform the Hessian covariantly, and the accumulated unimod m satisfies new(X,Z)=old(m(X,Z)).  (Refuted for invert, which applies the opposite sign: recorded as a disagreement.)", "quantifier": "all integer binary cubics and all sequences of moves", "why_tests_cant": "The input domain is infinite; a test samples finitely many inputs and a wrong branch (sign, zero, parity, common factor) may be hit by none of them.", "anchors": ["libsrc/cubic.cc: transform, x_shift, y_shift, invert, hess_reduce", "libsrc/eclib/cubic.h"]}
{"id": "C25", "title": "Quartic transformations preserve I and J up to the stated weight", "statement": "apply_transform, xshift, zshift, m_invert change the quartic by the recorded scaled unimodular substitution; I scales by the 4th and J by the 6th power of the determinant over the scale; check_transform accepts exactly the right transforms.", "quantifier": "all integer quartics and substitutions", "why_tests_cant": "The input domain is infinite; a test samples finitely many inputs and a wrong branch (sign, zero, parity, common factor) may be hit by none of them.", "anchors": ["libsrc/transform.cc", "libsrc/minim.cc: minim_p"]}
{"id": "C26", "title": "Curve invariants satisfy the Weierstrass identities", "statement": "Every Curvedata object constructed from a-invariants has b2,b4,b6,b8,c4,c6,discr equal to the standard polynomials (so 4*b8=b2*b6-b4^2 and c4^3-c6^2=1728*discr) or is the null curve if singular.", "quantifier": "all integer a-invariants", "why_tests_cant": "The input domain is infinite; a test samples finitely many inputs and a wrong branch (sign, zero, parity, common factor) may be hit by none of them.", "anchors": ["libsrc/curvedata.cc: Curvedata constructors"]}
{"id": "C27", "title": "Change of Weierstrass coordinates", "statement": "transform(r,s,t) leaves c4, c6 and discr unchanged and maps points of the old curve bijectively to points of the new one; applying the inverse transformation restores the curve.", "quantifier": "all curves and all integers r,s,t", "why_tests_cant": "The input domain is infinite; a test samples finitely many inputs and a wrong branch (sign, zero, parity, common factor) may be hit by none of them.", "anchors": ["libsrc/curvedata.cc: transform, transform_x"]}
{"id": "C28", "title": "Kraus's criterion", "statement": "valid_invariants(c4,c6) returns true exactly when some integral Weierstrass equation with non-zero discriminant has those invariants.", "quantifier": "all integer pairs (c4,c6)", "why_tests_cant": "The input domain is infinite; a test samples finitely many inputs and a wrong branch (sign, zero, parity, common factor) may be hit by none of them.", "anchors": ["libsrc/curve.cc: valid_invariants"]}
{"id": "C29", "title": "Reconstruction of a-invariants from c-invariants", "statement": "For valid (c4,c6), c4c6_to_ai returns integers a1,a2,a3,a4,a6 with a1,a3 in {0,1}, a2 in {-1,0,1} whose c-invariants are exactly (c4,c6).", "quantifier": "all valid integer pairs (c4,c6)", "why_tests_cant": "The input domain is infinite; a test samples finitely many inputs and a wrong branch (sign, zero, parity, common factor) may be hit by none of them.", "anchors": ["libsrc/curve.cc: c4c6_to_ai"]}
{"id": "C30", "title": "Minimal model", "statement": "minimise_c4c6 returns (c4',c6',u) with c4=u^4*c4', c6=u^6*c6', (c4',c6') valid, and no larger u is possible: the model is globally minimal.", "quantifier": "all valid integer pairs (c4,c6) with the prime divisors of the discriminant supplied", "why_tests_cant": "The input domain is infinite; a test samples finitely many inputs and a wrong branch (sign, zero, parity, common factor) may be hit by none of them.", "anchors": ["libsrc/curve.cc: minimise_c4c6", "libsrc/curvedata.cc: minimalize"]}
{"id": "C31", "title": "Point arithmetic is the elliptic-curve group law", "statement": "For points on the curve, P+Q, P-Q, -P and P.twice() return valid reduced points representing the group-law results; hence addition is associative and commutative with identity O.", "quantifier": "all non-singular integral Weierstrass curves and all rational points on them", "why_tests_cant": "The input domain is infinite; a test samples finitely many inputs and a wrong branch (sign, zero, parity, common factor) may be hit by none of them.", "anchors": ["libsrc/points.cc: Point::operator+, operator-, twice"]}
{"id": "C32", "title": "Scalar multiplication", "statement": "n*P equals the n-fold sum for every integer n including negative n and zero.", "quantifier": "all curves, all points, all integers n", "why_tests_cant": "The input domain is infinite; a test samples finitely many inputs and a wrong branch (sign, zero, parity, common factor) may be hit by none of them.", "anchors": ["libsrc/points.cc: operator*(int, Point)"]}
{"id": "C33", "title": "Order of a point", "statement": "order(P) returns the exact order n>0 of a torsion point and -1 for a point of infinite order; the list version returns exactly the multiples 0*P..(n-1)*P.", "quantifier": "all curves and all rational points", "why_tests_cant": "The input domain is infinite; a test samples finitely many inputs and a wrong branch (sign, zero, parity, common factor) may be hit by none of them.", "anchors": ["libsrc/points.cc: order"]}
{"id": "C34", "title": "Projective point normal form", "statement": "After reduce(), coordinates are coprime with Z>=0 and represent the same projective point; equality by cross-products agrees with projective equality.", "quantifier": "all integer coordinate triples not all zero", "why_tests_cant": "The input domain is infinite; a test samples finitely many inputs and a wrong branch (sign, zero, parity, common factor) may be hit by none of them.", "anchors": ["libsrc/p2points.cc: reduce, eq", "libsrc/eclib/p2points.h"]}
{"id": "C35", "title": "Point change of coordinates round-trips", "statement": "transform(P,u,r,s,t,back=0) followed by back=1 is the identity on projective points, and it maps points on E to points on the transformed curve; likewise scale and shift.", "quantifier": "all u<>0, r,s,t and all points", "why_tests_cant": "The input domain is infinite; a test samples finitely many inputs and a wrong branch (sign, zero, parity, common factor) may be hit by none of them.", "anchors": ["libsrc/p2points.cc: scale, shift, transform"]}
{"id": "C36", "title": "Real component test", "statement": "is_on_real_identity_component(P) is true exactly when P's real x-coordinate lies on the unbounded component of E(R).", "quantifier": "all curves and all rational points", "why_tests_cant": "The input domain is infinite; a test samples finitely many inputs and a wrong branch (sign, zero, parity, common factor) may be hit by none of them.", "anchors": ["libsrc/points.cc: is_on_real_identity_component"]}
{"id": "C37", "title": "Good reduction test", "statement": "has_good_reduction(P,p) is true exactly when the reduction of P modulo p is a non-singular point of the reduced curve.", "quantifier": "all curves, primes p, rational points", "why_tests_cant": "The input domain is infinite; a test samples finitely many inputs and a wrong branch (sign, zero, parity, common factor) may be hit by none of them.", "anchors": ["libsrc/points.cc: has_good_reduction"]}
{"id": "C38", "title": "Division polynomials", "statement": "div_pol(E,n) and the numerator/denominator polynomials of multiplication-by-n computed by the recursion equal the standard division polynomials of E for every n.", "quantifier": "all curves and all n", "why_tests_cant": "The input domain is infinite; a test samples finitely many inputs and a wrong branch (sign, zero, parity, common factor) may be hit by none of them.", "anchors": ["libsrc/divpol.cc: div_pol_odd, div_pol_2, mul_by_n_num, mul_by_n_den"]}
{"id": "C39", "title": "Points with a given x-coordinate", "statement": "points_from_x / make_points find a rational point with the given x-coordinate exactly when one exists, and every point returned lies on the curve with that x.", "quantifier": "all curves, all rational x", "why_tests_cant": "The input domain is infinite; a test samples finitely many inputs and a wrong branch (sign, zero, parity, common factor) may be hit by none of them.", "anchors": ["libsrc/points.cc: points_from_x"]}
{"id": "C40", "title": "M-symbol numbering is a bijection", "statement": "For every level N, index and symbol are mutually inverse between 0..nsymb-1 and the projective line over Z/N, and index depends only on the class of (c:d).", "quantifier": "all levels N>=1 and all symbols (c:d) with gcd(c,d,N)=1", "why_tests_cant": "The input domain is infinite; a test samples finitely many inputs and a wrong branch (sign, zero, parity, common factor) may be hit by none of them.", "anchors": ["libsrc/moddata.cc: moddata::moddata", "libsrc/symb.cc: symbdata::index2, symbol, symb::normalize, symblist"]}
{"id": "C41", "title": "Cusp equivalence is exact", "statement": "cusplist reports two cusps equal exactly when some element of Gamma_0(N) maps one to the other (with plusflag: of the group also containing diag(-1,1)); hence each class is listed once.", "quantifier": "all levels N and all pairs of cusps including infinity", "why_tests_cant": "The input domain is infinite; a test samples finitely many inputs and a wrong branch (sign, zero, parity, common factor) may be hit by none of them.", "anchors": ["libsrc/cusp.cc: cuspeq, index, index_1, index_2"]}
{"id": "C42", "title": "Bit-vector spaces over GF(2)", "statement": "bitspace::mask/reduce/augment maintain an independent generating set: reduce(v) is 0 exactly when v is in the span, and augment increases dimension by exactly one otherwise.", "quantifier": "all histories of augment calls, all vectors up to the word size", "why_tests_cant": "The input domain is infinite; a test samples finitely many inputs and a wrong branch (sign, zero, parity, common factor) may be hit by none of them.", "anchors": ["libsrc/bitspace.cc", "libsrc/eclib/bitspace.h"]}
{"id": "C43", "title": "Square-free divisor subgroup bookkeeping", "statement": "After any sequence of usediv calls, getsubgp() lists exactly the subgroup (mod squares) generated by the elements used, and getdivs() is a complete, irredundant set of coset representatives of it.", "quantifier": "all histories of usediv calls with admissible arguments", "why_tests_cant": "Depends on the whole history of calls and on every interaction between pivots.", "anchors": ["libsrc/sqfdiv.cc: sqfdiv, usediv, getdivs, sqfmul, sqfred"]}
{"id": "C44", "title": "Local solubility of quartics", "statement": "qpsoluble(a,b,c,d,e,p) returns 1 exactly when y^2=g(x,z) has a point over Q_p (for p below the crossover), and terminates for square-free g.", "quantifier": "all integer quartics, all primes p", "why_tests_cant": "The input domain is infinite; a test samples finitely many inputs and a wrong branch (sign, zero, parity, common factor) may be hit by none of them.", "anchors": ["libsrc/mlocsol.cc: psquare, lemma6, lemma7, zpsol, qpsoluble"]}
{"id": "C45", "title": "Hilbert symbol", "statement": "local_hilbert(a,b,p) returns 0 exactly when ax^2+by^2=z^2 is soluble over Q_p (p=0 meaning R), and it is symmetric and bimultiplicative; global_hilbert reports a bad prime consistently.", "quantifier": "all non-zero integers a,b and all primes p", "why_tests_cant": "The input domain is infinite; a test samples finitely many inputs and a wrong branch (sign, zero, parity, common factor) may be hit by none of them.", "anchors": ["libsrc/hilbert.cc: local_hilbert, global_hilbert"]}
{"id": "C46", "title": "Thread pool runs every posted job exactly once", "statement": "Under every schedule, when close() returns every task posted before has been executed exactly once and none is still running.", "quantifier": "all interleavings of workers, any number of workers and tasks", "why_tests_cant": "Schedules are not enumerable by a test run.", "anchors": ["libsrc/threadpool.cc: start, close", "libsrc/eclib/threadpool.h: post"]}
{"id": "C47", "title": "Sparse matrices agree with dense matrices", "statement": "smat operations (setrow, select_rows, as_mat, +=, -=, scalar ops, products, transpose) agree with the same operations on the dense matrix; elem reads the entry.  (Refuted for setrow(int,vec): recorded as a disagreement.)", "quantifier": "all sparse matrices", "why_tests_cant": "The input domain is infinite; a test samples finitely many inputs and a wrong branch (sign, zero, parity, common factor) may be hit by none of them.", "anchors": ["libsrc/smat.cc"]}
{"id": "C48", "title": "Prime table", "statement": "The sieve lists exactly the primes up to its bound in increasing order; prime_number(n) is the n-th prime, and primevar enumerates them.", "quantifier": "all bounds", "why_tests_cant": "The input domain is infinite; a test samples finitely many inputs and a wrong branch (sign, zero, parity, common factor) may be hit by none of them.", "anchors": ["libsrc/arith.cc: primeclass"]}
{"id": "C49", "title": "LLL preserves the lattice", "statement": "lll_reduce changes the basis by unimodular integer operations only, so the lattice and Gram determinant are unchanged, and on exit the basis satisfies the size-reduction and Lovasz conditions.", "quantifier": "all integer bases", "why_tests_cant": "The input domain is infinite; a test samples finitely many inputs and a wrong branch (sign, zero, parity, common factor) may be hit by none of them.", "anchors": ["libsrc/illl.cc"]}
{"id": "C50", "title": "Integer conversions are exact or flagged", "statement": "I2int(x)/I2long(x) return x itself for every x in range, including the extreme values, and 0 with an error message outside the range.", "quantifier": "all integers x", "why_tests_cant": "The input domain is infinite; a test samples finitely many inputs and a wrong branch (sign, zero, parity, common factor) may be hit by none of them.", "anchors": ["libsrc/interface.cc: I2int, I2long", "libsrc/eclib/interface.h: is_int, is_long"]}
{"id": "C51", "title": "Isogeny class codes round-trip", "statement": "codeletter_to_int(new_codeletter(i))=i for all i>=0, codes are lower-case words without superfluous leading 'a', and distinct i give distinct codes.", "quantifier": "all non-negative integers i", "why_tests_cant": "The input domain is infinite; a test samples finitely many inputs and a wrong branch (sign, zero, parity, common factor) may be hit by none of them.", "anchors": ["libsrc/curvesort.cc: codeletter_to_int, new_codeletter"]}
{"id": "C52", "title": "Book numbering permutes forms", "statement": "For every level, booknumber0 is injective on the valid form indices of that level's table, so no two newforms get the same label.", "quantifier": "all levels and form indices within the table", "why_tests_cant": "The table spans about 150 levels, and a single wrong entry only shows at that level.", "anchors": ["libsrc/curvesort.cc: booknumber0, curvesort_* tables"]}
{"id": "C53", "title": "Tamagawa exponents", "statement": "local_Tamagawa_exponent(C,p) is the exponent of the component group encoded by the Kodaira code and c_p, and global_Tamagawa_exponent is the lcm of the local ones.  (Refuted for I*m, m even, with c_p=1: recorded.)", "quantifier": "all reduction data", "why_tests_cant": "The input domain is infinite; a test samples finitely many inputs and a wrong branch (sign, zero, parity, common factor) may be hit by none of them.", "anchors": ["libsrc/curvered.cc: local_Tamagawa_exponent, global_Tamagawa_exponent"]}
{"id": "C54", "title": "Quartic equivalence certificate", "statement": "testd accepts a matrix (al,be,ga,de) and scale d exactly when substituting it in the second quartic gives d^2 times the first.", "quantifier": "all pairs of quartics and matrices", "why_tests_cant": "The input domain is infinite; a test samples finitely many inputs and a wrong branch (sign, zero, parity, common factor) may be hit by none of them.", "anchors": ["libsrc/mequiv.cc: testd"]}
{"id": "C55", "title": "Equivalence test for integral binary cubics", "statement": "For two integral binary cubics of positive discriminant, sl2_equivalent returns true exactly when some integer matrix of determinant 1 carries one to the other, and gl2_equivalent exactly when one of determinant +-1 does.", "quantifier": "all pairs of integer cubics of positive discriminant", "why_tests_cant": "The input domain is infinite; a test samples finitely many inputs and a wrong branch (sign, zero, parity, common factor) may be hit by none of them.", "anchors": ["libsrc/cubic.cc: sl2_equivalent, gl2_equivalent, normalise, hess_reduce"]}
{"id": "C56", "title": "Julia covariant inequalities as norms", "statement": "j_c1, j_c2, j_c3, j_c4 are the norms over the three roots of h2-h0, h0-h1, h0+h1 and h1/2 (up to the documented constants), and for negative discriminant their signs are those of the same expressions at the real root.", "quantifier": "all integer cubics of negative discriminant", "why_tests_cant": "The input domain is infinite; a test samples finitely many inputs and a wrong branch (sign, zero, parity, common factor) may be hit by none of them.", "anchors": ["libsrc/cubic.cc: j_c1, j_c2, j_c3, j_c4"]}
{"id": "C57", "title": "echelonp reconstructs the rational echelon form", "statement": "echelonp(m,pc,npc,rk,ny,d,p), which eliminates modulo p and lifts the result to rationals, gives a matrix with the same row space over Q as the input when the entries are small compared with p.", "quantifier": "all integer matrices whose echelon form has entries liftable from the modulus", "why_tests_cant": "The function is only selected by a non-default method argument, so the test programs never reach the branch; a matrix with at least two pivots is needed to see a difference.", "anchors": ["libsrc/mat.cc: echelonp, elimp"]}
{"id": "C58", "title": "order(Point&) terminates with the exact order", "statement": "For every rational point P in normal form on a nonsingular integral Weierstrass curve the loop of the one-argument order() ends, and returns the exact order n>0 if P is torsion and -1 if P has infinite order; in particular the early exit at Z>8 never hits a torsion point and is reached by every point of infinite order.", "quantifier": "all nonsingular integral Weierstrass curves and all rational points on them", "why_tests_cant": "The loop bound Z<=8 is a statement about all torsion points on all integral models (a form of Nagell-Lutz), and termination is a statement about the infinitely many multiples of a point; tests reach finitely many curves and points.", "anchors": ["libsrc/points.cc: order"]}
{"id": "C59", "title": "S, T and reflection act on M-symbol indices as stated", "statement": "At every level N>=2 the members rof, rsof, sof, tof of symbdata map indices in range to indices in range, send the class of (c:d) to that of (d:c), (-c:d), (-d:c), (c-d:c) respectively; rof, rsof and sof are involutions and tof has order dividing 3.", "quantifier": "all levels N>=2 and all indices 0<=i<nsymb", "why_tests_cant": "Every level has its own tables of inverses and special symbols, and the two- and three-term relations are used at every level; a test can only tabulate finitely many levels.", "anchors": ["libsrc/eclib/symb.h: rof, rsof, sof, tof", "libsrc/symb.cc: index2, symbol"]}
{"id": "C60", "title": "Numbers and masks of a support", "statement": "makenum(supp,mask) is the product of the entries of the support selected by the bits of the mask (squarefree, xor of masks being multiplication modulo squares), makeindex reads off the sign and the parities of the valuations, and the two are inverse to each other on squarefree numbers with that support.", "quantifier": "all supports made of distinct primes with or without -1, all masks, all nonzero n", "why_tests_cant": "The supports, masks and integers are unbounded; a wrong sign bit or a wrong offset between mask bits and primes shows only for some of them.", "anchors": ["libsrc/sqfdiv.cc: makenum, makeindex", "libsrc/eclib/bitspace.h: testbit, setbit"]}
{"id": "C61", "title": "Real type of a quartic and Rsoluble", "statement": "For a quartic without a repeated factor the type computed by set_roots_and_type from disc, H and Q is 3, 2 or 1 exactly when the form has two, four or no real zeros (zero at infinity included), and Rsoluble returns 1 exactly when y^2=g(x,z) has a real point.", "quantifier": "all integer quartics with non-zero discriminant", "why_tests_cant": "The input domain is infinite; the classification rests on the signs of three invariants and a wrong sign or boundary case shows only on special families (leading coefficient zero, H or Q zero).", "anchors": ["libsrc/mquartic.cc: quartic::set_roots_and_type", "libsrc/mlocsol.cc: Rsoluble"]}
{"id": "C62", "title": "locallysoluble decides solubility at the listed places", "statement": "locallysoluble(a,b,c,d,e,plist,badp) returns 1 exactly when y^2=g(x,z) has points over R and over Q_p for every p in plist (p below the crossover); otherwise badp is 0 or a prime of plist at which there is none. The quick Hilbert symbol test for b=d=0 never rejects a soluble quartic.", "quantifier": "all integer quartics with non-zero discriminant, all lists of primes", "why_tests_cant": "The input domain is infinite; the early exits (real test, Hilbert symbol) must agree with the full test at every prime.", "anchors": ["libsrc/mlocsol.cc: locallysoluble, new_qpsoluble"]}
{"id": "C63", "title": "Tate's algorithm", "statement": "CurveRed(E) replaces E by a global minimal model and records, for each prime dividing its discriminant and for no other, the exponent of the discriminant, the Kodaira symbol, the number c_p of rational components and the denominator exponent of j; the type is unique, every test of the algorithm is decided correctly and the I*m loop always ends.", "quantifier": "all integral Weierstrass equations with non-zero discriminant, all primes including 2 and 3", "why_tests_cant": "Infinitely many curves and unboundedly long runs of the I*m loop; the working copy keeps the changes of coordinates made for earlier primes, and a wrong choice of r, s or t at 2 or 3 shows only on special residue classes.", "anchors": ["libsrc/curvered.cc: CurveRed::CurveRed, root, rootsexist", "libsrc/curvedata.cc: Curvedata::minimalize"]}
{"id": "C64", "title": "Conductor exponents", "statement": "The exponent ord_p_N recorded by Ogg's formula is 1 exactly for multiplicative reduction (p not dividing c4), otherwise at least 2, equal to 2 for p>=5, at most 5 at 3 and at most 8 at 2; the conductor N divides the minimal discriminant, has the same prime divisors and has exactly these exponents.", "quantifier": "all integral Weierstrass equations with non-zero discriminant", "why_tests_cant": "A statement about all curves: the bounds rest on case distinctions modulo powers of 2 and 3 in every Kodaira type.", "anchors": ["libsrc/curvered.cc: CurveRed::CurveRed"]}
{"id": "C65", "title": "Points of elliptic curves over finite fields", "statement": "pointmodq's on_curve, ==, negate, twice, +, -, and n*P are membership, equality and the operations of the group E(F_q): results stay on the curve, the group axioms hold, n*P is the multiple for every integer n and the error exits of + are unreachable.", "quantifier": "all fields, all non-singular Weierstrass equations (a1..a6), all points, all integers n", "why_tests_cant": "The case distinctions (vertical chord, point of order 2, characteristic 2 and 3, doubling inside +) and associativity are statements about all triples of points over all primes.", "anchors": ["libsrc/pointsmod.cc: pointmodq::on_curve, negate, twice, operator+, operator-, operator*"]}
{"id": "C66", "title": "Baby-step-giant-step discrete logarithm", "statement": "my_bg_algorithm(P,Q,lower,upper) returns the least h in [lower,upper] with h*P=Q and -1 when there is none.", "quantifier": "all groups, all P, Q and all intervals", "why_tests_cant": "The baby-step table is keyed by the x-coordinate and keeps only the last of several equal keys, a collision P/-P is resolved by recomputation, and the number of giant steps must cover the interval for every length.", "anchors": ["libsrc/pointsmod.cc: my_bg_algorithm"]}
{"id": "C67", "title": "Order of a point modulo q", "statement": "my_order_point(P,mult) is the order of P for every non-zero multiple mult of it; my_order_point(P,lower,upper) is the order of P when the interval holds a multiple; set_hasse_bounds gives exactly the integers allowed by Hasse's bound and order_point(P) is the order of P.", "quantifier": "all points, all multiples, all q", "why_tests_cant": "Unbounded multiples with arbitrary factorisation, and a while loop that ends only if the cofactor is exact.", "anchors": ["libsrc/pointsmod.cc: my_order_point, set_hasse_bounds", "libsrc/eclib/pointsmod.h: order_point"]}
{"id": "C68", "title": "Merging points and linear relations", "statement": "tidy_lcm replaces m, n by coprime divisors with the same lcm; merge_points_1 gives a point of order lcm(order P, order Q) in <P,Q>; linear_relation returns the least m>0 with m*Q in <P> together with a such that m*Q=a*P.", "quantifier": "all positive m, n; all points of finite order", "why_tests_cant": "Correctness depends on the splitting of prime powers between m and n for arbitrary factorisations, and on the least divisor in an arbitrary group.", "anchors": ["libsrc/pointsmod.cc: tidy_lcm, merge_points_1, linear_relation"]}
{"id": "C69", "title": "Isomorphism type of the group of points modulo q", "statement": "my_isomorphism_type returns points P1, P2 of orders n1, n2 with n2 | n1 which are independent and generate the group; n2list gives exactly the n2 with n1*n2 in the interval dividing n1 and q-1.", "quantifier": "all elliptic curves over prime fields, all random points drawn", "why_tests_cant": "The result depends on the random points: a wrong result needs an unlucky sequence of them, and tests draw only a few.", "anchors": ["libsrc/pointsmod.cc: my_isomorphism_type, merge_points_2, n2list", "libsrc/eclib/gf.h: order"]}
{"id": "C70", "title": "Points with given x-coordinate and counting by Legendre symbols", "statement": "set_x_coordinate finds a point with the given x-coordinate exactly when there is one; random_point returns a finite point; set_group_order_via_legendre is the number of points; the second point of order 2 of my_isomorphism_type has order 2 and differs from the first, and is found exactly when there is one.", "quantifier": "all primes q and all curves modulo q", "why_tests_cant": "All curves over all prime fields, with one exceptional prime.", "anchors": ["libsrc/pointsmod.cc: set_x_coordinate, random_point, my_isomorphism_type", "libsrc/curvemod.cc: set_group_order_via_legendre", "libsrc/eclib/gf.h: sqrt"]}
{"id": "C71", "title": "Kernel and rank by structured sparse elimination", "statement": "smat_elim::kernel of a sparse matrix modulo a prime q ends without an error and without reading or writing outside an array; pc and npc are the pivotal and the other columns in increasing order and partition the columns; every row of the basis satisfies the equations, the basis is the identity at the non-pivotal columns, and every vector in the kernel is a combination of it; rank() is the rank of the matrix over GF(q).", "quantifier": "all primes q, all matrices with non-zero entries stored in increasing columns, all outcomes of the density test", "why_tests_cant": "The order of the eliminations depends on the shape of the matrix; a list of columns out of step with the rows only shows for particular patterns.", "anchors": ["libsrc/smat_elim.cc: sparse_elimination, step0, step1, step2, step3, step4, standard, step5dense, back_sub, old_kernel, rank", "libsrc/smat_elim.cc: eliminate, clear_col, elim, check_col, check_row, free_space, normalize, get_weight, has_weight_one, n_active_rows, n_active_cols"]}
{"id": "C72", "title": "Ordered lists of the sparse elimination", "statement": "ordlist::put and remove, of one element or of a sorted list, insert and remove exactly the given elements, keep the list increasing, and stay inside the array.", "quantifier": "all lists and elements", "why_tests_cant": "An insertion in the middle when the array has room, or an insertion into a full array, is never made by the elimination itself.", "anchors": ["libsrc/smat_elim.cc: ordlist::put, ordlist::remove, ordlist::find", "libsrc/eclib/smat_elim.h: ordlist"]}
{"id": "C73", "title": "Sparse subspaces modulo p", "statement": "kernel, eigenspace and subeigenspace of sparse matrices modulo a prime give a subspace whose basis matrix has reduced entries and is the identity at the pivots, and whose vectors are exactly the null vectors, the eigenvectors, and the eigenvectors in the given invariant subspace; combine gives the image of the second subspace under the first; restrict_mat gives the matrix of the operator on an invariant subspace; make1d of a non-zero vector has this vector as its only column and its first non-zero entry as pivot.", "quantifier": "all primes, sparse matrices and subspaces made by these functions", "why_tests_cant": "Equality of subspaces over all matrices and primes; an error of one row or pivot shows only for particular shapes.", "anchors": ["libsrc/smat_elim.cc: combine, restrict_mat, kernel, eigenspace, subeigenspace, make1d", "libsrc/eclib/smat_elim.h: ssubspace"]}
{"id": "C74", "title": "Coordinates of M-symbols", "statement": "The constructor of homspace, for level N and sign 0, 1 or -1, eliminates the 2-term and 3-term relations without access outside its tables, and gives each M-symbol (c:d) a coordinate vector modulo the prime used such that the linear forms in the coordinates are exactly the functions on M-symbols with Manin's relations (and with the given sign under (c:d) -> (-c:d)); the symbols listed in freegens have the unit vectors as coordinates, so that rk is the dimension.", "quantifier": "all levels N > 1, all three signs, all primes q > 3 as modulus", "why_tests_cant": "A universal property over all levels and all functions on M-symbols; tests compare dimensions at a few levels.", "anchors": ["libsrc/homspace.cc: homspace::homspace (relations, kernel, coord_vecs, freegens), coords_from_index, coords_cd"]}
{"id": "C75", "title": "The 3-term relations fit the relation matrix", "statement": "The number of non-trivial 3-term relations found is at most ngens+1, so that the relation matrix with ngens+10 rows always has room for them and the message 'Too many 3-term relations' is never printed.", "quantifier": "all levels N > 1 and all signs", "why_tests_cant": "A bound for all levels, resting on the connectedness of the graph of M-symbols under the modular group.", "anchors": ["libsrc/homspace.cc: homspace::homspace (maxnumrel, numrel)"]}
{"id": "C76", "title": "Coordinates of modular symbols", "statement": "The modular symbols freemods are a basis modulo the prime used of the modular symbols for Gamma_0(N) with the given sign: a modular symbol (an additive function of two cusps, invariant under Gamma_0(N)) takes arbitrary values at them and is determined by these values. coords(nn,dd) and coords(m) compute by continued fractions the coordinates of {0,nn/dd} and of {alpha,beta} with respect to this basis.", "quantifier": "all levels N > 1, all three signs, all primes q > 3, all pairs (nn,dd) not both 0 and all pairs of cusps", "why_tests_cant": "Manin's theorem and the telescoping of continued fractions for all cusps; tests evaluate a few symbols.", "anchors": ["libsrc/homspace.cc: add_coords, coords, freemods", "libsrc/symb.cc: modsym(const symb&)"]}
{"id": "C77", "title": "Matrices of Hecke and Atkin-Lehner operators", "statement": "heckeop(p) computes the matrix modulo the prime used of the Hecke operator T_p for a prime p not dividing the level, and of the Atkin-Lehner involution for a prime p dividing the level (for the exact power of p) and for p = N; conj computes the matrix of complex conjugation. Each of these operators maps modular symbols for Gamma_0(N) to such symbols.", "quantifier": "all levels N > 1, all three signs, all primes p, all primes q > 3 as modulus", "why_tests_cant": "Cosets of Gamma_0(N) for all levels and all primes p; tests know traces for a few.", "anchors": ["libsrc/homspace.cc: matop::matop(p,n), applyop, calcop, s_calcop, heckeop, s_heckeop, conj"]}
{"id": "C78", "title": "Heilbronn matrices", "statement": "For a prime p not dividing the level the matrix computed by newheckeop from Heilbronn matrices, both from the tables for p <= 29 and from the continued fractions for p > 29, is the matrix of T_p modulo the prime used, and its entries are congruent to those of heckeop(p).", "quantifier": "all levels N > 1, all three signs, all primes p not dividing N, all primes q > 3 as modulus", "why_tests_cant": "The tables have hundreds of matrices typed by hand, of which a wrong one may act trivially at the levels tested; the default case is an algorithm for all p.", "anchors": ["libsrc/homspace.cc: matop::matop(p), newheckeop", "libsrc/eclib/homspace.h: mat22::operator()(symb, homspace)"]}
{"id": "C79", "title": "The flag dual of newheckeop", "statement": "newheckeop(p,dual,display) returns the same matrix as heckeop(p,dual) also for primes p dividing the level, whatever is displayed.", "quantifier": "all spaces, all p dividing the level, both values of the flags", "why_tests_cant": "All callers in the library pass dual=0 and display=0, and the matrix is often symmetric.", "anchors": ["libsrc/homspace.cc: newheckeop, wop"]}
{"id": "C80", "title": "Hecke operators commute", "statement": "The matrices computed by heckeop for primes p (Hecke operators for p not dividing the level, Atkin-Lehner involutions for p dividing it) and for p = N, and by conj, commute with each other modulo the prime used; those of the involutions have square the identity.", "quantifier": "all levels N > 1, all three signs, all pairs of operators, all primes q > 3 as modulus", "why_tests_cant": "The search for eigenspaces relies on it for all operators at all levels; tests multiply matrices for a few.", "anchors": ["libsrc/homspace.cc: heckeop, s_calcop, conj, matop"]}
{"id": "C81", "title": "The boundary map and the cuspidal subspace", "statement": "The subspace kern computed by the constructor of homspace consists modulo the prime used exactly of the combinations of the free generators whose boundary is zero: the sum of v_j([beta_j]-[alpha_j]) vanishes in the space of cusps modulo Gamma_0(N), and modulo [-x]=[x] or [-x]=-[x] for the spaces with sign.", "quantifier": "all levels N > 1, all three signs, all primes q > 3 as modulus, all vectors", "why_tests_cant": "The list of cusps is built while the generators are scanned, with signs for equivalent negatives; tests compare dimensions at a few levels.", "anchors": ["libsrc/homspace.cc: homspace::homspace (deltamat, kern)", "libsrc/cusp.cc: cusplist::index, index_1"]}
{"id": "C82", "title": "Operators on the cuspidal subspace and restricted operators", "statement": "For a cuspidal space heckeop(p), which computes only the images of the generators occurring in the basis of kern, returns the matrix of the operator on the cuspidal subspace, which is invariant; heckeop_restricted(p,s), which computes only the images at the pivots of s, returns the matrix of the restriction of the operator to an invariant subspace s of the dual space.", "quantifier": "all levels N > 1, all three signs, all primes p and p = N, all invariant subspaces, all primes q > 3 as modulus", "why_tests_cant": "Skipping rows is correct only because of the shape of the basis; tests do not see rows which happen to be zero.", "anchors": ["libsrc/homspace.cc: needed, s_calcop, s_heckeop, s_calcop_restricted, s_heckeop_restricted", "libsrc/smat_elim.cc: restrict_mat"]}
{"id": "C83", "title": "Lifting a sparse matrix from a prime field to the rationals", "statement": "liftmat for sparse matrices (int and long) returns 1 exactly when every entry is congruent modulo the prime to a fraction with numerator and denominator at most sqrt(p/2); then dd is the least common denominator of these fractions and m the least residues of dd times the matrix. If the matrix is congruent to Z/D with D and the entries of Z so bounded, then m/dd = Z/D exactly, in lowest terms.", "quantifier": "all sparse matrices, all odd primes (for the exact lift), all denominators", "why_tests_cant": "Tests lift matrices with denominators 1 or 2; entries below the limit are skipped and denominators combine across entries.", "anchors": ["libsrc/smat.cc: liftmat, maxabs", "libsrc/arith.cc: modrat, lcm"]}
{"id": "C84", "title": "Lifting a dense matrix or subspace", "statement": "maxabs of a dense matrix is the largest absolute value of its entries; liftmat for dense matrices and lift for subspaces satisfy C83.", "quantifier": "all matrices and subspaces, all primes", "why_tests_cant": "The functions are only used by test programs for integral eigenspaces, where the wrong test is harmless.", "anchors": ["libsrc/mat.cc: liftmat, maxabs", "libsrc/sub.cc: lift"]}
{"id": "C85", "title": "Lifting from two primes", "statement": "liftmats_chinese returns a matrix m and dd such that m is congruent to dd times the first matrix modulo the first prime and to dd times the second modulo the second.", "quantifier": "all pairs of rows with entries at the same places, all pairs of coprime moduli", "why_tests_cant": "No test calls the function.", "anchors": ["libsrc/smat.cc: liftmats_chinese"]}
{"id": "C86", "title": "Lifting a vector up to scaling", "statement": "lift(v,p,ans) terminates without exception; if it returns 1 then ans is congruent to a unit multiple of v and its entries are at most 10*lim; it returns 1 if v is congruent to a unit multiple of a non-zero vector with entries at most sqrt(p/2), and, as the comment in the code claims, if there is a lift with entries at most 10*lim having an entry coprime to the first non-zero one.", "quantifier": "all vectors, all primes p > 8, int and long scalars", "why_tests_cant": "Failures need large denominators; newform vectors in the tests are small.", "anchors": ["libsrc/vec.cc: lift"]}
{"id": "C87", "title": "2-adic index: existence of 2-adic points in a residue class", "statement": "case1(a,b) and case2(a,b) terminate; case1 returns 1 iff there is a 2-adic integer x = 2 (mod 4) with x^3+4ax+4b a 2-adic square, case2 returns 1 iff there is a 2-adic integer x = 1 (mod 4) with x^3+(4a+1)x+(4b+2) a 2-adic square; both in the long and in the bigint version.", "quantifier": "all integers a, b (termination: non-zero discriminant)", "why_tests_cant": "The loop refines modulo ever higher powers of 2; each power of 2 is a new case.", "anchors": ["libsrc/twoadic.cc: case1, case2", "libsrc/mrank1.cc:460,488"]}
{"id": "C88", "title": "Square values of a cubic at 2-adic integers", "statement": "try1(poly) returns 1 if there is a 2-adic integer where the cubic polynomial takes a square value, and 0 otherwise.", "quantifier": "all cubic polynomials with integer coefficients", "why_tests_cant": "The function has no caller in the library; the wrong answer needs a Newton polygon with a root outside the 2-adic integers.", "anchors": ["libsrc/twoadic.cc: try1"]}
{"id": "C89", "title": "Legendre's equation: shortest vectors, Gaussian gcd, base cases", "statement": "minv returns a shortest non-zero vector of the lattice (and its norm satisfies Hermite's bound); GIgcd returns a greatest common divisor of two Gaussian integers in the quadrant e>0, f>=0; lem1, called with a certificate when the product of two coefficients is +-1, returns a non-trivial solution of ax^2+by^2+cz^2=0 lying in the lattice of the certificate.", "quantifier": "all integers (minv: positive weights and independent vectors; lem1: all certificates with two unit coefficients)", "why_tests_cant": "Loops whose length depends on the input, and many sign cases in lem1.", "anchors": ["libsrc/legendre.cc:70-254: minv, GIreduce, GIgcd, lem1plus, lem1minus, lem1"]}
{"id": "C90", "title": "Legendre's equation: descent without factorization", "statement": "For non-zero pairwise coprime a, b, c not all of one sign with a|n^2+bc, b|p^2+ca, c|q^2+ab, legendre_solve_cert_1 terminates and returns either 0 with a non-trivial solution in the lattice of the certificate, or i in 1,2,3 with u>1 whose square divides the i-th coefficient; in particular 0 for square-free coefficients, and never -1. lem3 returns the decomposition it claims.", "quantifier": "all certificates", "why_tests_cant": "Mutual recursion with backtracking on square factors that are found by accident; the backtracking branches are hit only for special inputs.", "anchors": ["libsrc/legendre.cc:495-566: legendre_solve_cert_1", "libsrc/legendre.cc:1003-1425: lem4_1, lem3"]}
{"id": "C91", "title": "Legendre's equation: reduction and parametrization of solutions", "statement": "For non-zero pairwise coprime a, b, c and a primitive solution, conic_mordell_reduce (a, b > 0), legendre_reduce and new_legendre_reduce terminate and return a primitive non-trivial solution satisfying Holzer's bounds x^2<=|bc|, y^2<=|ca|, z^2<=|ab| (for conic_mordell_reduce: z^2<=ab). legendre_param, given a primitive solution with z not 0, performs only exact divisions and returns three quadratics with a*qx^2+b*qy^2+c*qz^2=0 identically, discriminants -4bc, -4ac, -4ab, and leading coefficients a non-trivial solution.", "quantifier": "all coefficients, all primitive solutions", "why_tests_cant": "The number of steps of Mordell's reduction is unbounded, and Holzer's bound is a statement about all inputs.", "anchors": ["libsrc/conic.cc:853-974: conic_mordell_reduce", "libsrc/legendre.cc:647-695: legendre_reduce", "libsrc/legendre.cc:840-1000: legendre_param, new_legendre_reduce"]}
{"id": "C92", "title": "legendre_solve solves Legendre's equation", "statement": "For non-zero a, b, c (not necessarily square-free or coprime) and a factor base of distinct primes containing all primes dividing abc, legendre_solve returns either 1 and a primitive solution of ax^2+by^2+cz^2=0 with x, y, z >= 0, or 0, and then there is no non-trivial solution. For square-free pairwise coprime coefficients the solution satisfies Holzer's bounds.", "quantifier": "all integers a, b, c not 0, all factor bases", "why_tests_cant": "That a 0 is right is a statement about all triples of integers.", "anchors": ["libsrc/legendre.cc:268-410: legendre_solve", "libsrc/legendre.cc:698-716: make_certificate"]}
{"id": "C93", "title": "testlocsol and solve_conic", "statement": "testlocsol decides the existence of a non-trivial solution of ax^2+by^2+cz^2=0 (square-free pairwise coprime coefficients) and of ax^2+by^2=z^2 (square-free coefficients). solve_conic(a,b,c,d,...), for every method, returns a primitive solution of ax^2+bxz+cz^2=dy^2 or 0 when there is none (a, d, b^2-4ac non-zero).", "quantifier": "all coefficients, all lists of primes as specified, all methods", "why_tests_cant": "Solubility is a statement about all triples of integers; the wrong branch for the methods 0-3 is not reached by the default method.", "anchors": ["libsrc/conic.cc:68-128: solve_conic", "libsrc/conic.cc:504-576: testlocsol"]}
{"id": "C94", "title": "solve_conic_param parametrizes a conic", "statement": "For a, c, d, b^2-4ac non-zero solve_conic_param returns 0 if ax^2+bxz+cz^2=dy^2 has no non-trivial solution, and otherwise quadratics qx, qy, qz with integer coefficients, all divisions being exact, with a*qx^2+b*qx*qz+c*qz^2=d*qy^2 identically, discriminants 4cd, b^2-4ac, 4ad, and leading coefficients a non-trivial solution.", "quantifier": "all coefficients", "why_tests_cant": "The divisibilities depend on a congruence modulo the square of the solution found.", "anchors": ["libsrc/conic.cc:661-795: solve_conic_param"]}
{"id": "C95", "title": "desc2: second descent is sound", "statement": "For d1, d2 not squares and c^2-4d1d2 non-zero: desc2 never reaches a failure; a point (x,y,z) it returns satisfies y^2 = d1x^4+cx^2z^2+d2z^4 with x, z coprime; and -1 is returned only if the homogeneous space has no rational point. process_d3 returns -1 only if no point of the homogeneous space has class d3, and a point returned by it is mapped back correctly. g_content is the largest number whose square divides the coefficients.", "quantifier": "all coefficients, supports and generator lists", "why_tests_cant": "The absence of points can not be observed by testing; the map back depends on transformations found on the way.", "anchors": ["libsrc/desc2.cc:54-257: desc2", "libsrc/desc2.cc:260-405: process_d3", "libsrc/desc2.cc: g_content"]}
{"id": "C96", "title": "qc: the 2-covering map", "statement": "For a quartic g of non-zero discriminant with invariants I, J and a rational point (x:y:z) on y^2=g(x,z), qc returns a point on the curve Y^2=X^3-27IX-27J, which is the image of a rational point of the quartic under the covering map given by the covariants of g of degree 4 and 6, and its image on the original curve.", "quantifier": "all quartics and all rational points on them", "why_tests_cant": "The case distinctions (leading or last coefficient a square) select formulae that are used for few quartics.", "anchors": ["libsrc/qc.cc:28-92: qc"]}
{"id": "C97", "title": "ratpoint: search for small points", "statement": "ratpoint(g,min,max,x,y,z) returns only points of y^2=g(x,z) with coprime x, z; if it returns 0, there is no such point with min <= |x|+|z| <= max.", "quantifier": "all quartics, all bounds", "why_tests_cant": "That no point is missed is a statement about all pairs in the region.", "anchors": ["libsrc/mglobsol.cc:37-72: ratpoint"]}
{"id": "C98", "title": "quartic_sieve::search_range: sieve-assisted search", "statement": "The flags computed for each auxiliary modulus m are set exactly for the residues at which the quartic is a square modulo m. search_range finds only points of the quartic; if it finds none, no point (u:w) in lowest terms lies in the region searched.", "quantifier": "all quartics, all bounds for u, all moduli options, all lists of primes", "why_tests_cant": "A sieve that rejects too much is not visible: the search still returns, with fewer points.", "anchors": ["libsrc/mglobsol.cc:75-190: quartic_sieve::quartic_sieve", "libsrc/mglobsol.cc:375-579: quartic_sieve::search_range"]}
{"id": "C99", "title": "qsieve::init_f: sieve tables and excluded denominators", "statement": "For every prime p of the table and every denominator b, the bit of the sieve tables for the numerator a is set exactly if F(a,b) is a square modulo p (b prime to p), respectively if the degree is odd or the leading coefficient is a square modulo p (p divides b), both in the table of all numerators and in the table of odd numerators. No point in lowest terms has a denominator divisible by an excluded one, nor an even numerator when only odd numerators are kept.", "quantifier": "all polynomials of degree at least 2, all primes of the table, all denominators, all words and bits", "why_tests_cant": "The tables are packed words rotated from one pattern; a wrong bit only loses points that a test would have to know.", "anchors": ["libsrc/sieve_search.cc:332-718: qsieve::init_f"]}
{"id": "C100", "title": "qsieve::search: points found by the sieve search", "statement": "Every point handed to process is the point at infinity (only when it is rational) or a solution in lowest terms with the right y. If the search is not stopped by process, every point (a:b) in lowest terms with b in the range and a in one of the intervals is found.", "quantifier": "all polynomials of degree at least 2, all lists of primes for both stages, all array sizes, intervals and bounds, all behaviours of process", "why_tests_cant": "A search that misses points at the border of the region, or for special residues, looks the same as one for a curve with fewer points.", "anchors": ["libsrc/sieve_search.cc:719-834: qsieve::sift", "libsrc/sieve_search.cc:833-957: qsieve::sift0, check_point", "libsrc/sieve_search.cc:1029-1170: qsieve::search"]}
{"id": "C101", "title": "ffmodq and weil_pol: functions on a curve over F_q and their divisors", "statement": "The operations of ffmodq are those of the coordinate ring of the curve; vertical, tangent and chord return, for all points including equal, opposite and infinite ones, the line functions with the divisors (P)+(-P)-2O, 2(P)+(-2P)-3O, (P)+(Q)+(-P-Q)-3O and leading coefficient 1; for m >= 2 and mT = 0, weil_pol(T,m) returns the unique function with leading coefficient 1 and divisor m(T)-mO, all divisions in it are exact, and the disabled check h1^2-f2*h1*h2-f1*h2^2 = const*(x-x(T))^m holds.", "quantifier": "all fields, all Weierstrass curves over them, all nonsingular points, all m >= 2", "why_tests_cant": "A wrong case in chord or tangent gives a polynomial of the right shape; that its zeros have the right multiplicity for every point and every m is a statement about divisors.", "anchors": ["libsrc/ffmod.cc:53-115: ffmodq operators, evaluate", "libsrc/ffmod.cc:117-183: vertical, tangent, chord", "libsrc/ffmod.cc:185-223: weil_pol"]}
{"id": "C102", "title": "evaluate_weil_pol: the value without computing the function", "statement": "For T of order m >= 2 and S not a multiple of T, evaluate_weil_pol_0(T,m,S) never divides by 0 and returns the value of weil_pol(T,m) at S; evaluate_weil_pol(T,m,S) returns this nonzero value when mS is not 0, and else the quotient of the values at R+S and R for the random point R.", "quantifier": "all fields, all Weierstrass curves, all T of order m, all S, all R with mR not 0", "why_tests_cant": "The doubling algorithm passes through other functions than weil_pol; agreement for some m says nothing about other binary expansions.", "anchors": ["libsrc/ffmod.cc:238-302: evaluate_weil_pol_0", "libsrc/ffmod.cc:304-317: evaluate_weil_pol"]}
{"id": "C103", "title": "TLSS::map1point is a homomorphism E(F_q) -> (Z/p)^rank", "statement": "For a prime p, TLSS::map1point (after the reduction of the point) returns for every point of E(F_q) a vector of `rank` entries from 0 to p-1, and modulo p this is a homomorphism of groups; so it is zero on pE(F_q). For rank 1 (discrete logarithm of (n1/p)P) the kernel is exactly pE(F_q) when n1 is the exponent; for rank 2 (Tate-Lichtenbaum maps) the error branches (both P and -P map to 0; not a p-th root of unity) are not reached. The value used for p = 2 at the point T itself, and -P instead of P for p > 2, are the right ones. root_of_unity returns for a prime n a primitive root.", "quantifier": "all finite fields, all Weierstrass curves over them, all primes p, all points of order p, all points", "why_tests_cant": "That the map is additive is a reciprocity law about the functions with divisor p(T)-pO; it needs a proof for all triples of points on a line, including those through T.", "anchors": ["libsrc/tlss.cc:31-91: init, init_tlpolys", "libsrc/tlss.cc:96-226: map1point", "libsrc/eclib/gf.h:82-94,104-113: root_of_unity, roots_of_unity"]}
{"id": "C104", "title": "Saturation of a list of points at p and at all primes", "statement": "saturator::test_saturation(p) returns 1 only if the points are p-saturated (a point R with pR in the subgroup H generated by the points and the torsion lies in H). saturator::do_saturation(p) replaces points so that the new subgroup contains the old one, the number of points and their independence modulo torsion are kept, and when it returns m (not -1) the new points are p-saturated and the index of the subgroups is p^m. do_saturation(plist) and saturate(): when no prime is returned in unsat and the index bound is right, the new points are saturated and `index` is the index. The loop ends for maxntries > 0; all accesses Plist[keepi] are inside the vector.", "quantifier": "all abelian groups (points), all lists of points, all primes p, all sequences of auxiliary primes q whose maps are homomorphisms to F_p^r", "why_tests_cant": "A wrong answer shows only for particular curves and sequences of primes q; independence and the index have to hold after any number of replacements.", "anchors": ["libsrc/saturate.cc:70-109: test_saturation, test_saturation_extra", "libsrc/saturate.cc:111-225: nextq", "libsrc/saturate.cc:227-309: kernel_vector, enlarge", "libsrc/saturate.cc:311-408: do_saturation", "libsrc/saturate.cc:410-491: saturate"]}
{"id": "C105", "title": "pCoTorsion generates the torsion modulo p", "statement": "pCoTorsion(AllTorsion,p) for a prime p returns torsion points which generate the torsion subgroup modulo p times the torsion subgroup, when AllTorsion has every torsion point exactly once and the torsion group is cyclic or has a cyclic subgroup of index 2 and two points of order 2.", "quantifier": "all abelian groups with finite torsion of the stated structure, all orders in the list, all primes p", "why_tests_cant": "The choice of the second point depends on the order of the list and on which point of maximal order is met first.", "anchors": ["libsrc/saturate.cc:514-554: pCoTorsion"]}
{"id": "C106", "title": "apvec computes the eigenvalues a_p from the dual eigenvectors", "statement": "For a list of newforms given by dual eigenvectors, newforms::apvec(p) returns for every prime p not dividing the level the eigenvalues of T_p, and for p dividing the level 0 or minus the Atkin-Lehner eigenvalue. find_coords_plus_minus computes the values modulo the prime modulus at all M-symbols of the modular symbol with the given values at the free generators, divided by their content. find_jlist finds for each form a symbol at which its value, stored in fac, is not zero.", "quantifier": "all levels, all primes p, all lists of forms, all eigenvectors with coordinates small in comparison with the modulus", "why_tests_cant": "The identity between the sum over continued fractions and the Hecke operator has to hold for every prime; tests compare a few a_p at small levels.", "anchors": ["libsrc/newforms.cc:1863-1960: update, apvec", "libsrc/newforms.cc:382-418: find_coords_plus_minus", "libsrc/newforms.cc:960-1010: find_jlist", "libsrc/homspace.cc:445-493: nfproj_coords"]}
{"id": "C107", "title": "Manin's vector, L/P and the values of plus and minus modular symbols", "statement": "maninvector(p) is the linear form f -> sum over k mod p of f{0,k/p}, whose value at an eigenvector of T_p with eigenvalue a is (1+p-a) f{0,oo}. After find_bsd_ratio the number loverp is the value at {oo,0} divided by denomplus, and is not negative; plus_modular_symbol(r) returns f{0,r}/denomplus, or f{oo,r}/denomplus with base_at_infinity, times the optimality factor; minus_modular_symbol does not depend on the base point.", "quantifier": "all levels, all primes p, all signs, all eigenvectors, all cusps r", "why_tests_cant": "The sign conventions and the base point matter only for particular forms; the sum over residues is folded differently for each sign and for p=2.", "anchors": ["libsrc/homspace.cc:1184-1206: maninvector", "libsrc/newforms.cc:335-380: find_bsd_ratio", "libsrc/newforms.cc:2021-2039: plus_modular_symbol, minus_modular_symbol", "libsrc/homspace.cc:544-549: nfproj_coords"]}
{"id": "C108", "title": "Lists of eigenvalues and the order of the newforms", "statement": "fixup_eigs turns the list of eigenvalues of T_p and W_p at the first primes into the published a_p (0 at primes whose square divides the level, minus the eigenvalue of W_q at other bad primes), the complete list of eigenvalues of the W_q, and the sign of the functional equation; unfix_eigs undoes it and refix_eigs restores it. less_newform_old and less_newform_new are strict orders whose incomparable forms have equal lists, so that std::sort is well defined. eiglist and aqlist return the eigenvalues in the stated order without leaving their vectors.", "quantifier": "all levels, all lists of eigenvalues of all lengths", "why_tests_cant": "The loops stop early when all bad primes are done and the lists may be shorter than the largest bad prime; comparators which are not strict weak orders fail only for particular lists.", "anchors": ["libsrc/newforms.cc:37-85: less_ap, less_apvec, comparers", "libsrc/newforms.cc:87-125: eiglist", "libsrc/newforms.cc:252-333: fixup_eigs, unfix_eigs, refix_eigs", "libsrc/newforms.cc:1543-1562: aqlist"]}
{"id": "C109", "title": "Subgroup of points with everywhere good reduction", "statement": "gr1prime replaces a list of points by generators of the subgroup, of the group they generate, of points with good reduction at p (in the identity component for p=0, the real place), and returns the index of this subgroup; it terminates and reports no error. grprimes and egr_subgroup do this for a list of places, for all the bad primes, and with real_too also the real place.", "quantifier": "all lists of points of all lengths in any commutative group, all cyclic component groups and (Z/2)^2, all lists of places", "why_tests_cant": "The swaps, the search for u and the new generators depend on the orders of the images of all the points; curves with large component groups at several primes and high rank are rare.", "anchors": ["libsrc/egr.cc:222-244: OrderInComponentGroup", "libsrc/egr.cc:252-451: gr1prime", "libsrc/egr.cc:456-482: grprimes, egr_subgroup"]}
{"id": "C110", "title": "comp_map_image returns the order of the image group", "statement": "For a matrix of integers and a list of positive moduli, comp_map_image terminates, always has a pivot row, and returns the order of the group generated by the rows in the product of the cyclic groups of these orders.", "quantifier": "all matrices of all sizes, all positive moduli", "why_tests_cant": "The elimination over Z modulo different moduli in each column has many paths (scaling by the gcd, repeated reduction, pivots -1); tests use the few component groups of the curves at hand.", "anchors": ["libsrc/egr.cc:694-800: comp_map_image"]}
{"id": "C111", "title": "egr_index returns the index of the points with everywhere good reduction", "statement": "egr_index returns the index, in the group generated by the points, of the subgroup of points with good reduction at all bad primes (and, with real_too, in the connected component of the identity); MapPointsToComponentGroup computes for all the points the images under one homomorphism to the component group and never leaves its table of images.", "quantifier": "all lists of points, all lists of bad primes, all component groups", "why_tests_cant": "The consistency of the signs for groups of order 3 and 4 matters only when several primes have such groups and the points meet them with different signs.", "anchors": ["libsrc/egr.cc:489-576: egr_index", "libsrc/egr.cc:589-681: MapPointsToComponentGroup"]}
{"id": "C112", "title": "The rank computed by the sifter is a lower bound for the rank modulo 2E(Q)", "statement": "The vectors computed by sifter::eps are the values of one homomorphism from E(Q) to (Z/2)^D whose components are the square classes of x - e in Q_p for the auxiliary primes p and roots e in Q_p of the 2-division polynomial; process never writes outside its matrix, and getrank is the dimension of the span of the images of the points processed. In particular points for which the rank equals their number are independent modulo 2E(Q). nrootscubic returns all roots of a cubic modulo a prime.", "quantifier": "all integral curves with nonzero discriminant, all numbers of auxiliary primes, all lists of rational points other than the origin", "why_tests_cant": "A wrong character for points reducing to a 2-torsion point modulo an auxiliary prime, or a wrong elimination, changes the rank only for special points; the claim is about all points.", "anchors": ["libsrc/sifter.cc:30-265", "libsrc/marith.cc:1151-1171: nrootscubic"]}
{"id": "C113", "title": "The oldclasses at a level and their dimensions", "statement": "For each newform f of level d, 11 <= d < N, d | N, and each system of signs at the primes dividing N/d, getoldclasses enters the class exactly when the common eigenspace of the involutions W_q on the forms f(kz), k | N/d, is not zero; the multiplicity is its dimension and the list of eigenvalues has the sign of the class at the primes dividing N/d, the eigenvalue of W_q at the other primes dividing N and a_p elsewhere. totalolddim is the sum of (number of forms of level d) * (number of divisors of N/d). dimoldpart gives the sum of the dimensions of the classes whose list begins with the given one.", "quantifier": "all levels N, all lists of newforms at the divisors, all systems of signs", "why_tests_cant": "An error in the multiplicity of one sign pattern appears only at levels divisible by a high power of a prime, or by primes with a large index; the claim is about all levels.", "anchors": ["libsrc/oldforms.cc:125-254", "libsrc/eclib/templates.h:112-116: startswith", "libsrc/moddata.cc:27-51: nap", "libsrc/newforms.cc:1617-1642: createfromcurves_mini"]}
{"id": "C114", "title": "form_finder::find finds exactly the new eigenspaces", "statement": "form_finder::find, without threads, uses each list of eigenvalues in the given ranges once, exactly those for which the common eigenspace modulo the prime of the dual operators has the dimension looked for (1 for the plus space, else 2) at a depth greater than mindepth, is not all old, and no shorter beginning of the list is all old or was used; for every new system of at most maxdepth eigenvalues exactly one beginning is used. The vectors bplus, bminus generate the eigenspace, respectively its parts with conjugation +1 and -1. The spaces are computed from the nested relative eigenspaces and the columns of the operators at their pivots only.", "quantifier": "all families of commuting operators, all ranges of eigenvalues, all depths and old dimensions", "why_tests_cant": "The nested restriction of an operator to the columns at the pivots must be right at each depth of the tree and for all pivots; a wrong order of the composition appears only when relative spaces have non-trivial pivots at two depths.", "anchors": ["libsrc/xsplit.cc:56-616"]}
{"id": "C115", "title": "First descent via 2-isogeny: Selmer groups and rank bound", "statement": "For every elliptic curve y^2 = x(x^2+cx+d) with integers c, d, the first step of rank2::local_descent computes bases (up to squares) of the two Selmer groups of the 2-isogeny: elsgens0 is a basis of the group of squarefree divisors D of d for which y^2 = Dx^4+cx^2+d/D has points over R and over Q_p for all primes p (all primes, although only those dividing 2d(c^2-4d) are tested), elsgens1 the same for (-2c, c^2-4d); the first nt2gens are classes of rational points of finite order; and rank_bound = els0+els1-2 is an upper bound for the rank of E(Q). Curves with too many primes are reported with success=0, as are singular ones.", "quantifier": "all integers c, d with d(c^2-4d) != 0, all supports", "why_tests_cant": "A generator missed by the masking of the divisors gives a rank bound that is too small, which shows only on curves where the missed class is needed; the bound is a statement about the infinite group E(Q).", "anchors": ["libsrc/mrank2.cc:160-381: find_elsgens", "libsrc/mrank2.cc:688-763: local_descent", "libsrc/sqfdiv.cc:166-191: makenum, makeindex", "libsrc/mlocsol.cc:182-206: locallysoluble"]}
{"id": "C116", "title": "Second local descent, global descent and rank of a curve with a 2-torsion point", "statement": "For every elliptic curve y^2 = x(x^2+cx+d) with integers c, d, find_els2gens and find_glsgens of rank2 are correct relative to the searches they call (testquartic, desc2): els2gens are bases of the subgroups of the Selmer groups that survive the second local descent, rank_bound = els20+els21-2 is at least the rank of E(Q); glsgens are independent classes of rational points, so rank = gls20+gls21-2 is at most the rank and index2 at most the order of E(Q)/2E(Q); makepoint returns points of infinite order of the curve. If the descent is reported certain, rank is the rank of E(Q), index2 is the order of E(Q)/2E(Q), and the points found generate E(Q) modulo torsion and doubles, that is together with the torsion a subgroup of odd index.", "quantifier": "all integers c, d with d(c^2-4d) != 0, all answers of the searches that meet their contracts", "why_tests_cant": "The generators are found by running through the indices of a bit space with masks; a class that is passed over makes the rank too small only on curves where that class is needed. The conclusions concern the infinite group E(Q).", "anchors": ["libsrc/mrank2.cc:46-87: makepoint", "libsrc/mrank2.cc:384-487: find_els2gens", "libsrc/mrank2.cc:490-685: find_glsgens", "libsrc/mrank2.cc:764-860: local_descent, second step", "libsrc/mrank2.cc:925-1032: rank, index2, certain"]}
{"id": "C117", "title": "ratapprox finds the fraction of a rational number with small denominator", "statement": "For every real number x (exact arithmetic), ratapprox with maxd = 0 ends and returns a fraction a/b in lowest terms with b > 0 and |x - a/b| <= 10^-7, and if x is a fraction with denominator at most 3162 the fraction returned is x itself; the loop never divides by 0.", "quantifier": "all real x", "why_tests_cant": "The continued fraction with rounding to the nearest integer has no bound on the number of steps or on the size of the partial quotients; tests cover single numbers.", "anchors": ["libsrc/marith.cc:1204-1239: ratapprox", "libsrc/interface.cc:324-349: longify"]}
{"id": "C118", "title": "Determinants of height pairing matrices", "statement": "det of mwprocs.cc returns the determinant of the matrix for all matrices whose leading entries in the elimination are at least 10^-6 in absolute value, for all matrices of size at most 2, and whenever the value returned is not 0.", "quantifier": "all sizes, all matrices over an ordered field", "why_tests_cant": "The search for a pivot only runs when a leading entry is small, which does not happen for the height matrices in the tests.", "anchors": ["libsrc/mwprocs.cc:95-116: get_minor, det_minor", "libsrc/mwprocs.cc:118-159: det"]}
{"id": "C119", "title": "mw::process keeps a basis of the group generated by the points", "statement": "Starting from no points, mw::process keeps a list of points that are independent modulo torsion, their height pairing matrix and its determinant (the regulator); after a point P is processed, the list and the torsion generate the group generated by the old list, the torsion and P (with saturation a group in which this has finite index); the rank increases exactly if P is independent of the old points. The same holds for the version for lists of points and mw::saturate.", "quantifier": "all groups with a nondegenerate height pairing, all lists of points and all ranks below 30, provided the quotient of regulators of an independent point exceeds 10^-4, a multiple by at most 3162 of a dependent point lies in the old group, and the minors have no small pivots", "why_tests_cant": "The relation found from the cofactors is reduced by a loop whose course depends on the coefficients; a wrong step gives a subgroup of another index, which is not visible in the rank and only shows in the regulator.", "anchors": ["libsrc/mwprocs.cc:163-184: cleardenoms", "libsrc/mwprocs.cc:226-283: process(vector)", "libsrc/mwprocs.cc:285-588: process(Point)", "libsrc/mwprocs.cc:590-650: saturate", "libsrc/heights.cc:304-317: height_pairing"]}
{"id": "C120", "title": "Points found on the search model are converted to points of the curve", "statement": "For every Weierstrass equation with integer coefficients and every triple (x,y,z) with z = rz^2 not 0, the triple satisfies the equation of the model searched by mw::search (with iso = 0 only if a1 = a3 = 0) exactly if the point made by mw::process(x,y,z,sat) lies on the curve; its z-coordinate is not 0.", "quantifier": "all integers a1,...,a6, x, y, rz with rz != 0", "why_tests_cant": "An identity between polynomials in eight variables.", "anchors": ["libsrc/mwprocs.cc:203-224: process(x,y,z,sat)", "libsrc/mwprocs.cc:663-679: search"]}
{"id": "C121", "title": "reduce_quad returns a unimodular matrix which reduces the quadratic", "statement": "The matrix returned by reduce_quad has determinant 1 whatever the floating point operations give; in exact arithmetic both loops end, the values b and c kept by the code are the coefficients of the transformed quadratic (divided by the leading one), c > 0.99999 at the end, and the transformed quadratic is reduced: |b| <= 1 and c > 0.99999.", "quantifier": "all positive definite quadratics x^2+bx+c over an ordered field (archimedean for the termination), all roundings to a nearest integer", "why_tests_cant": "The callers only see an equivalent quartic; a transformation which is unimodular but does not reduce gives larger coefficients and no wrong result, and whether the loops end depends on the input.", "anchors": ["libsrc/reduce.cc:250-348: reduce_quad, reduce_quad_1", "libsrc/reduce.cc:501-545: one_step"]}
{"id": "C122", "title": "new_equiv decides the equivalence of binary quartics", "statement": "For two binary quartics with integer coefficients, new_equiv returns 1 exactly if they have the same invariants I and J, the same type and the same equivalence code, and there are a rational m != 0 and a rational matrix M of nonzero determinant with g2 = m^2 (g1 o M). The divisions by 3 and 27 in the code are exact.", "quantifier": "all quartics with nonzero leading coefficient whose resolvent cubic x^3-3Ix+J has no rational root; the implication from equivalence to the answer 1 for all quartics with disc != 0", "why_tests_cant": "The test replaces the search for a transformation by the existence of an integral root of a quartic polynomial; that the two are the same is a theorem about squares in a cubic field.", "anchors": ["libsrc/mequiv.cc:26-84: new_equiv", "libsrc/mquartic.cc:259-268: make_zpol"]}
{"id": "C123", "title": "make_point_from_x finds a point with a given rational x", "statement": "make_point_from_x(CD,xa,xd,P) with xd != 0: if it returns 1 then P is a valid reduced finite point of the curve with x(P) = xa/xd. If xa, xd are coprime (xd of either sign) and the curve has a rational point with x = xa/xd then it returns 1. The condition coprime is needed, and for xd = 0 = xa the triple [0:0:0] is accepted.", "quantifier": "all curves with nonzero discriminant, all integers xa, xd", "why_tests_cant": "That every rational point has a square denominator of x, and that the numerators of y found from the integral square root have the right parity, is a statement about all points.", "anchors": ["libsrc/lambda.cc:110-126: make_point_from_x"]}
{"id": "C124", "title": "lambda_bad_1 lists the local heights", "statement": "Let E have reduction of the given Kodaira type at p, and P be a point of E whose denominator is prime to p. Then the value pheight(P,p) is in the list lambda_bad_1(p,kcode,ord_p(disc)).", "quantifier": "all primes p, all integral curves in the given type at p with fewer than 99999 components, all points with p-integral coordinates", "why_tests_cant": "The list for a prime depends on the type only; that no point gives another value is a theorem on the components of the reduction for each Kodaira type, with unbounded families I_n and I*_n.", "anchors": ["libsrc/lambda.cc:36-73: lambda_bad_1", "libsrc/heights.cc:125-189: pheight"]}
{"id": "C125", "title": "lambda_bad returns all the sums of local values", "statement": "The vector returned by lambda_bad has exactly the sums of one value from each of the local lists, its size being nlambda.", "quantifier": "all lists of bad primes with Kodaira codes and valuations", "why_tests_cant": "With one prime having several values the vector is right; whether sums are missing depends on the number of such primes and the sizes of the lists.", "anchors": ["libsrc/lambda.cc:75-108: lambda_bad"]}
{"id": "C126", "title": "make_point_from_x_and_ht finds the point from its height", "statement": "A point returned by make_point_from_x_and_ht is a valid point of the curve with x = Iround(xp d^2)/d^2 for one of the approximate denominators d; if x(P) = n/d^2 in lowest terms with d one of the approximate denominators and n = Iround(xp d^2), or d within 10 of such, then a point is returned.", "quantifier": "all curves with nonzero discriminant, all lists of approximate denominators, any rounding function", "why_tests_cant": "The failures depend on rounding of the denominators: to 0, or to a neighbour of the right integer.", "anchors": ["libsrc/lambda.cc:166-201: make_point_from_x_and_ht"]}
{"id": "C127", "title": "Local heights at primes dividing the denominator", "statement": "For a reduced finite point P of an integral curve and a prime p dividing its denominator, pheight(P,p) = log(p) * ord_p(denominator of x(P)); the sum over all these primes is 2 log(gcd(X,Z)), the term that height adds for them.", "quantifier": "all curves with nonzero discriminant, all points, all primes", "why_tests_cant": "The branch of pheight taken depends on valuations of expressions in all the coefficients; 2 and 3 behave differently.", "anchors": ["libsrc/heights.cc:125-189: pheight", "libsrc/heights.cc:85-105: height"]}
{"id": "C128", "title": "pheight is even and does not depend on the equation", "statement": "pheight(-P,p) = pheight(P,p), and pheight is the same for two integral equations of the curve that differ by x = x'+r, y = y'+sx'+t.", "quantifier": "all curves with nonzero discriminant, all reduced finite points, all primes, all r, s, t", "why_tests_cant": "A universal statement over curves, points and changes of the equation.", "anchors": ["libsrc/heights.cc:125-189: pheight"]}
{"id": "C129", "title": "make_point_from_x with a real number finds a point by its convergents", "statement": "For exact arithmetic: a point returned is a valid finite point of the curve whose x-coordinate is a fraction a/b in lowest terms with |x - a/b| <= 1/b^2. If x = n/d in lowest terms is the x-coordinate of a rational point, d < 10^maxdd, and the numbers that count as zero are smaller than 1/d^2, then a point is returned within d passages of the loop.", "quantifier": "all curves with nonzero discriminant, all x, any rounding to a nearest integer, any test for zero with the stated property", "why_tests_cant": "The convergents and their signs depend on x; the denominators can be negative, and a zero denominator would give a triple that is not a point.", "anchors": ["libsrc/lambda.cc:128-164: make_point_from_x"]}
{"id": "C130", "title": "height adds all the local heights", "statement": "For a reduced finite point on the (minimal) curve, the value computed by height from the real height, 2 log(zroot) and the loop on bad primes not dividing zroot is the real height plus the sum of pheight(P,p) over all primes p dividing the discriminant or the denominator; adding further primes does not change the sum.", "quantifier": "all curves with nonzero discriminant, all finite points, any value of the real height, the list of bad primes without repetitions", "why_tests_cant": "The primes of the denominator are never computed; that their contributions and those of the bad primes are counted exactly once is a statement over all points.", "anchors": ["libsrc/heights.cc:80-117: height"]}
