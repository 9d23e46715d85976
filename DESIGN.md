# DESIGN

Formal model of parts of eclib (C++ source in /repo, read as text) in Lean 4 with
Mathlib.  This file states what is modelled, how, and what is trusted.  The list of
properties is `properties.jsonl`, the theorems proving each are in `MANIFEST.json`,
wrong programs tried against the theorems are in `seeded/LOG.jsonl`.

## Trusted base

- Lean's kernel (4.33.0), and Mathlib's *statements* where a specification uses a Mathlib
  notion (`Int.gcd`, `jacobiSym`, `Matrix.charpoly`, `WeierstrassCurve.Affine.Point`, `ZMod`,
  `Rat`, `IsSquare`, `Squarefree`, ...).
- Axioms: every theorem depends only on (a subset of) `propext`, `Classical.choice`,
  `Quot.sound`.  There are no axioms of our own, no `sorry`, no `native_decide`, no
  `bv_decide`, no `implemented_by`.  Whole finite tables are checked with `decide +kernel`
  (kernel evaluation), then lifted to all inputs by a lemma on residues.
- The reading of the C++: that each Lean definition says what the cited lines do.  This is
  the only informal step; each definition cites file and lines and states its simplifications.
- Contracts of external libraries, as explicit hypotheses/structures, never as axioms:
  `XGcd` (NTL `XGCD`: returns the gcd >= 0 and Bezout coefficients), `SqrRootMod` (NTL
  `SqrRootMod`: a square root modulo an odd prime when one exists).  Both structures are
  inhabited in the development (`Marith.Props.xgcd0`, `sqr0`), so nothing is vacuous.
  A caller's duty such as "this list is the list of primes dividing d" is a hypothesis.

## Conventions of the model

- `long`/`int` are `Int` with C's truncated division (`Int.tdiv/tmod`), `bigint` (NTL `ZZ`) is
  `Int` with floored division (`Int.fdiv/fmod`).  Overflow of `long` is not modelled except
  where the property is about it (C08 `xmm0`, C50 conversions, C42/C43/C60 shifts of `int`);
  each file says so.  Doubles are not modelled, except that C09 treats the float bound of
  `modrat` as an arbitrary integer bound and C56 (norms) is about exact rationals.
- Undefined behaviour and out-of-range accesses are a distinct outcome (`none`).  The theorems
  show the outcome does not occur under the stated precondition, or exhibit it.
- Loops are well-founded recursions (termination is then part of the model) or `Option`
  recursions with fuel whose sufficiency is proved.
- Each property is stated against a specification that does not mention the model's helpers
  (divisibility, congruence, Mathlib objects, spans as sums of sublists, ...).
- `_partial` in a theorem name: the English claim is wider than what is proved; the doc comment
  and the note in `MANIFEST.json` say what is missing and, where the code is wrong, which
  theorem refutes the claim.

## What is modelled

| Lean directory | source | contents |
|---|---|---|
| `Arith` | arith.cc, arith.h | gcd, bezout, bezout_x, invmod, modrat (long), chrem, mod, posmod, legendre, kronecker, val, divide_out, posdivs, alldivs, sqdivs, sqfreedivs, intlog2-free parts |
| `Marith` | marith.cc | bigint versions: bezout, invmod, gauss_reduce, modrat, val, divide_out, kronecker, isqrt, sqrt modulo p^n and composite moduli, sqfdecomp, rusin_lem3, divisor lists, I2long/I2int |
| `Small` | xmod.cc, rat.h, bigrat.h, curvesort.cc, codeletter | xmm0, rationals, floor/ceil/round, class codes, booknumber0 tables |
| `Svec` | svec.cc | sparse vectors |
| `Smat` | smat.cc | sparse matrices: rows as pairs of arrays with unset cells; constructors, copies, setrow, select_rows, as_mat, row, elem, sums, scalar operations, reductions, products, transpose, comparison (not: I/O, nullity, liftmat, liftmats_chinese) |
| `Mat` | mat.cc, subspace (sub.cc) | echmodp, echmodp_uptri-like kernel code (pkernel), echelon0 over the integers with exact divisions, echelonp, rank, nullity, kernel, charpoly (Faddeev-LeVerrier), determinant, combine, restrict_mat, eigenspace |
| `Forms` | unimod.cc, quadratic.cc, cubic.cc, quartic.cc, minim.cc, reduce.cc | unimodular bookkeeping, reduction of quadratic forms, cubic forms (transformations, seminvariants, Hessian and Mordell reduction over the integers), quartic invariants and transformations, minim_p and minim_all (the output on the screen is not modelled); of reduce.cc: one_step and reduce_quad_1 over any type with the operations of `bigfloat` (exact arithmetic for the theorems about the result; `sqrt` is an argument), and `reduce` with the matrix of reduce_quad as a parameter (`Legendre/Desc2Model`) |
| `Curve` | curve.cc, curvedata.cc, points.cc | invariants, Kraus, c4c6_to_ai, minimalisation, change of coordinates, projective points, group law, multiples, order, real component, good reduction, points from x |
| `Symb` | moddata.cc, symb.cc, cusp.cc | residue tables, P^1(Z/N) numbering, symbol list, rof/sof/tof/rsof, cusp equivalence, cusp lists |
| `Poly`, `Curve/DivPol` | divpol.cc | dense integer polynomials, division polynomials, multiplication-by-n numerator and denominator |
| `Forms/Equiv`, `Forms/NewEquiv` | mequiv.cc | testd: the certificate of the quartic equivalence test; new_equiv, with the type and the equivalence code as data and `Introotsquartic` as a parameter with the contract that it gives the integral roots |
| `Pool` | threadpool.cc, threadpool.h | labelled transition system of start, post, close and the boost io_service rules they rely on (stated in the header comment of Pool/Model.lean) |
| `Primes` | arith.cc (primeclass), arith.h (primevar) | sieve, table of differences, number, getfirst, primevar, prime_pi, pdivs, primdiv; memory as a function with bounds checks |
| `Local` | hilbert.cc, hilbert.h | Hilbert symbol at one place, global_hilbert for integers and for binary quadratics; square-root (Hensel) lemmas in Z_p; product formula and Legendre's theorem are proved here, not assumed |
| `Local/LocSol*`, `Local/LocallySoluble`, `Local/RealType` | mlocsol.cc, mquartic.cc (set_roots_and_type) | psquare, lemma6, lemma7, zpsol (to a given depth), qpsoluble, new_qpsoluble below the cross-over, locallysoluble, Rsoluble, the type of a quartic (not: Siksek's method for p >= 1000, which is an argument of the model of new_qpsoluble; floating-point roots) |
| `Tate` | curvered.cc, curve.h | reduction data (Kodaira codes, c_p), Tamagawa numbers and exponents, PariKodairaCode; the constructor `CurveRed(const Curvedata&)` with all of Tate's algorithm, root, rootsexist, in-place minimalize, factor_discr (not: local root numbers, isogeny-related members). NTL's XGCD, SqrRootMod and FindRoots enter as contracts (`Tate.Lib`); `sq_one` records that SqrRootMod(1,2) = 1, which NTL does not document but `root` needs. |
| `Pmod` | pointsmod.cc, pointsmod.h, curvemod.cc, gf.h | pointmodq (on_curve, negate, twice, +, -, n*P, set_x_coordinate), random_point, set_group_order_via_legendre, sqrt and order of gf_elements, my_bg_algorithm, my_order_point, set_hasse_bounds, linear_relation, tidy_lcm, merge_points_1, merge_points_2, n2list, my_isomorphism_type (not: my_isomorphism_type_new, function fields ffmod.cc; the Weil pairing enters by its bilinearity). The algorithms are modelled over any abelian group with decidable equality, with the x-coordinate as a function constant exactly on pairs ±P; pdivs and posdivs enter as contracts |
| `Elim` | smat_elim.cc, smat_elim.h | ordlist; the state of smat_elim; init, steps 0 to 4, standard, step5dense, back_sub, old_kernel, rank; class ssubspace: constructors, combine, restrict_mat, kernel, eigenspace, subeigenspace, make1d (not: new_kernel, I/O; the density test and the dense reduction are arguments with contracts) |
| `Hom` | homspace.cc | the constructor of homspace with sparse matrices: 2-term and 3-term relations, kernel, coordinates of M-symbols, freegens; coords_from_index, coords_cd, extend_coords, contract_coords; freemods, add_coords, coords, symb.cc modsym(symb); matop, applyop, calcop, heckeop, wop, newheckeop and conj, without printing; the Heilbronn matrices; deltamat, kern and needed; s_calcop for a cuspidal space; s_calcop_restricted (not: liftmat of the kernel, calcop_restricted with dense matrices, degeneracy maps) |
| `Lift` | smat.cc (liftmat, maxabs, liftmats_chinese for one row), mat.cc (liftmat, maxabs), sub.cc (lift), vec.cc (lift) | rational reconstruction of matrices, subspaces and vectors; the floating-point square root is replaced by the exact one |
| `Twoadic` | twoadic.cc (case1, case2, try1) | existence of 2-adic points; both the long and the bigint version; the loops carry a bound for the number of iterations, `none` meaning that it was reached |
| `Legendre` | legendre.cc (minv, GIgcd, lem1, lem3, lem4_1, legendre_solve_cert_1, make_certificate, legendre_solve, legendre_reduce, new_legendre_reduce, legendre_param), conic.cc (testlocsol, cancel, conic_mordell_reduce, solve_conic, solve_conic_param), desc2.cc (g_content, desc2, process_d3) | in desc2 the prime factors, the method of locallysoluble for primes from 1000 on, reduce_quad (floating point) and the search for points are parameters with contracts (`DLib.Ok`); minim_all, locallysoluble and reduce are the modelled functions; default preprocessor symbols; solve_conic_diag (methods 0-3) is a parameter of the model of solve_conic; messages on cout not modelled; legendre_via_lll (use_lll=1) not modelled |
| `Curve/Qc` | qc.cc | the 2-covering map (without messages) |
| `Search` | mglobsol.cc (test, ratpoint, the constructor of quartic_sieve, search_range) | search for points on quartics; the bounds for u, computed with floating point numbers from the real roots, are a parameter `bd`; stoll_search is not modelled here |
| `Stoll` | sieve_search.cc (init_f, sift, sift0, check_point, fff, search) | sieve search on y² = f(x); words are `BitVec 64`. The intervals of numerators, computed with floating point numbers from `domain`, are the parameter `bd` (for the default domain exactly [-height, height]); the choice and order of the primes by floating point ratios is arbitrary: `ps1`, `ps2` are any lists of primes of the table. `tech` = 1 (so `kp` = p), `no_check` = 0; set_intervals is not modelled; the powers `bc` cached by fff are computed directly; array_size > 0 |
| `Ff` | ffmod.cc (ffmodq operators, evaluate, vertical, tangent, chord, weil_pol, evaluate_weil_pol_0, evaluate_weil_pol); tlss.cc (map1point); gf.h (root_of_unity, roots_of_unity) | functions h1(X) + h2(X)Y on a curve over a field; polynomials are coefficient lists. `operator/` only for vertical lines, as used. The random point R is an argument. weil_pairing is not modelled. map1point is modelled on points of E(F_q): the reduction of a rational point is not modelled; that p divides q-1 when the p-torsion has rank 2 (the Weil pairing) is a hypothesis; that the map is injective on E(F_q)/pE(F_q) is proved for rank 1 only. Not a disagreement for the use made of it, but by reading: root_of_unity(F,n) for composite n need not return a primitive root |
| `Sat` | saturate.cc (test_saturation, test_saturation_extra, nextq, kernel_vector, enlarge, do_saturation (three forms), saturate, pCoTorsion) | the points are elements of an abelian group. Contract `Env.Ok`: the maps of the auxiliary primes q are homomorphisms to F_p^r (C103 and reduction; `C104_maps` makes the link), order()==-1 is non-torsion, division_points returns only points R with pR = Q (that it returns all is not needed), the torsion modulo p is generated by the p-cotorsion (C105), and trivially_saturated is right (index bound). The height bound and the index bound are not modelled; nor are saturate_points and the statistics |
| `Newf` | newforms.cc (apvec, find_coords_plus_minus, find_jlist, find_bsd_ratio, plus_modular_symbol, minus_modular_symbol; comparers, eiglist, fixup_eigs, unfix_eigs, refix_eigs, aqlist), homspace.cc (nfproj_coords and relatives, maninvector) | one projected coordinate at a time instead of the matrix projcoord; h1denom is an argument; the bound 2 sqrt(p) is the exact integer part; spaces which are not cuspidal. The forms are given by dual eigenvectors: that the eigenvectors are found (xsplit.cc) is not modelled; `Level11.lean` constructs the rational symbol of level 11 as an example |
| `Egr` | egr.cc (ComponentGroup, InSameComponent, ImageInComponentGroup, OrderInComponentGroup, gr1prime, grprimes, egr_subgroup, MapPointsToComponentGroup, comp_map_image, egr_index) | the points are elements of an arbitrary commutative group; has_good_reduction and ImageInComponentGroup_Im are fields of the environment `Egr.Env`. Hypothesis `PlaceOk`: good reduction at a place is the kernel of a homomorphism to the group given by ComponentGroup, and ImageInComponentGroup_Im computes it up to a unit (not: ImageInComponentGroup_Im itself, the change to the minimal model in egr_index, overflow of int) |
| `Sift` | sifter.cc (constructor, code, eps, process, getrank), marith.cc nrootscubic | `int` arrays of bits are lists of `Bool`; the primes come from a list (`none` if it is too short) (not: verbose output, overflow of `long` in nrootscubic) |
| `Old` | oldforms.cc constructor, getoldclasses, totalolddim, dimoldpart; templates.h startswith | the newforms of the lower levels (aqlist, aplist, nap) are given (not: reading them from files or making them, the display); `prime_pi` is the number of primes below p; the specification of the action of W_q on the forms f(kz) is `Spec.W` in Old/Dim.lean |
| `Split` | xsplit.cc: make_submat, make_nested_submat, go_down, make_basis, make_basis2, find, store (the build without threads) | `dual = 1` and `bigmats = 0` as in newforms.cc; the operators are a contract (`Spec.Ok`: they commute modulo the prime, are 0 if 0 modulo it; `opmat_cols` gives the rows asked for); the elimination as in `Elim`; the matrices kept in a node are computed again; the overflow of eig*denom1 is not modelled; not: splitoff, recover, threads, display |
| `Rank2` | mrank2.cc: find_elsgens, the first step of local_descent (688-763) | `torsion_points`, `order` and the multiple of a point are given functions (contract: the list has the origin, (0,0) and integral points of the curve); the test at primes above 1000 and the fuel of `locallysoluble` as in C62; `pdivs` by contract; `set_union` is the merge; the loop over the divisors runs over the number of its iterations; display and the minimal model of E' are left out |
| `Rank2` (GModel) | mrank2.cc: makepoint, find_els2gens, find_glsgens, second step of local_descent, rank, index2, certain | the searches `testquartic` and `desc2` and `order` are given functions (`GEnv`, contract `GEnv.Ok`: points returned lie on the quartic; what `desc2` rejects is not in a group T of classes that contains those of rational points); points in affine coordinates; the choice between several isogenies, minimal models, display and makepoints are left out |
| `Mw` | mwprocs.cc: det, cleardenoms, process (all versions), saturate, the search model; marith.cc ratapprox (long) | `bigfloat` is an ordered field with floor (no rounding errors), `long` unbounded; `height`, `order` and the saturation are given functions (`Env.Ok`: height is the quadratic form of a bilinear pairing that is not degenerate on independent points; saturation returns an integer change of basis and its determinant); messages, checks that only print and the sieve class are left out |
| `Hasse` | (no code) | Hasse's bound for elliptic curves over prime fields, by Manin's elementary method: degrees of x(nP+Q) for the generic point on the quadratic twist over k(t), the parallelogram law for this degree from Mathlib's `addSubMap` identity, Frobenius as the point Q, completion of the square; q = 2 by cases |
| `Lambda` | lambda.cc: make_point_from_x (both versions), make_point_from_x_and_ht, lambda_bad_1, lambda_bad; heights.cc: pheight, height from zroot on | `bigfloat` is an exact field; the logarithm is a given function, `lambda_bad_1` and `pheight` are without their common factor log p; the heights enter `make_point_from_x_and_ht` only through the list of rounded denominators (not: realheight; the version of make_point_from_x with a real number has any rounding to a nearest integer and any test for zero, see the theorems) |
| `Lll` | illl.cc, nearest (marith.h) | integral LLL: redi, swapi, step3, lll_reduce; vectors as functions with index checks at function entry |
| `Bits` | bitspace.cc, sqfdiv.cc | bit-vector spaces, squarefree divisor subgroups, makenum, makeindex |

## What is not modelled

The parts of xsplit.cc, newforms.cc and oldforms.cc not listed above; periods, global heights, real/complex analysis (all `bigfloat`
code apart from `Mw`, `Lambda` and reduce_quad, where the arithmetic is exact); isogenies (isogs.cc); the two-descent drivers mrank1 and descent.cc and the parts of mrank2
not listed above; parsing and printing; threads apart from what C46 states; memory allocation; the
flint/GMP/NTL/PARI back ends. Overflow of `long` outside the places named above.

## Disagreements between the code and the claims

Each is a theorem unless marked (read only).

- mrank2.cc:280-318 `find_elsgens`: a torsion point whose index meets the mask is passed over, although its class may be independent of those recorded
  (C116_torsion_skipped, the curve y² = x(x-2)(x+7)). The class is found again as an ordinary generator, so that the Selmer groups are right, but
  `nt2gens` is too small, and with it the bounds that are displayed on the way.
- mrank2.cc:199-209 `find_elsgens`: supports of up to 63 entries are accepted, but `maxn=1<<ns` and `1<<j` shift an `int`, undefined from
  31 entries on (C115_wide); the message says that more than 64 primes cannot be handled.
- oldforms.cc:197-210 `getoldclasses`: the sign of a class at a prime is entered only if its index is below `olddata.nap`. `createfromscratch`
  and `createfromcurves_mini` (whose parameter `nap` hides the member) do not set this member, which stays at the default 20 of the constructor
  of `level`, although the lists have at least 25 entries. At the level 803 = 11·73 both oldclasses have a_73 = 4 at the prime 73 in place of
  the signs ±1, and `dimoldpart` of the right list is 0 (C113_nap). `dimoldpart` also reads past the end of a list when it is given
  a longer one which agrees with it (C113_read).
- sifter.cc:164 `process`: for the point at infinity `gcd(x0,z0)` is 0 and the next statement divides by it: NTL aborts the program
  (C112_origin). The theorems on the sifter suppose that the points are not the origin.
- egr.cc:623 `MapPointsToComponentGroup`: the adjustment of signs for component groups of order 3 and 4 is guarded by `m==3 || m==4`, but `m`
  is the number of cyclic factors (1), not the order: it is never done. With two primes of this kind `egr_index` can be too small: 3 instead
  of 9 (C111_index_wrong); it is right when the points not killed by 2 lie in one component at each such prime (C111_egr_index_partial).
- newforms.cc:1894 `apvec(p)` with p = 2 uses only two of the four Heilbronn matrices of determinant 2, as the loop runs over
  r <= (p-1)>>1 = 0: at level 11 it returns -1 instead of -2 (C106_apvec_two). The eigenvalue at 2 is normally known before apvec is
  called.
- newforms.cc:997 `find_jlist`: when no index is good for all forms the code uses `bplus`, also for sign = -1 where only `bminus` is set
  (C106_jlist_minus: access outside an empty vector).
- newforms.cc:98-110 `eiglist(f,1)` writes all `aqlist` and then the good `a_p` into a vector of the size of `aplist`: past the end when some
  prime dividing the level is larger than the primes of `aplist` (C108_eiglist_partial, C108_eiglist_overflow). newforms.cc:1543-1562
  `aqlist` reads past the end in the same situation (C108_aqlist, C108_aqlist_short). `less_apvec` reads past the end for lists of different
  lengths (C108_less_apvec_length).
- (read only) newforms.cc:1824-1826 `newforms::merge`: `for (nfi : nf_subset) { inf = nf_subset[nfi]` indexes the subset by its own
  elements; wrong, or out of range, unless the subset is 0,1,...,n-1.
- saturate.cc:236-309 `enlarge` looks for the position `keepi` of a coefficient 1 or -1 (or other non-zero) in the kernel vector, whose
  length is that of `Plistx` (points and p-cotorsion), then writes `Plist[keepi]=newQ`: with `keepi` the position of a
  torsion point this is outside of `Plist` (C104_outside, p = 5 with a point of order 5; C104_index_partial: not for p = 2, 3 and not
  when the p-cotorsion is trivial). (read only) do_saturation(p) called before any index bound is set uses the value 0 ("not set") in
  trivially_saturated and returns "saturated" for every p which is not a Tamagawa prime; with maxntries = 0 it may not end.
- homspace.cc:807 `newheckeop(p,dual,display)` calls `wop(p,display)` for p dividing the level, so that
  `display` takes the place of `dual` (C79; level 4, p = 2). The callers in the library pass 0 for both;
  tests/hecketest.cc passes different values.
- mat.cc:1566 `maxabs(const mat&)` never updates its accumulator and returns 0 (C84). So `liftmat` for dense matrices
  returns 1 at once without setting `dd`, and `lift(subspace)` builds a subspace with an uninitialised
  denominator (0 for bigint). If the test failed, `d=lcm(d,dd)` would still leave `dd` = 1.
- smat.cc:995 `liftmats_chinese` multiplies by dd/d with d left over from the last entry, instead of dd (C85).
- vec.cc:249 `lift(vec)` rescales in place, so the rescalings are cumulative, contrary to the comment; the vector of
  the comment, (4666,47493,...), is not lifted; `maxvi` is not reset; the loop skipping zero entries runs past the end
  of the vector when the last entry is 0 and no lift is found (C86).
- arith.cc `posmod(a,m)` with m < 0 leaves the range.
- rat.h `floor`/`ceil` truncate: wrong for negative non-integers (bigrat.h is right).
- marith.cc `gauss_reduce` does not negate on inversion, so `modrat(bigint)` misses fractions
  (20 mod 51).
- marith.cc `kronecker(bigint,long)` is wrong for even or negative second argument.
- xmod `xmm0` returns the other operand unreduced when one operand is +-1.
- `new_codeletter` of a negative number reads out of bounds.
- svec.cc: `set(i,0)` does not erase; `*=0` and multiplication by a multiple of p keep explicit
  zeros, so `==` is then not equality; `make_primitive` on such a vector divides by zero.
- mat.cc `echelonp`: the back-substitution loop starts at the wrong row (C57); `charpoly` of the
  0 x 0 matrix is undefined; `restrict_mat` in the full-rank special case needs denominator 1.
- unimod.cc `inverse()` with determinant -1 returns minus the inverse and changes `*this`; the
  comment of `invert` in unimod.h has the wrong sign.
- quadratic.cc `reduce` on negative definite forms reduces -F without recording it; a = 0 divides
  by zero.
- cubic.cc `invert` and the recorded matrix differ by a sign; the two notions of "Hessian reduced"
  differ on the boundary.
- quartic.cc `check_transform` accepts wrong transforms because of a floored division.
- minim.cc `minim_p` needs local solubility as well as the documented precondition.
- minim.cc `minim_all` uses the valuation 1000 for an invariant that is 0 and lowers it like the others, so that
  for I = 0 (or J = 0) it stops after 249 (166) turns at one prime; minimality is proved for I, J not 0.
- points.cc: minus the point at infinity is (0:-1:0), so the normal form is not unique there.
- moddata.cc/symb.cc: at level 1 `index2` reads an empty vector.
- bitspace: dimensions from 32 to 64 are accepted but shift an `int` too far; so do `makenum`
  and `makeindex` for supports of more than 31 entries.  The comment of `reduce` says "minimal i",
  the code returns the maximal one.
- (read only) legendre with negative odd b returns 1; intlog2 shifts an int; `operator/=(rational)` declared
  only; `nrootscubic` assumes distinct roots; divpol.cc does not terminate for negative n; smat.cc
  `liftmats_chinese` rescales by the denominator of the last entry only.
- smat.cc: `setrow(int,vec)` advances `coli` twice on reallocation and so leaves the column indices
  unset; `operator==` ignores the number of columns and distinguishes matrices by stored zeros;
  `eqmodp` separates an entry that is 0 mod p from an absent one; `*= 0`, `mult_by_scalar_mod_p`
  and `/=` leave stored zeros; `+= scalar` on a matrix with more rows than columns stores column
  indices beyond the last column.
- primes (proved: `C48_prime_pi`, `C48_pdivs_large`): prime_pi(p) does not end for p beyond the
  table; pdivs reports the square of a prime beyond the table as a prime; getfirst(n) for n beyond
  the table repeats the last prime once (read only).
- hilbert.cc (proved: `C45_quad_zero_lead`): global_hilbert(q,d,...) with q[0] = 0 reports
  insolubility at infinity although x = 1 is a solution: the error value -1 of local_hilbert is
  taken for "insoluble".
- curvered.cc (proved: `C53_global_not_lcm`): for type I*0 with c_p = 1 the local exponent is 1 but
  global_Tamagawa_exponent counts 2, so it is not the lcm of the local ones (it is always a multiple,
  `C53_global_kills`).  The first comment in curve.h on the coding of I*, II*, III*, IV* (5 to 8)
  contradicts the code and the second comment (1, 7, 6, 5) (read only).
- threadpool (proved: `C46_restart_idle`, `C46_restart_loses`, `C46_zero_concurrency`): the pool
  cannot be restarted after close(), although the comment on start() allows it: no job is executed
  any more and the second close() returns with the queue non-empty; when hardware_concurrency()
  returns 0 the number of threads created is 2^32-1.
- pointsmod.cc (proved: `C66_upper_end`, `C66_not_least`, `C67_order_bounds_wrong`,
  `C68_linear_relation_coprime`): my_bg_algorithm on an interval shorter than 30 also tries, and may
  return, upper+1, and does not notice Q = lower*P in the long case; my_order_point(P,lower,upper)
  gives 1 when no multiple of the order is in the interval; linear_relation of points of coprime
  orders is (1,0).
- pointsmod.cc, curvemod.cc (proved: `C69_iso_type_wrong`, `C69_merge2_dependent`, `C70_count_two`,
  `C70_random_point_stuck`): my_isomorphism_type can return a cyclic type for a group that is not
  cyclic (q = 139, y^2 = x^3+1, after eleven points of order 39); merge_points_2 can give a P2 that is
  a multiple of P1, against its comment (no harm to the final result); the count by Legendre symbols
  is 3 for every curve when q = 2; random_point does not return when infinity is the only point.
- smat_elim.cc (proved: `C72_put_not_insert`, `C72_put_overflow`, `C72_putList_overflow`):
  ordlist::put(X) in the middle of a list calls memmove from the last element on instead of from the
  place found, so an element is lost or a cell past the array written; ordlist::put(list) reads the cell
  after the last element, which does not exist when the array is full.  The elimination never reaches
  either (C71).
- smat_elim.cc (proved: `C73_whole_undefined`, `C73_make1d_zero`): the constructor ssubspace(n) does not
  set the modulus, which combine and restrict_mat read; make1d of the zero vector dereferences the end of a
  map.
- illl.cc: `lll_reduce` with n = 0 assigns d[1] out of range; with n = 1 a zero vector is not
  reported as dependent.
- C44: `qpsoluble` does not return on some quartics with a repeated factor although they have a
  point: `3(x^2-2z^2)^2` at `p = 7` (`C44_repeated_diverges`).  The claim is for square-free
  quartics, where it is proved.
- C61: with a repeated factor `Rsoluble` can be wrong: `-x^2(x^2+z^2)` has the real point
  `(0:0:1)`, the answer is `0` (`C61_repeated_fails`).
- **C87** (twoadic.cc): `case1` and `case2` never return for a cubic of discriminant 0 with the double root in the class asked for
  (`C87_case1_loops`: x³-12x+16, `C87_case2_loops`: x³-3x+2). The caller (mrank1.cc) passes non-zero discriminants.
- **C88** (twoadic.cc:55, 109): the test of `try1` with the Newton polygon omits the condition val(poly[0]) ≥ val(poly[1]) that
  the comment after the function states, so that the root found need not be a 2-adic integer: 65536x³+2048x²+32x+3 gets the answer 1 though it is never
  a square (`C88_try1_one_wrong`).  The answer 0 is always right.
- C92: legendre_solve returns 0 (no solution) if one of the coefficients is 0, e.g. for 0x²+by²+cz²=0, which has the
  solution (1,0,0) (`C92_zero`); the callers exclude this.
- C93: solve_conic(a,b,c,d,...) with the methods 0 to 3 and b ≠ 0 (conic.cc:107): `aa=-a*c; if(nondiag)
  aa=sqr(b)-4*aa` computes b²+4ac in place of b²-4ac, and `zz<<=1` (conic.cc:118) doubles a variable not in use in
  place of z. For x²+xz-z²=11y² it returns 0 although (3,1,1) is a solution (`C93_solve_conic_old_wrong`). The default
  method is 4, which is right (`C93_solve_conic`).
- C94: solve_conic_param when b²-4ac is not a square and d is not square-free: the first and third coordinates of the
  solution can have a common factor, the divisions by 2y0 and 4y0² fail ("Problem: ..." is printed) and 1 is returned
  with wrong quadratics; 2x²+7z²=4y² (`C94_not_squarefree`). The comment asks only for a, c, d, b²-4ac non-zero; the
  callers in desc2.cc pass square-free d.
- C95: the comment on g_content says that it returns the largest square dividing the coefficients; it returns the
  largest number whose square divides them (the caller squares it). If d1 or d2 is a square, the leading coefficient of
  q1 or q3 can be 0, and process_d3 divides by 0 in solve_conic_param; the callers search for points first.
- C96 (qc.cc): if a is not a square but e is, the coefficients are reversed (the point (0:1) is used) but `z02` is left at
  z0², so that the point computed is not on the curve unless z0 = ±1: 5x⁴+2x³z+z⁴ with the point (1:5:2) (`C96_e_square`).
- C98 (mglobsol.cc:507): `vector<int> flag = xgood_mod_aux[index];` makes a copy, so that the flags computed are lost and
  `xgood_mod_aux` stays 0 throughout. When the sieve is used without the table of gcds (w ≥ 10000, or a range of u of
  length between 10 and w/2), all u are rejected and points are missed (`C98_flags_lost`); when the table is used, its
  entry overwrites `u_is_ok`, so that the sieve has no effect.
- C98 (mglobsol.cc:135-136): the residues `% 8` of negative numbers are compared with 0..7, so that 2 can be put in the list
  of primes excluded from numerators wrongly (`C98_even_numerators`).  Both affect only moduli_option ≠ 0; mrank1 and
  mwrank use 0 (Stoll's sieve).
- C100 (sieve_search.cc:784-789, sift): when only odd numerators are examined, `high++; … high--; high >>= 1;` gives the
  exclusive bound floor(high/2), so that the odd numerator a = high (for the default domain a = height) is never examined,
  while a = -height is (`C100_upper_bound`; witnesses `C100_missed` for y² = 7x⁴ - x² + 3 and `C100_missed'` for
  y² = x³ - 3x + 1).  With square denominators only (odd degree, leading coefficient 1) and b_low > 1 the loop runs over b²
  for b ≥ b_low, not b² ≥ b_low; the theorem assumes b_low = 1 in that case (the default; set_b_low is not called).
- C102 (ffmod.cc:263): the test `kT.is_zero()` of evaluate_weil_pol_0, meant for the beginning, holds again later when the order
  of T is a proper divisor of m, and the value found so far is lost (`C102_order_needed`).  The comments ask only for mT = 0;
  all callers have m prime.
- (read only) ffmod.cc:350, weil_pairing: the loop looking for R3 does not end when every point is excluded, for instance for a group
  of order 3 and S = -T.
- C117 (marith.cc:1204-1239): `maxd` is not respected when the number is found to be close to an integer in the same step: ratapprox of
  1/1000 with maxd = 10 gives 1/1000 (`C117_maxd`).  All numbers below 10⁻⁷ are approximated by 0 (`C117_small`).
- C118 (mwprocs.cc:135-136): the loop for the pivot increases `i0` after the pivot is read, so that the row exchanged is the one after the row with the
  pivot: a matrix whose only large entry of the first column is in the last row has determinant "0" (`C118_zero`), and if it is in
  another row the program may divide by 0 (`C118_division`).
- C119: consequently a dependent point can be taken for an independent one when basis points are orthogonal (`C119_orthogonal`; for points on
  curves the pairings are not exactly 0 in practice).  The comment in process(vector) says that the flag tells whether the rank has increased, but
  it is 1 only when `maxrank` is reached (`C119_flag`).
- C119 (mwprocs.cc:590-650): `mw::saturate` does not set `index` when the rank is 0 and then reads it; in progs/point_search.cc:116 and descent.cc:206
  the variable has not been initialised (undefined behaviour; the regulator is divided by its square, `C119_saturate_empty`).
- C121 (reduce.cc:306): after `one_step` the code shifts by the nearest integer to the real part of the root before `one_step`; `xz` is computed
  again only inside `#ifdef DEBUG_REDUCE_QUAD`.  If the shifted quadratic then has c > 0.99999 it is returned, though its middle coefficient can be
  as large as the real part of the original root (`C121_not_reduced`: |b| = 370/17).  The matrix is still unimodular; `reduce` repairs the
  translation in part by the shift that makes -2a < b <= 2a for the quartic.
- C122 (mequiv.cc:26-84): `new_equiv` can answer 1 for quartics that are not equivalent when the curve has a rational point of order 2: for
  X⁴+Z⁴ and -X⁴-Z⁴ the polynomial is u⁴+256u², with the root 0 (`C122_wrong`).  `rank1`, which calls it, is used for curves without such points.
- C123 (lambda.cc:110-126): `make_point_from_x` misses points when the fraction is not in lowest terms, and accepts 0/0 with the triple [0:0:0]
  (`C123_boundary`).
- C124 (lambda.cc:60): for p > 3 the list of `lambda_bad_1` for the types III, IV, IV*, III* is [0], although `pheight` is -1/2, -2/3, -4/3, -3/2
  (times log p) at every point with singular reduction (`C124_missing`; y² = x³-20x, (5,5), p = 5).
- C125 (lambda.cc:100-105): `lambda_bad` appends the new sums to the old vector and goes on with its first `nlambda` entries, which begin with the
  old ones: with two primes of type I2 the sum of the two values that are not 0 is missing (`C125_missing`).
- C126 (lambda.cc:182-197): the loop over neighbouring denominators computes `xdx` (from `delta`, not `id`) but uses `xd`: it repeats the first test
  (`C126_neighbour`). If `xd` is rounded to 0 this test is made with 0/0 and [0:0:0] is returned as a point (`C126_null`).
- (read only) mwprocs.h:48: `iso` is not set by the constructor of `mw`, only by `mw::search` with moduli_option 0.

## Plan per property

- **C01 Extended gcd returns a true Bezout identity**: Model `gcd`, `bezout`, `bezout_x` as structural/well-founded recursions on Int with C truncating division; invariant of the coefficient loop; spec is Mathlib `Int.gcd`.
- **C02 Modular inverse is an inverse exactly when one exists**: Model both `invmod`s on top of `bezout`; spec is a congruence.
- **C03 Chinese remaindering solves both congruences or reports failure**: Model `chrem`; spec is solvability of a pair of congruences.
- **C04 Residue functions land in their documented range**: Model `mod`, `posmod`, `rounded_division`; spec: congruence + interval. Negative modulus: witness of the failure.
- **C05 legendre/kronecker compute the Jacobi symbol**: Model the `leg` loop; spec is Mathlib `jacobiSym`; `kronecker` against an independently defined Kronecker symbol. `kronecker(bigint,long)`: witnesses of the failure.
- **C06 Valuation is the exact power**: Model the loop; spec: exact power characterisation (`multiplicity`-style).
- **C07 Divisor lists are complete and repetition-free**: Model the list-building loops; spec: membership and `Nodup`, from unique factorisation.
- **C08 Division-free modular multiplication is exact**: Model on Int with range side conditions showing that no intermediate leaves int64; spec: congruence + interval.
- **C09 Rational reconstruction recovers small fractions**: Model both gauss_reduce loops; uniqueness of small fractions; the bigint variant's missing negation is examined by witness.
- **C10 Rational numbers stay in canonical form and compute exactly**: Model rational as a pair; invariant over all operations; refinement to Mathlib `ℚ`.
- **C11 floor, ceil and round of a rational**: Spec: Mathlib `Int.floor/ceil` on ℚ; refuted for `rational` by witness, proved for `bigrational`.
- **C12 Perfect-square test is exact**: Newton iteration model; tables as literal lists checked completely by `decide +kernel` and lifted by a lemma on residues.
- **C13 Modular square roots are square roots**: Model the lifting loops; invariant x^2 = a mod the current power.
- **C14 Square-free decomposition**: Model loops; spec: squarefree + identities.
- **C15 Sparse vectors compute the same as dense vectors**: svec as a sorted association list (std::map); refinement to functions ℤ → scalar.
- **C16 Sparse vectors hold no explicit zeros, so == is equality**: Representation invariant; witnesses for the offending operations.
- **C17 Echelon reduction modulo p**: Model echmodp on matrices as functions; invariant: row operations invertible over ZMod p.
- **C18 Kernel modulo p**: Model pkernel from echmodp; both inclusions.
- **C19 Exact integer echelon form and kernel**: Model echelon0; row equivalence over ℚ; pivots. (Exactness of Bareiss division is the hard part.)
- **C20 Characteristic polynomial and determinant**: Model Faddeev–LeVerrier loop; spec is Mathlib `Matrix.charpoly`.
- **C21 Restricting an operator to an invariant subspace**: Model restrict_mat, combine; spec: matrix identity from invariance.
- **C22 Unimodular matrix operations**: Model members; spec: Mathlib 2x2 matrices; witness for inverse().
- **C23 Binary quadratic form reduction**: Model; spec: evaluation identity for all X,Z, reduced inequalities, termination by measure.
- **C24 Binary cubic form transformations track their matrix**: Model; spec: evaluation identity; witness for invert.
- **C25 Quartic transformations preserve I and J up to the stated weight**: Model; spec: evaluation identity and I,J polynomials.
- **C26 Curve invariants satisfy the Weierstrass identities**: Model constructor; spec: Mathlib `WeierstrassCurve` b's, c's, Δ.
- **C27 Change of Weierstrass coordinates**: Model; spec: Mathlib variable change.
- **C28 Kraus's criterion**: Model; both directions of Kraus's theorem by residues.
- **C29 Reconstruction of a-invariants from c-invariants**: Model; spec: Mathlib c4,c6 of the returned curve.
- **C30 Minimal model**: Model with valuations; spec: divisibility, maximal u.
- **C31 Point arithmetic is the elliptic-curve group law**: Model on projective integer triples; refinement to Mathlib `WeierstrassCurve.Affine.Point`.
- **C32 Scalar multiplication**: Model double-and-add; refinement to `zsmul`.
- **C33 Order of a point**: Model the loop; completeness needs Mazur's theorem / integrality of torsion (not in Mathlib): expect `_partial`.
- **C34 Projective point normal form**: Model; spec: projective equality over ℚ.
- **C35 Point change of coordinates round-trips**: Model; round trip and curve equation.
- **C36 Real component test**: Model decision; spec over ℝ: existence of a larger real root of the 2-division cubic.
- **C37 Good reduction test**: Model; spec: partial derivatives of the reduced equation.
- **C38 Division polynomials**: Model recursion; spec: Mathlib `preΨ'`, `Φ`, `ΨSq`.
- **C39 Points with a given x-coordinate**: Model; spec: existence of a rational point.
- **C40 M-symbol numbering is a bijection**: Model tables for general N; spec: ℙ¹(ℤ/N) as classes of coprime pairs.
- **C41 Cusp equivalence is exact**: Model cuspeq; spec: action of integer matrices with lower-left entry divisible by N.
- **C42 Bit-vector spaces over GF(2)**: Bit vectors as functions Fin n → Bool/ZMod 2; invariant over histories.
- **C43 Square-free divisor subgroup bookkeeping**: Elements as signed squarefree numbers; invariant over histories of usediv.
- **C44 Local solubility of quartics**: Fuel-indexed recursion; spec over ℤ_[p] with Hensel's lemma.
- **C45 Hilbert symbol**: Model; spec: existence of a non-trivial zero over Mathlib's ℚ_[p], over ℝ and over ℚ; Hensel for odd p and mod 8; product formula by generators and quadratic reciprocity; Legendre's theorem by descent.
- **C46 Thread pool runs every posted job exactly once**: Labelled transition system of workers and queue with boost::asio semantics stated as assumptions; invariant over all traces.
- **C47 Sparse matrices agree with dense matrices**: Row as association list; refinement to dense rows; memory overrun as a distinct outcome for setrow.
- **C48 Prime table**: Model of the difference-coded sieve output; spec `Nat.Prime`.
- **C49 LLL preserves the lattice**: Model of the step functions; spec: ℤ-span equality.
- **C50 Integer conversions are exact or flagged**: Model; spec: equality on the interval.
- **C51 Isogeny class codes round-trip**: Model; round trip by strong induction.
- **C52 Book numbering permutes forms**: Whole table checked by `decide +kernel`, lifted to all levels.
- **C53 Tamagawa exponents**: Model; lcm spec and witness.
- **C54 Quartic equivalence certificate**: Model; polynomial identity.
- **C55 Equivalence of cubics**, **C56 norms of reduced forms**, **C57 echelonp**, **C58 order(Point&)**, **C59 symbol operators**, **C60 makenum/makeindex**: see the module headers.
- **C61 Real type of a quartic**: factor over ℝ into two quadratic forms; the three invariants become polynomials in the two discriminants and the resultant; count zeros in ℙ¹(ℝ).
- **C62 locallysoluble**: combine C44, C45, C61; a point on the quartic with b = d = 0 gives a zero of the ternary form of the Hilbert symbol.
- **C63 Tate's algorithm**: the type of an equation is specified by normal forms (`Tate/TypeSpec.lean`), an equation being of a type when an integral change of coordinates brings it to that form; uniqueness by a chain of levels invariant under changes of coordinates; each step of the code is shown to produce the next level. Not proved: that the normal forms describe the special fibre of the Néron model, and that c is the index of E_0(Q_p).
- **C64 Conductor exponents**: valuations of the terms of the discriminant in each normal form; at 2 by parities of the coefficients. Ogg's formula itself is the definition of the exponent here.
- **C65 pointmodq**: refinement to Mathlib's `WeierstrassCurve.Affine.Point`; **C66 my_bg_algorithm**: invariant of the table (each entry is a true logarithm, each step is represented up to sign), division with remainder for the giant steps; **C67 orders**: p-part of the order from the cofactor; the last step is Hasse's theorem, proved in `Hasse` (see there); **C68**: unique factorisation for tidy_lcm, addOrderOf of sums for merge_points_1.
- **C69 my_isomorphism_type**: invariant of the second loop (P1 has the maximal order reached, the pairing of P1 and P2 has order n2); at the end the pairing shows independence and counting shows generation; **C70**: Euler's criterion, completion of the square, the number of points as a sum over x.
- **C71 smat_elim**: invariant of the state (rows and column lists describe each other, kernel unchanged, eliminated rows have their pivot), shown for each step; the measure for the loops is the number of rows and columns still active; back-substitution gives the reduced rows, from which the basis is read off; **C72 ordlist**: lists as arrays with unset cells.
- **C73 ssubspace**: from C47 and C71; the pivots are a strictly increasing map and the basis restricted to them is the identity, so that coordinates are unique.
- **C74 homspace**: the tables of the 2-term relations are described by an invariant over an abstract set with two commuting involutions; the rows of the relation matrix by the orbits under the operator of order 3; with C73 the kernel gives the universal solution. **C75**: a combination of relations which vanishes on the generators gives a function on M-symbols invariant under S and T; by transitivity of SL2(Z) on M-symbols it is constant; so the relations have rank at least their number minus one.
- **C76 coordinates of modular symbols**: Manin's theorem (every function on M-symbols satisfying Manin's relations comes from exactly one modular symbol) by continued fractions on the cusps, the relations around a cusp giving independence of the expansion; then C74. **C77 Hecke and Atkin-Lehner operators**: the operators are defined on functions of two cusps by the usual sums over matrices; invariance because right multiplication by Gamma_0(N) permutes the p+1 lines modulo p; the code evaluates these at the basis. **C78 Heilbronn matrices**: a set of chains of matrices of determinant p covering all lines modulo p computes T_p (telescoping along each chain); the tables are checked by `decide +kernel`, continued fractions by induction. **C79**: witness at level 4.
- **C80 commuting operators**: two systems of lines modulo p and p' are exchanged by elements of Gamma_0(N); the double sum over both is the same in both orders. **C81 kern**: functions on cusps invariant under Gamma_0(N) (with sign) are the dual of the space of cusps; the index of a cusp in the list gives the value of each such function, and for each entry of the list there is a function which vanishes at the others. **C82**: an operator maps the coboundary of such a function to a coboundary, so the cuspidal subspace is invariant; then C73. The entries of the matrix are assumed reduced in the case of `int` scalars and the modulus BIGPRIME, since sums of coordinate vectors are not reduced in the code.
- **C83 liftmat**: the reduced basis found by modrat has determinant p and first vector shorter than p, so the fraction is in lowest terms with denominator prime to p; two small fractions congruent modulo an odd prime are equal. **C84, C85, C86**: witnesses; for C86 the invariant of the inner loop is that `ans` times M is congruent to the small vector, M dividing its first entry and being divided by each denominator found.
- **C87 case1, case2**: each iteration preserves "some value is a 2-adic square" (square values only at even, or only at odd arguments), the exits are decided modulo 8 or by Hensel's lemma; after k iterations 2^k divides value and derivative at a centre, hence the discriminant. **C88 try1**: induction over the refinements; witness.
- **C89 minv, GIgcd, lem1**: reduced bases; descent on the norm of Gaussian integers; the sign cases of lem1 by factoring q²∓1. **C90**: each step of lem4_1 keeps an invariant (the new coefficients, the congruences of the new certificate, the linear map back to the old equation); the bound of minv shows that the product of the two smaller coefficients decreases strictly, so the fuel of the recursion is sufficient; square factors found on the way divide the coefficient named by the return code.
- **C91 reduction of solutions**: Mordell's step is an algebraic identity; the new |z| is smaller when z² > ab; legendre_param: the shift makes the divisions exact (coprimality of y and z after removing their gcd), reduction of the definite quadratic gives Holzer's bound. **C92 legendre_solve**: the loop removing common factors keeps a linear map between the solutions; then C14, C13 (certificate or proof that none exists), C90, C91. **C93 testlocsol**: square roots modulo each prime combine to a certificate, then C90; conversely a solution gives the congruences; solve_conic by completing the square. **C94 solve_conic_param**: with e x0 = 2 y0² A - f_z and e z0 = f_x + 2 y0² B the divisions are exact; identity and discriminants are invariant under the shift.
- **C95 desc2**: the parametrization of C94 reaches every point (its resultant is d²(b²-4ac)); so a point of the homogeneous space gives a common class d3 of q1 and q3, square-free and dividing c²-4d1d2; the second conic is parametrized again, the quartic found has the invariants of the space, scaled, so its discriminant is not 0; each later transform is tracked by an identity with its matrix. The second call of minim_all assumes local solubility also at the primes of the discriminant outside the list that was tested; the quartic is minimal there (`extra_minimal`: its discriminant is 27 times a unit). The division by zero in reduce for a leading coefficient 0 does not occur because the quartic has no rational root (`noRoot_quarticOf`). The masks: what desc2 excludes is excluded over R and all Q_p at once (`LocClass`): the conics by Hasse's theorem (`conic_hasse`), the quartic because a class over a field gives a point of it over the field (`point_quarticOf`). Over any field the classes are stable under the classes of the other curve (`KPar.shift`, an identity for the sum of a point of the space and the image of a point under the dual isogeny), so all numbers are reduced to those not in the mask if the generators are locally soluble and cover the rest (`C95_no_points`); both hold for what find_elsgens computes (`covered_of`, `C95_in_rank2`: the triangular system of pivots).
- **C96 qc**: the syzygy of the covariants; the shifted quartic has z⁴, z⁶ times the covariants as its first seminvariants. **C97 ratpoint**: completeness by the enumeration of |x|+z. **C98 search_range**: each filter (excluded primes by Legendre symbols, modulo 8, flags, gcd table) accepts every point; loop invariants for the residues carried along
- **C99 init_f**: the pattern of one denominator is periodic with period p, the rotated words are read off bit by bit; excluded denominators by congruences modulo 4, 3-adic, … and Legendre symbols. **C100 search**: a relation `Ext` between the states before and after each loop (points kept, points valid, targets found unless stopped) composed over all loops
- **C101 weil_pol**: the ideals of the lines come from Mathlib's coordinate ring; each step multiplies by a chord and divides by a vertical line, so that the ideal of h is I_T^k I_{-kT}; the leading coefficient at infinity is multiplicative, and units of the coordinate ring are constants, so that divisor and leading coefficient determine the function. **C102 evaluate_weil_pol_0**: the value is kept as a quotient of values of two functions N, D with (N) I_{nT} = (D) I_T^n; no cancellation is needed until the end
- **C104 saturation**: invariant: the rows of TLimage are combinations of homomorphisms to F_p, reduced; full rank gives p-saturation by Nakayama-like argument on the coefficients; a replacement by newQ gives an extension of index p (`Ext`), transitive over the loop; termination from the finite index. **C105 pCoTorsion**: a point of maximal order generates a subgroup of index 1 or 2.
- **C106 a_p**: the pairs of `apvec` are the images of the symbol under the Heilbronn matrices of C78, so the sum is the value of T_p f; exactness of the division from fac times denominator; modulo a prime q the sums are small. **C107 symbols**: T_p at {0,∞} gives Manin's sum; halves of the sum by translation and sign.
- **C109 good reduction**: each step is an invertible change of the generators after which all but one (two for (Z/2)²) are in the kernel of the map to the component group; the index is the order of the image. **C110 image**: column by column, the order of the group of rows is the order of the projection times the order of its kernel; the search for an entry ±1 ends as the gcd of the scaled column is 1. **C111 egr_index**: the columns are the values of homomorphisms whose kernels intersect in the good points.
- **C112 sifter**: `dl_add`: the map x − e modulo squares is a homomorphism on E(K) (three collinear points, with the value f'(e) at the point (e,·)). At a good prime p ≥ 5 a root modulo p lifts to ℚ_p (Hensel) and x − e is a square times the integer whose quadratic character `code` looks up (`sval_class`). The elimination keeps an echelon form whose span is the span of the images (`elim_step`).
- **C113 oldclasses**: the space of the f(kz), k ∣ m, is the space of functions on the exponent vectors, W_q reverses the exponent at q and multiplies by the sign of f; the common eigenspace is the tensor product of the eigenspaces for each q, of dimension ⌊β/2⌋+1 or ⌈β/2⌉ (`finrank_eigen`). The sum over the classes is the product of the β+1 (induction on the list, digits of c).
- **C114 form_finder**: a node of the tree is a chain of relative spaces whose product of bases B has the unit vectors at the composed pivots (`Chain`); for an operator A commuting with the others, A·B = B·M where M is made of the rows of A·B at the pivots (`nested_ok`), so the relative eigenspace of M gives the intersection of the range of B with the eigenspace of A (`eigen_ok`); induction on the remaining depth.
- **C115 2-isogeny descent**: the isogeny is defined by its formulas over any field of characteristic not 2 and shown to be a homomorphism by the line through three points (`isog_line`, `isog_add`), with kernel {O,T}, composite with its dual 2 (`isog_dual`), image the points whose class `dl` is a square (`dl_isog`, `isog_surj`). The quartic for D has a point exactly when D is the class of a point (`QP_iff`), so that soluble classes form a group over each field (`QP_mul`). At a prime not dividing 2d(c²-4d) every quartic is soluble: over F_p the product of the two indices is 4 and each is at most 2 (`QP_finite`), and the point lifts (`good_prime`). The pivots of the masks make the chosen indices a triangular system over F_2, and an element of the group cleared at all pivots was met by the loop and would have become a generator (`elsLoop_full`). For the rank, [A:gB][B:fA] = 2^(r+2) for A ≅ Z^r × F (`rank_index`), and the indices are the numbers of classes of rational points, which lie in the Selmer groups (`rank_glob`, `glob_le`). `C115_descent_partial` is for at most 29 primes: with 31 to 63 entries in the support `1<<ns` shifts an `int` too far (`C115_wide`), while the code only refuses 64 and more (`C115_too_many`).
- **C116 global descent**: exponent vectors over the generators are numbers with xor (`cl`); the invariant `SI` says that the span of the bit space is exactly the set of vectors whose class was accepted, and that every vector met so far is in the span or was rejected, so the loops end with the whole group when nothing was undecided. Points on the quartics give points of the curve (`mk_false`, `mk_true`) whose classes are the quartic's. The number of global classes of the two curves is 2^(r+2) (`rank_glob`); independent global classes give `rank` ≤ r, and if all classes of the second Selmer groups were found then E(Q) is generated by the points modulo torsion and doubles: P minus a combination is in the image of the dual isogeny, and the argument is repeated on the other curve. A subgroup H with H + 2E(Q) = E(Q) containing the torsion has odd index (`odd_index`). [E(Q):2E(Q)] = 2^r·|E(Q)[2]| (`two_tors`). Partial: the searches by contract; at most 29 primes.
- **Mordell's theorem** (for C115, C116; `Rank2/Mordell.lean`): the logarithmic height of the x-coordinate satisfies the parallelogram law up to a constant (the formulas of `Hasse/AddSub.lean` for x(P+Q), x(P-Q) and Mathlib's bound for the height under these forms), bounded height leaves finitely many points, and the doubles have finite index because the cokernels of the two isogenies embed in sets of squarefree divisors; descent (Mathlib) gives a finitely generated group, so the rank in C115 and C116 is that of the Z-module E(Q), with no hypothesis.
- **C108 eigenvalue lists**: induction over the list with the list of prime divisors not smaller than the current prime.
- **C117 ratapprox**: invariant of the continued fraction: x·y1 - x1 over x·y0 - x0 is minus the inverse of the current remainder, the determinant is ±1 and the denominators increase by at least 1 in each step (`RInv`); for x = n/d an approximation that is not x differs by at least 1/(d·y).
- **C118 det**: row operations and expansion by the first column (`det_elim`), exchange of rows (`det_swap0`). A value that is not 0 comes from a run without the early exit, so it is right also after the wrong row has been exchanged.
- **C119 mw::process**: the cofactors are the last row of the adjugate; for a relation a with M·a = 0 the adjugate is λ·a·aᵀ (`adj_kernel`, `prop2_init`), so the quotients of cofactors are those of the coefficients and `ratapprox` finds them; the relation after clearing denominators has content 1 (`cleardenoms_spec`). A step of the reduction is a transvection, which keeps λ, the content and the group (`prop2_step`, `redLoop_spec`); at the end a coefficient is ±1, so the point can be left out and the determinant of the rest is λ = reg/index² (`prop2_erase`, `Sp_erase`). Partial: rank below 30, the threshold 10⁻⁴, index at most 3162 and no small pivots are hypotheses. The contract about heights is met by the canonical height of every elliptic curve over Q (`C119_canonical`, `C119_contract`): completing the square is a homomorphism (`toSq_add`), Tate's limit gives a quadratic form at bounded distance from the naive height (`exists_canonical`), unique (`canonical_unique`), and it is positive definite over the real numbers because rounding the multiples of a kernel vector would give infinitely many points of bounded height (`quad_nondeg`).
- **C120 conversion of points**: polynomial identities.
- **C121 reduce_quad**: determinants step by step; the invariant `Track` (the current b, c times A are the coefficients of the transformed form, A its value at the first column). `one_step` ends since |c| grows and (y·c)² ≤ 1; the main loop ends since A is multiplied by c ≤ 0.99999 and is bounded below by min(1, y²).
- **C122 new_equiv**: for a root φ of x³-3Ix+J the covariant (4φg+g₄)/3 is the square of a quadratic form ℓ divided by z = (4aφ+p)/3. If g2 = m²·g1∘M then z1·z2 is the square of m·ℓ(first column of M), whose trace is a root of the u-polynomial (`T_root`). Conversely a rational root u gives w in Q(φ) with w² = z1·z2; since z2 is linear in φ the coordinates of w with respect to the coefficients of ℓ are of the form λ(x²,xy,y²), and (x,y) is the first column; quartics with the same a, p, r, I differ by a translation.
- **C123 make_point_from_x**: the same computation as the first point of `points_from_x` (C39), with the sign of the denominator moved to the numerator.
- **C124 lambda_bad_1**: spec: Kodaira types as in C66 (`HasType`), the value from `pheight`. The point is moved to the origin with x, y scaled by its denominator (`atPt`): then a₃ and b₈ are, up to the denominator, the values whose valuations `pheight` uses. For each type the valuations of a₃ and b₈ of an equation with a₆ = 0 that differs by a translation from the normal form are found by divisibility (`core_III` … `core_I`). Partial: the types III, IV, IV*, III* at p > 3 are false for the code.
- **C125 lambda_bad**: `localLists`, `IsSum`; induction on the list of primes. Partial: completeness with at most one prime having more than one value; otherwise false.
- **C126 make_point_from_x_and_ht**: C123 for the denominators d². Partial: denominators other than 0; no neighbours.
- **C127 denominators**: X = ud, Z = d³ with u, d coprime; the derivative has valuation 2v(d) unless p = 3, and then 2y + a1 x + a3 is a unit times d⁻³.
- **C128 invariance**: ψ2 up to sign, ψ3, c4 and the discriminant are unchanged, the derivative changes by a multiple of ψ2.
- **C129 make_point_from_x (real)**: invariant of the continued fraction to the nearest integer (determinant ±1, |y| increasing, x(y1·xx+y0) = x1·xx+x0); for x = n/d the remainders A/B satisfy n = A·x1+B·x0, d = A·y1+B·y0 and |B| is halved.
- **C130 height**: spec: the sum of the local heights over any finite set of primes containing those of the discriminant and the denominator. C127 for the primes of the denominator; at a good prime an integral point is not singular, so that its local height is 0.
