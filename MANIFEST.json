{
 "claims": [
  {
   "property": "C01",
   "status": "proved",
   "theorems": [
    "Eclib.Arith.Props.C01_gcd",
    "Eclib.Arith.Props.C01_bezout",
    "Eclib.Arith.Props.C01_bezout_bounded",
    "Eclib.Arith.Props.C01_lcm"
   ],
   "note": "long version; bounds on all intermediate values for arguments of every sign"
  },
  {
   "property": "C02",
   "status": "proved",
   "theorems": [
    "Eclib.Arith.Props.C02_invmod_inverse",
    "Eclib.Arith.Props.C02_invmod_noninvertible",
    "Eclib.Marith.Props.C02_invmod_big"
   ],
   "note": "long and bigint versions"
  },
  {
   "property": "C03",
   "status": "proved",
   "theorems": [
    "Eclib.Marith.Props.C03_chrem",
    "Eclib.Marith.Props.C03_chrem_range"
   ],
   "note": "for every implementation of NTL XGCD meeting its contract"
  },
  {
   "property": "C04",
   "status": "partial",
   "theorems": [
    "Eclib.Arith.Props.C04_mod",
    "Eclib.Arith.Props.C04_posmod_partial",
    "Eclib.Arith.Props.C04_posmod_negative_modulus_counterexample",
    "Eclib.Arith.Props.C04_rounded_division",
    "Eclib.Arith.Props.C04_rounded_division_unique",
    "Eclib.Marith.Props.C04_mod_big",
    "Eclib.Marith.Props.C04_posmod_big",
    "Eclib.Marith.Props.C04_rounded_division_big",
    "Eclib.Marith.Props.C04_rounded_division_agree"
   ],
   "note": "long posmod is only correct for positive moduli (counterexample proved); everything else proved"
  },
  {
   "property": "C05",
   "status": "partial",
   "theorems": [
    "Eclib.Arith.Props.C05_legendre",
    "Eclib.Arith.Props.C05_legendre_even",
    "Eclib.Arith.Props.C05_legendre_prime",
    "Eclib.Arith.Props.C05_kronecker_long",
    "Eclib.Marith.Props.C05_legendre_big",
    "Eclib.Marith.Props.C05_kronecker_big",
    "Eclib.Marith.Props.C05_kronecker_big_long_partial",
    "Eclib.Marith.Props.C05_kronecker_big_long_counterexample",
    "Eclib.Marith.Props.C05_kronecker_big_long_negative_counterexample"
   ],
   "note": "all versions proved except kronecker(bigint,long), which is wrong for even or negative second argument (counterexamples proved, odd positive case proved)"
  },
  {
   "property": "C06",
   "status": "proved",
   "theorems": [
    "Eclib.Arith.Props.C06_val",
    "Eclib.Arith.Props.C06_val_unique",
    "Eclib.Arith.Props.C06_val_error",
    "Eclib.Marith.Props.C06_val_big",
    "Eclib.Marith.Props.C06_divide_out",
    "Eclib.Marith.Props.C06_divide_out_bad"
   ],
   "note": "long val, bigint val and divide_out"
  },
  {
   "property": "C07",
   "status": "proved",
   "theorems": [
    "Eclib.Arith.Props.C07_posdivs",
    "Eclib.Arith.Props.C07_alldivs",
    "Eclib.Arith.Props.C07_sqdivs",
    "Eclib.Arith.Props.C07_sqfreedivs"
   ],
   "note": "given the complete list of prime divisors"
  },
  {
   "property": "C08",
   "status": "proved",
   "theorems": [
    "Eclib.Xmod.Props.C08_xmm0",
    "Eclib.Xmod.Props.C08_mod0",
    "Eclib.Xmod.Props.C08_xmodmul",
    "Eclib.Xmod.Props.C08_xmodmul0",
    "Eclib.Xmod.Props.C08_invmod0",
    "Eclib.Xmod.Props.C08_invmod0_zero"
   ],
   "note": "All residues |a|,|b| < BIGPRIME, with every intermediate value checked against int/int64 range. The shortcuts for operands +-1 return the other operand unreduced, so the symmetric range is claimed exactly when neither operand is +-1."
  },
  {
   "property": "C09",
   "status": "partial",
   "theorems": [
    "Eclib.Marith.Props.C09_modrat_sound",
    "Eclib.Marith.Props.C09_modrat_complete",
    "Eclib.Marith.Props.C09_modrat_big_partial",
    "Eclib.Marith.Props.C09_modrat_big_counterexample"
   ],
   "note": "long version fully proved; bigint version sound but not complete (bug in gauss_reduce: counterexample proved)"
  },
  {
   "property": "C10",
   "status": "proved",
   "theorems": [
    "Eclib.Ratl.Props.C10_exact",
    "Eclib.Ratl.Props.C10_eq",
    "Eclib.Ratl.Props.C10_order",
    "Eclib.Ratl.Props.C10_infinity"
   ],
   "note": "Expression trees over all operators; long version over unbounded integers."
  },
  {
   "property": "C100",
   "status": "partial",
   "theorems": [
    "Eclib.Stoll.C100_sound",
    "Eclib.Stoll.C100_complete_partial",
    "Eclib.Stoll.C100_not_stopped",
    "Eclib.Stoll.C100_upper_bound",
    "Eclib.Stoll.C100_missed",
    "Eclib.Stoll.C100_missed'"
   ],
   "note": "Soundness is proved for all inputs. Completeness as stated is false: with only odd numerators examined, the upper bound of an interval is missed (C100_upper_bound, C100_missed, C100_missed'); it is proved for all other points, with b_low = 1 when only square denominators are used."
  },
  {
   "property": "C101",
   "status": "proved",
   "theorems": [
    "Eclib.Ff.Props.C101_ring",
    "Eclib.Ff.Props.C101_div",
    "Eclib.Ff.Props.C101_lines",
    "Eclib.Ff.Props.C101_determined",
    "Eclib.Ff.Props.C101_weil_pol",
    "Eclib.Ff.Props.C101_weil_pol_general"
   ],
   "note": "Divisors are ideals of Mathlib's coordinate ring; Mon says that the leading coefficient at infinity is 1."
  },
  {
   "property": "C102",
   "status": "proved",
   "theorems": [
    "Eclib.Ff.Props.C102_evaluate_weil_pol",
    "Eclib.Ff.Props.C102_evaluate",
    "Eclib.Ff.Props.C102_order_needed"
   ],
   "note": "T has exact order m, as in all calls (m prime). C102_order_needed shows that mT = 0 alone is not enough."
  },
  {
   "property": "C103",
   "status": "proved",
   "theorems": [
    "Eclib.Ff.Props.C103_root",
    "Eclib.Ff.Props.C103_tl",
    "Eclib.Ff.Props.C103_cyclic",
    "Eclib.Ff.Props.C103_zero"
   ],
   "note": "map1point on E(F_q); p | q-1 is a hypothesis for rank 2 (it follows from the Weil pairing, not proved); injectivity modulo p is proved for rank 1 and not claimed for rank 2"
  },
  {
   "property": "C104",
   "status": "partial",
   "theorems": [
    "Eclib.Sat.Props.C104_maps",
    "Eclib.Sat.Props.C104_test",
    "Eclib.Sat.Props.C104_do",
    "Eclib.Sat.Props.C104_list",
    "Eclib.Sat.Props.C104_saturate",
    "Eclib.Sat.Props.C104_ends",
    "Eclib.Sat.Props.C104_index_partial",
    "Eclib.Sat.Props.C104_outside"
   ],
   "note": "All parts proved except that Plist[keepi] is inside the vector, which fails: C104_outside is a witness with a torsion point of order 5; C104_index_partial proves it for p = 2, 3 or trivial p-cotorsion. The group of points, the homomorphisms of the auxiliary primes (C103), division_points and the index bound enter through the contract Env.Ok."
  },
  {
   "property": "C105",
   "status": "proved",
   "theorems": [
    "Eclib.Sat.Props.C105_cotorsion"
   ],
   "note": "For every abelian group whose torsion is cyclic or has a cyclic subgroup of index 2 and two points of order 2 (Mazur's theorem for E(Q), not proved here)."
  },
  {
   "property": "C106",
   "status": "partial",
   "theorems": [
    "Eclib.Newf.C106_apvec_partial",
    "Eclib.Newf.C106_apvec_mod_partial",
    "Eclib.Newf.C106_apvec_bad",
    "Eclib.Newf.C106_coords",
    "Eclib.Newf.C106_eigen_partial",
    "Eclib.Newf.C106_jlist_partial",
    "Eclib.Newf.C106_apvec_two",
    "Eclib.Newf.C106_jlist_minus"
   ],
   "note": "False for p = 2 (C106_apvec_two) and for find_jlist with sign -1 (C106_jlist_minus). Proved for all odd primes not dividing the level, for rational eigenvectors and for eigenvectors modulo a prime large in comparison with the coordinates; for primes dividing the level; coordinates for all vectors; find_jlist for the other signs."
  },
  {
   "property": "C107",
   "status": "proved",
   "theorems": [
    "Eclib.Newf.C107_manin_sum",
    "Eclib.Newf.C107_maninvector",
    "Eclib.Newf.C107_symbol",
    "Eclib.Newf.C107_minus"
   ],
   "note": "Spaces which are not cuspidal. In C107_symbol the divisibility of dp0 by denomplus is a hypothesis (otherwise the code prints an error)."
  },
  {
   "property": "C108",
   "status": "partial",
   "theorems": [
    "Eclib.Newf.C108_fixup",
    "Eclib.Newf.C108_unfix",
    "Eclib.Newf.C108_aqlist",
    "Eclib.Newf.C108_eiglist_partial",
    "Eclib.Newf.C108_less_apvec",
    "Eclib.Newf.C108_newLess",
    "Eclib.Newf.C108_oldLess",
    "Eclib.Newf.C108_order",
    "Eclib.Newf.C108_eiglist_overflow",
    "Eclib.Newf.C108_aqlist_short",
    "Eclib.Newf.C108_less_apvec_length"
   ],
   "note": "eiglist and aqlist leave their vectors when a prime dividing the level is beyond the primes of aplist (C108_eiglist_overflow, C108_aqlist_short), less_apvec for lists of different lengths; everything else proved for all lists. The eigenvalues of the missing W_q are an argument."
  },
  {
   "property": "C109",
   "status": "proved",
   "theorems": [
    "Eclib.Egr.C109_gr1prime",
    "Eclib.Egr.C109_grprimes",
    "Eclib.Egr.C109_egr_subgroup"
   ],
   "note": "Points are elements of an arbitrary commutative group. PlaceOk states what is used of the component groups: good reduction is the kernel of a homomorphism to Z/N or (Z/2)^2 and ImageInComponentGroup_Im (N >= 5) computes this map up to a unit. Overflow of int is not modelled."
  },
  {
   "property": "C11",
   "status": "partial",
   "theorems": [
    "Eclib.Ratl.Props.C11_floor_ceil_big",
    "Eclib.Ratl.Props.C11_floor_ceil_partial",
    "Eclib.Ratl.Props.C11_floor_ceil_negative",
    "Eclib.Ratl.Props.C11_floor_ceil_counterexample"
   ],
   "note": "Proved for bigrational; for rational (long) the code is wrong on negative non-integers (negation proved), correct otherwise."
  },
  {
   "property": "C110",
   "status": "proved",
   "theorems": [
    "Eclib.Egr.C110_comp_map_image"
   ],
   "note": "Overflow of long is not modelled."
  },
  {
   "property": "C111",
   "status": "partial",
   "theorems": [
    "Eclib.Egr.C111_egr_index_partial",
    "Eclib.Egr.C111_index_wrong"
   ],
   "note": "The claim is false for component groups of order 3 and 4 (egr.cc:623 tests the number of cyclic factors instead of the order; C111_index_wrong: 3 instead of 9). Proved when the points not killed by 2 at each such place lie in one component (always for one point). Not modelled: the change to the minimal model."
  },
  {
   "property": "C112",
   "status": "proved",
   "theorems": [
    "Eclib.Sift.C112_rank",
    "Eclib.Sift.C112_independent",
    "Eclib.Sift.C112_nrootscubic",
    "Eclib.Sift.C112_origin"
   ],
   "note": "For points other than the origin, for which the program aborts (C112_origin)."
  },
  {
   "property": "C113",
   "status": "partial",
   "theorems": [
    "Eclib.Old.C113_form_partial",
    "Eclib.Old.C113_total",
    "Eclib.Old.C113_dimoldpart",
    "Eclib.Old.C113_nap",
    "Eclib.Old.C113_read"
   ],
   "note": "Multiplicities = dimensions of common eigenspaces of the W_q, entries of the lists with index below olddata.nap, total dimension and dimoldpart proved. The code violates the rest: newforms made by createfromscratch or createfromcurves_mini keep nap = 20 with lists of 25 entries, so signs at the bad primes 73..97 are not entered (C113_nap, level 803); dimoldpart reads past the end for longer lists (C113_read)."
  },
  {
   "property": "C114",
   "status": "proved",
   "theorems": [
    "Eclib.Split.C114_find",
    "Eclib.Split.C114_complete",
    "Eclib.Split.C114_lift"
   ],
   "note": "for all commuting families; find uses exactly the systems of the specification or an exception is thrown by lift for one of them; the vectors generate the eigenspaces"
  },
  {
   "property": "C115",
   "status": "partial",
   "theorems": [
    "Eclib.Rank2.Props.C115_descent_partial",
    "Eclib.Rank2.Props.C115_mordell",
    "Eclib.Rank2.Props.C115_singular",
    "Eclib.Rank2.Props.C115_shift",
    "Eclib.Rank2.Props.C115_too_many",
    "Eclib.Rank2.Props.C115_wide"
   ],
   "note": "Proved for at most 29 primes in each support. The code accepts up to 62 primes but 1<<ns shifts an int: undefined from 31 entries (C115_wide). That E(Q) is finitely generated (Mordell) is proved for these curves (C115_mordell)."
  },
  {
   "property": "C116",
   "status": "partial",
   "theorems": [
    "Eclib.Rank2.Props.C116_global_partial",
    "Eclib.Rank2.Props.C116_torsion_skipped"
   ],
   "note": "Relative to contracts of testquartic, desc2 and order, for at most 29 primes in each support. Mordell's theorem for these curves is proved (C115_mordell), r is the rank of E(Q) as a module over Z. The record of the torsion classes is not always complete (C116_torsion_skipped)."
  },
  {
   "property": "C117",
   "status": "proved",
   "theorems": [
    "Eclib.Mw.Props.C117_ratapprox",
    "Eclib.Mw.Props.C117_maxd",
    "Eclib.Mw.Props.C117_small"
   ],
   "note": "Exact real arithmetic; long unbounded; fuel above 5*10^6 iterations is always enough. maxd is not respected (C117_maxd)."
  },
  {
   "property": "C118",
   "status": "partial",
   "theorems": [
    "Eclib.Mw.Props.C118_det_partial",
    "Eclib.Mw.Props.C118_nonzero",
    "Eclib.Mw.Props.C118_small",
    "Eclib.Mw.Props.C118_zero",
    "Eclib.Mw.Props.C118_division"
   ],
   "note": "Partial because the code is wrong for small leading entries (witnesses C118_zero, C118_division)."
  },
  {
   "property": "C119",
   "status": "partial",
   "theorems": [
    "Eclib.Mw.Props.C119_process_partial",
    "Eclib.Mw.Props.C119_list_partial",
    "Eclib.Mw.Props.C119_saturate_partial",
    "Eclib.Mw.Props.C119_canonical",
    "Eclib.Mw.Props.C119_contract",
    "Eclib.Mw.Props.C119_orthogonal",
    "Eclib.Mw.Props.C119_flag",
    "Eclib.Mw.Props.C119_saturate_empty"
   ],
   "note": "Heights exact; hypotheses: rank < 30, regulator quotient > 10^-4 for independent points, index at most 3162, no small pivots in the minors; height, order and saturation by contract. That the canonical height of every elliptic curve over Q exists, is unique and meets the contract is proved (C119_canonical, C119_contract)."
  },
  {
   "property": "C12",
   "status": "proved",
   "theorems": [
    "Eclib.Marith.Props.C12_isqrt",
    "Eclib.Marith.Props.C12_isqrt_root",
    "Eclib.Marith.Props.C12_sqrtnr"
   ],
   "note": ""
  },
  {
   "property": "C120",
   "status": "proved",
   "theorems": [
    "Eclib.Mw.Props.C120_convert"
   ],
   "note": "For all integers."
  },
  {
   "property": "C121",
   "status": "partial",
   "theorems": [
    "Eclib.Forms.Red.C121_unimodular",
    "Eclib.Forms.Red.C121_terminates",
    "Eclib.Forms.Red.C121_tracks",
    "Eclib.Forms.Red.C121_reduced_partial",
    "Eclib.Forms.Red.C121_not_reduced",
    "Eclib.Forms.Red.C121_fixed_reduced"
   ],
   "note": "The determinant is 1 for any arithmetic; in exact arithmetic the loops end, b and c are followed correctly and c > 0.99999 at the end. The claim |b| <= 1 is false: after one_step the code shifts by the nearest integer to the real part of the old root (xz is computed again only inside #ifdef DEBUG_REDUCE_QUAD); witness C121_not_reduced. C121_reduced_partial gives the condition under which the result is reduced, C121_fixed_reduced proves it for the function with xz computed again. sqrt is an argument."
  },
  {
   "property": "C122",
   "status": "partial",
   "theorems": [
    "Eclib.Forms.NewEquiv.C122_new_equiv_partial",
    "Eclib.Forms.NewEquiv.C122_complete",
    "Eclib.Forms.NewEquiv.C122_wrong",
    "Eclib.Forms.NewEquiv.uP_eq",
    "Eclib.Forms.NewEquiv.uS_eq"
   ],
   "note": "Proved in both directions when the resolvent cubic has no rational root (curves without 2-torsion, the only use in rank1); equivalent quartics with disc != 0 are always recognised. For curves with 2-torsion the answer 1 can be wrong: C122_wrong. Type and equivalence code are data; that they agree for equivalent quartics is not proved. Introotsquartic is a parameter with a contract."
  },
  {
   "property": "C123",
   "status": "proved",
   "theorems": [
    "Eclib.Lambda.C123_sound",
    "Eclib.Lambda.C123_complete",
    "Eclib.Lambda.C123_boundary"
   ],
   "note": "The negative boundary cases (0/2, 0/0) are theorems as well."
  },
  {
   "property": "C124",
   "status": "partial",
   "theorems": [
    "Eclib.Lambda.C124_partial",
    "Eclib.Lambda.C124_missing"
   ],
   "note": "Missing: types III, IV, IV*, III* at p > 3, where the claim is false for the code (C124_missing); all other types proved. Number of components below 99999, since val(p,0) is 99999."
  },
  {
   "property": "C125",
   "status": "partial",
   "theorems": [
    "Eclib.Lambda.C125_partial",
    "Eclib.Lambda.C125_missing"
   ],
   "note": "Every entry is a sum and the count is right; that all sums occur is proved when at most one prime has more than the value 0 and is false in general (C125_missing)."
  },
  {
   "property": "C126",
   "status": "partial",
   "theorems": [
    "Eclib.Lambda.C126_partial",
    "Eclib.Lambda.C126_null",
    "Eclib.Lambda.C126_neighbour"
   ],
   "note": "Sound when no denominator is rounded to 0 (false otherwise, C126_null); complete for the exact denominators only, the neighbours are not tried (C126_neighbour)."
  },
  {
   "property": "C127",
   "status": "proved",
   "theorems": [
    "Eclib.Lambda.C127_denominator",
    "Eclib.Lambda.C127_sum"
   ],
   "note": "Local heights without the factor log p; the sum with real logarithms."
  },
  {
   "property": "C128",
   "status": "proved",
   "theorems": [
    "Eclib.Lambda.C128_neg",
    "Eclib.Lambda.C128_change"
   ],
   "note": "For changes of the equation with u = 1."
  },
  {
   "property": "C129",
   "status": "proved",
   "theorems": [
    "Eclib.Lambda.C129_sound",
    "Eclib.Lambda.C129_complete"
   ],
   "note": "bigfloat is an ordered field without rounding errors; Iround and is_approx_zero are given by contracts; the number of passages is a fuel, shown to suffice for the points to be found."
  },
  {
   "property": "C13",
   "status": "proved",
   "theorems": [
    "Eclib.Marith.Props.C13_sqrt_mod_2_power",
    "Eclib.Marith.Props.C13_sqrt_mod_2_power_complete",
    "Eclib.Marith.Props.C13_sqrt_mod_p_power",
    "Eclib.Marith.Props.C13_sqrt_mod_p_power_complete",
    "Eclib.Marith.Props.C13_sqrt_mod_m",
    "Eclib.Marith.Props.C13_sqrt_mod_m_complete",
    "Eclib.Marith.Props.C13_modsqrt"
   ],
   "note": "for every NTL XGCD, SqrRootMod meeting their contracts; also completeness for units"
  },
  {
   "property": "C130",
   "status": "proved",
   "theorems": [
    "Eclib.Lambda.C130_good",
    "Eclib.Lambda.C130_sum"
   ],
   "note": "Real numbers in place of bigfloat; the real height and the list of bad primes are given; the steps before zroot (torsion, minimal model) are not part of the definition."
  },
  {
   "property": "C14",
   "status": "proved",
   "theorems": [
    "Eclib.Marith.Props.C14_sqfdecomp",
    "Eclib.Marith.Props.C14_rusin_lem3"
   ],
   "note": "given the complete list of prime divisors"
  },
  {
   "property": "C15",
   "status": "proved",
   "theorems": [
    "Eclib.Svec.Props.C15_ofVec",
    "Eclib.Svec.Props.C15_asVec",
    "Eclib.Svec.Props.C15_set",
    "Eclib.Svec.Props.C15_erase",
    "Eclib.Svec.Props.C15_add",
    "Eclib.Svec.Props.C15_sub",
    "Eclib.Svec.Props.C15_iadd",
    "Eclib.Svec.Props.C15_imul",
    "Eclib.Svec.Props.C15_neg",
    "Eclib.Svec.Props.C15_isub",
    "Eclib.Svec.Props.C15_plus",
    "Eclib.Svec.Props.C15_minus",
    "Eclib.Svec.Props.C15_addScalarTimes",
    "Eclib.Svec.Props.C15_reduceModP",
    "Eclib.Svec.Props.C15_multByScalarModP",
    "Eclib.Svec.Props.C15_addModP",
    "Eclib.Svec.Props.C15_subModP",
    "Eclib.Svec.Props.C15_addScalarTimesModP",
    "Eclib.Svec.Props.C15_ons_offs",
    "Eclib.Svec.Props.C15_addVecModP",
    "Eclib.Svec.Props.C15_subVecModP",
    "Eclib.Svec.Props.C15_eqmodp",
    "Eclib.Svec.Props.C15_eqVec",
    "Eclib.Svec.Props.C15_dot",
    "Eclib.Svec.Props.C15_dotModP",
    "Eclib.Svec.Props.C15_dotVec",
    "Eclib.Svec.Props.C15_dotVecModP",
    "Eclib.Svec.Props.C15_content",
    "Eclib.Svec.Props.C15_makePrimitive"
   ],
   "note": "For int, long and bigint scalars over unbounded integers; for int modulo BIGPRIME the operands must be reduced. Aliased operands (v+=v) not modelled."
  },
  {
   "property": "C16",
   "status": "partial",
   "theorems": [
    "Eclib.Svec.Props.C16_eq",
    "Eclib.Svec.Props.C16_size",
    "Eclib.Svec.Props.C16_step_partial",
    "Eclib.Svec.Props.C16_history_partial",
    "Eclib.Svec.Props.C16_eq_history",
    "Eclib.Svec.Props.C16_zero_scalar_counterexample",
    "Eclib.Svec.Props.C16_mult_mod_counterexample",
    "Eclib.Svec.Props.C16_set_zero_counterexample"
   ],
   "note": "Holds for every history of the listed operations; refuted for multiplication by 0 (or by a multiple of p) and set(i,0)."
  },
  {
   "property": "C17",
   "status": "proved",
   "theorems": [
    "Eclib.Mat.Props.C17_echmodp",
    "Eclib.Mat.Props.C17_echmodp_uptri"
   ],
   "note": "Same row space over ZMod p, reduced row echelon form with pivots 1, non-pivot columns, rank = number of pivots; all sizes, all primes. echmodp_uptri: echelon form with the same row space."
  },
  {
   "property": "C18",
   "status": "proved",
   "theorems": [
    "Eclib.Mat.Props.C18_pkernel",
    "Eclib.Mat.Props.C18_oldpkernel",
    "Eclib.Mat.Props.C18_pimage"
   ],
   "note": "Basis of the null space over ZMod p: annihilated, identity block on the pivot rows, unique representation of every null vector; both pkernel and oldpkernel; pimage is the column space."
  },
  {
   "property": "C19",
   "status": "proved",
   "theorems": [
    "Eclib.Mat.Props.C19_echelon",
    "Eclib.Mat.Props.C19_rank",
    "Eclib.Mat.Props.C19_kernel",
    "Eclib.Mat.Props.C19_image"
   ],
   "note": "Bareiss elimination with exact divisions proved through Sylvester's identity; all integer matrices; arithmetic is unbounded Int (no overflow)."
  },
  {
   "property": "C20",
   "status": "proved",
   "theorems": [
    "Eclib.Mat.Props.C20_charpoly",
    "Eclib.Mat.Props.C20_charpoly_exact",
    "Eclib.Mat.Props.C20_determinant",
    "Eclib.Mat.Props.C20_charpoly_empty"
   ],
   "note": "Faddeev-LeVerrier proved equal to Mathlib's Matrix.charpoly for all n >= 1, divisions exact; n = 0 is undefined behaviour in the code."
  },
  {
   "property": "C21",
   "status": "proved",
   "theorems": [
    "Eclib.Mat.Props.C21_restrict_mat",
    "Eclib.Mat.Props.C21_restrict_full_counterexample",
    "Eclib.Mat.Props.C21_combine",
    "Eclib.Mat.Props.C21_eigenspace",
    "Eclib.Mat.Props.C21_subeigenspace",
    "Eclib.Mat.Props.C21_prestrict",
    "Eclib.Mat.Props.C21_pcombine",
    "Eclib.Mat.Props.C21_peigenspace",
    "Eclib.Mat.Props.C21_psubeigenspace"
   ],
   "note": "Over Q and modulo p. The shortcut for the whole space needs denominator 1 (counterexample); kernel and combine are proved to keep that invariant."
  },
  {
   "property": "C22",
   "status": "partial",
   "theorems": [
    "Eclib.Forms.Props.C22_one",
    "Eclib.Forms.Props.C22_mul",
    "Eclib.Forms.Props.C22_det",
    "Eclib.Forms.Props.C22_x_shift",
    "Eclib.Forms.Props.C22_y_shift",
    "Eclib.Forms.Props.C22_invert",
    "Eclib.Forms.Props.C22_negate",
    "Eclib.Forms.Props.C22_seminegate",
    "Eclib.Forms.Props.C22_invert_comment_wrong",
    "Eclib.Forms.Props.C22_det_ops",
    "Eclib.Forms.Props.C22_unimodular",
    "Eclib.Forms.Props.C22_inverse_partial",
    "Eclib.Forms.Props.C22_inverse_wrong",
    "Eclib.Forms.Props.C22_scaled"
   ],
   "note": "All operations proved, except inverse() for determinant -1, which is refuted (C22_inverse_wrong): it negates *this and returns minus the inverse."
  },
  {
   "property": "C23",
   "status": "proved",
   "theorems": [
    "Eclib.Forms.Props.C23_eval",
    "Eclib.Forms.Props.C23_transform",
    "Eclib.Forms.Props.C23_transform_disc",
    "Eclib.Forms.Props.C23_x_shift",
    "Eclib.Forms.Props.C23_y_shift",
    "Eclib.Forms.Props.C23_invert",
    "Eclib.Forms.Props.C23_reduce",
    "Eclib.Forms.Props.C23_reduce_negative",
    "Eclib.Forms.Props.C23_reduce_zero",
    "Eclib.Forms.Props.C23_resultant",
    "Eclib.Forms.Props.C23_resultant_invariant"
   ],
   "note": "All forms; reduce terminates for every positive definite form. Behaviour on negative definite forms and on a=0 is described by separate theorems. resultant is proved to be the Sylvester determinant."
  },
  {
   "property": "C24",
   "status": "partial",
   "theorems": [
    "Eclib.Forms.Props.C24_eval",
    "Eclib.Forms.Props.C24_transform",
    "Eclib.Forms.Props.C24_transform_disc",
    "Eclib.Forms.Props.C24_hessian_disc",
    "Eclib.Forms.Props.C24_syzygy",
    "Eclib.Forms.Props.C24_hessian_covariant",
    "Eclib.Forms.Props.C24_x_shift",
    "Eclib.Forms.Props.C24_y_shift",
    "Eclib.Forms.Props.C24_negate",
    "Eclib.Forms.Props.C24_seminegate",
    "Eclib.Forms.Props.C24_invert_partial",
    "Eclib.Forms.Props.C24_invert_wrong",
    "Eclib.Forms.Props.C24_hessian_ops",
    "Eclib.Forms.Props.C24_ops_transform",
    "Eclib.Forms.Props.C24_normalise",
    "Eclib.Forms.Props.C24_hess_reduce_partial",
    "Eclib.Forms.Props.C24_hess_reduce_wrong",
    "Eclib.Forms.Props.C24_is_hessian_reduced",
    "Eclib.Forms.Props.C24_hess_reduce_not_reduced"
   ],
   "note": "All moves; the matrix recorded by invert is off by a sign (refuted: C24_invert_wrong), so hess_reduce is proved up to sign. Floating point jc_reduce not modelled."
  },
  {
   "property": "C25",
   "status": "partial",
   "theorems": [
    "Eclib.Forms.Props.C25_apply_transform",
    "Eclib.Forms.Props.C25_invariants",
    "Eclib.Forms.Props.C25_syzygy",
    "Eclib.Forms.Props.C25_disc",
    "Eclib.Forms.Props.C25_doubleup",
    "Eclib.Forms.Props.C25_xshift",
    "Eclib.Forms.Props.C25_zshift",
    "Eclib.Forms.Props.C25_m_invert",
    "Eclib.Forms.Props.C25_apply_scaled",
    "Eclib.Forms.Props.C25_check_transform",
    "Eclib.Forms.Props.C25_check_transform_scaled_partial",
    "Eclib.Forms.Props.C25_check_transform_scaled_wrong",
    "Eclib.Forms.Props.C25_minim_p_five",
    "Eclib.Forms.Props.C25_minim_p_insoluble",
    "Eclib.Forms.Props.C25_minim_p",
    "Eclib.Forms.Props.C25_minim_all"
   ],
   "note": "Substitutions and invariants proved; minim_p proved for every prime in the cases of is_nonmin, and minim_all for any list of primes: the transform, the invariants, and minimality at the odd primes of the list. The documented precondition of minim_p is not enough without local solubility (C25_minim_p_insoluble). Partial because check_transform for scaled_unimod accepts wrong transforms (refuted)."
  },
  {
   "property": "C26",
   "status": "proved",
   "theorems": [
    "Eclib.Curve.Props.C26_constructor",
    "Eclib.Curve.Props.C26_identities",
    "Eclib.Curve.Props.C26_isnull"
   ],
   "note": "Constructor from a-invariants against Mathlib's WeierstrassCurve over the integers."
  },
  {
   "property": "C27",
   "status": "proved",
   "theorems": [
    "Eclib.Curve.Props.C27_transform",
    "Eclib.Curve.Props.C27_points",
    "Eclib.Curve.Props.C27_inverse"
   ],
   "note": "transform(r,s,t) against Mathlib's VariableChange; points over every commutative ring; inverse transformation."
  },
  {
   "property": "C28",
   "status": "proved",
   "theorems": [
    "Eclib.Curve.Props.C28_valid_invariants"
   ],
   "note": "Both directions of Kraus's criterion for all integer pairs."
  },
  {
   "property": "C29",
   "status": "proved",
   "theorems": [
    "Eclib.Curve.Props.C29_c4c6_to_ai",
    "Eclib.Curve.Props.C29_unique",
    "Eclib.Curve.Props.C29_constructor"
   ],
   "note": "Reconstruction, uniqueness of the standard coefficients, and agreement of the two constructors."
  },
  {
   "property": "C30",
   "status": "proved",
   "theorems": [
    "Eclib.Curve.Props.C30_minimise",
    "Eclib.Curve.Props.C30_global",
    "Eclib.Curve.Props.C30_minimalize"
   ],
   "note": "For every pdivs function returning exactly the prime divisors; minimality against every integral equation isomorphic over the rationals."
  },
  {
   "property": "C31",
   "status": "proved",
   "theorems": [
    "Eclib.Curve.Props.C31_represents",
    "Eclib.Curve.Props.C31_group_law",
    "Eclib.Curve.Props.C31_valid_reduced",
    "Eclib.Curve.Props.C31_axioms"
   ],
   "note": "Every valid integer triple represents a point of Mathlib's group WeierstrassCurve.Affine.Point over the rationals; add, sub, neg, twice represent the group-law results and are valid and reduced; the group axioms are deduced for P2.eq."
  },
  {
   "property": "C32",
   "status": "proved",
   "theorems": [
    "Eclib.Curve.Props.C32_mul",
    "Eclib.Curve.Props.C32_laws"
   ],
   "note": "All integers n; the overflow of operator*(int) at INT_MIN is outside the model (the argument is an unbounded integer)."
  },
  {
   "property": "C33",
   "status": "partial",
   "theorems": [
    "Eclib.Curve.Props.C33_order",
    "Eclib.Curve.Props.C33_order_terminates",
    "Eclib.Curve.Props.C33_order_list_partial"
   ],
   "note": "One-argument order proved in full (see C58). For the list version the bound order <= 12 for torsion points (Mazur's theorem) is a hypothesis of C33_order_list_partial."
  },
  {
   "property": "C34",
   "status": "proved",
   "theorems": [
    "Eclib.Curve.Props.C34_reduce",
    "Eclib.Curve.Props.C34_reduce_zero",
    "Eclib.Curve.Props.C34_eq",
    "Eclib.Curve.Props.C34_unique",
    "Eclib.Curve.Props.C34_infinity_not_unique"
   ],
   "note": "C34_infinity_not_unique shows that -O is (0:-1:0), a second reduced triple for O; eq still identifies them."
  },
  {
   "property": "C35",
   "status": "proved",
   "theorems": [
    "Eclib.Curve.Props.C35_scale",
    "Eclib.Curve.Props.C35_shift",
    "Eclib.Curve.Props.C35_transform",
    "Eclib.Curve.Props.C35_affine",
    "Eclib.Curve.Props.C35_on_curve"
   ],
   "note": "Scale, shift and transform round trips and compatibility with the transformed curve."
  },
  {
   "property": "C36",
   "status": "proved",
   "theorems": [
    "Eclib.Curve.Props.C36_real_component",
    "Eclib.Curve.Props.C36_origin"
   ],
   "note": "Specification over the reals: 4t^3+b2t^2+2b4t+b6 >= 0 for all t >= x(P)."
  },
  {
   "property": "C37",
   "status": "proved",
   "theorems": [
    "Eclib.Curve.Props.C37_good_reduction",
    "Eclib.Curve.Props.C37_list"
   ],
   "note": "Specification is Mathlib's projective Nonsingular over ZMod p, for p prime and P valid and reduced; C37_list covers the list version with the real test."
  },
  {
   "property": "C38",
   "status": "proved",
   "theorems": [
    "Eclib.DivPol.C38_div_pol_odd",
    "Eclib.DivPol.C38_div_pol",
    "Eclib.DivPol.C38_mul_by_n",
    "Eclib.DivPol.C38_division_points",
    "Eclib.DivPol.C38_negative",
    "Eclib.DivPol.C38_num_zero"
   ],
   "note": "Equality with Mathlib's pre\u03a8, \u03a8\u2082Sq, \u03a6, \u03a8Sq for every curve and every n >= 0 (numerator: n >= 1); for negative n the recursion never ends (C38_negative, C38_num_zero)."
  },
  {
   "property": "C39",
   "status": "proved",
   "theorems": [
    "Eclib.Curve.Props.C39_sound",
    "Eclib.Curve.Props.C39_complete"
   ],
   "note": "Soundness (valid, reduced, right x, pairwise different) and completeness for the x-coordinate in lowest terms with positive denominator. make_points only wraps points_from_x and is not modelled separately."
  },
  {
   "property": "C40",
   "status": "partial",
   "theorems": [
    "Eclib.Symb.Props.C40_constructor_partial",
    "Eclib.Symb.Props.C40_index_partial",
    "Eclib.Symb.Props.C40_symbol_partial",
    "Eclib.Symb.Props.C40_index_class_partial",
    "Eclib.Symb.Props.C40_level_one"
   ],
   "note": "Proved for every level N>=2 (constructor without undefined behaviour, index and symbol mutually inverse up to equivalence, index equal iff equivalent, nsymb = number of points of P1(Z/N)). At N=1 the claim fails: index2 reads noninvdlist[0] of an empty vector (C40_level_one)."
  },
  {
   "property": "C41",
   "status": "proved",
   "theorems": [
    "Eclib.Symb.Props.C41_cuspeq",
    "Eclib.Symb.Props.C41_cuspeq_plus",
    "Eclib.Symb.Props.C41_index",
    "Eclib.Symb.Props.C41_index_1",
    "Eclib.Symb.Props.C41_index_2"
   ],
   "note": "For every level N>=1 and all histories of index, index_1, index_2 calls."
  },
  {
   "property": "C42",
   "status": "partial",
   "theorems": [
    "Eclib.Bits.C42_history_partial",
    "Eclib.Bits.C42_reduce_partial",
    "Eclib.Bits.C42_mask_partial",
    "Eclib.Bits.C42_reduce_start",
    "Eclib.Bits.C42_wide"
   ],
   "note": "Proved for every history of augment calls on spaces of dimension at most 31 and all vectors of at most that many bits: generators independent, same span, dim grows by one exactly when the vector is new, reduce is 0 exactly on the span, mask = 0 singles out one vector per coset. Missing: dimensions 32..64, which the constructor allows but where testbit/augment shift an int by 31 or more (C42_wide)."
  },
  {
   "property": "C43",
   "status": "proved",
   "theorems": [
    "Eclib.Sqf.C43_subgp",
    "Eclib.Sqf.C43_divs",
    "Eclib.Sqf.C43_supp"
   ],
   "note": "For every base of distinct primes (fewer than 30 dividing dd, since 2<<np is an int), either sign flag and every history of usediv calls with nonzero integers whose squarefree part is supported on the primes dividing dd. getsupp generates exactly the list of getdivs."
  },
  {
   "property": "C44",
   "status": "proved",
   "theorems": [
    "Eclib.LocSol.C44_answer",
    "Eclib.LocSol.C44_qpsoluble",
    "Eclib.LocSol.C44_new_qpsoluble",
    "Eclib.LocSol.C44_repeated_diverges"
   ],
   "note": "psquare, lemma6, lemma7, zpsol, qpsoluble: whenever qpsoluble returns the answer is right, and it returns for every quartic of non-zero discriminant; for 3(x^2-2z^2)^2 at 7 it does not return. The method of Siksek for p >= 1000 is not modelled."
  },
  {
   "property": "C45",
   "status": "proved",
   "theorems": [
    "Eclib.Local.C45_local",
    "Eclib.Local.C45_real",
    "Eclib.Local.C45_symm",
    "Eclib.Local.C45_mul",
    "Eclib.Local.C45_global_gen",
    "Eclib.Local.C45_global",
    "Eclib.Local.C45_global_quad",
    "Eclib.Local.C45_quad_zero_lead",
    "Eclib.Local.product_formula",
    "Eclib.Local.legendre_thm"
   ],
   "note": "Exact for all non-zero a, b and every place, against solubility over Mathlib's p-adic numbers, the reals and the rationals. global_hilbert is proved to decide rational solubility (product formula and Legendre's theorem are proved in the development). The list of primes passed to global_hilbert (pdivs of bigints, PARI/trial division) is a hypothesis. For binary quadratics q[0] and the discriminant must be non-zero; for q[0]=0 the code is wrong (C45_quad_zero_lead)."
  },
  {
   "property": "C46",
   "status": "proved",
   "theorems": [
    "Eclib.Pool.C46_close",
    "Eclib.Pool.C46_account",
    "Eclib.Pool.C46_returns",
    "Eclib.Pool.C46_threads",
    "Eclib.Pool.C46_zero_concurrency",
    "Eclib.Pool.C46_restart_idle",
    "Eclib.Pool.C46_restart_loses"
   ],
   "note": "all interleavings, any number of workers and jobs, from construction to the return of the first close(); termination of close() under every schedule; the rules of boost::asio::io_service are trusted and stated in Pool/Model.lean; restart after close proved not to work"
  },
  {
   "property": "C47",
   "status": "partial",
   "theorems": [
    "Eclib.Smat.Props.C47_iadd",
    "Eclib.Smat.Props.C47_isub",
    "Eclib.Smat.Props.C47_incompatible",
    "Eclib.Smat.Props.C47_addScalar",
    "Eclib.Smat.Props.C47_addScalar_square",
    "Eclib.Smat.Props.C47_addScalar_tall",
    "Eclib.Smat.Props.C47_subScalar",
    "Eclib.Smat.Props.C47_imul",
    "Eclib.Smat.Props.C47_imul_zero",
    "Eclib.Smat.Props.C47_mulModP",
    "Eclib.Smat.Props.C47_idiv",
    "Eclib.Smat.Props.C47_idiv_exact",
    "Eclib.Smat.Props.C47_reduceModP",
    "Eclib.Smat.Props.C47_subModP",
    "Eclib.Smat.Props.C47_mulMat",
    "Eclib.Smat.Props.C47_mulSvec",
    "Eclib.Smat.Props.C47_mulVec",
    "Eclib.Smat.Props.C47_mulSvecModP",
    "Eclib.Smat.Props.C47_svecMul",
    "Eclib.Smat.Props.C47_mul",
    "Eclib.Smat.Props.C47_svecMulModP",
    "Eclib.Smat.Props.C47_mulMod",
    "Eclib.Smat.Props.C47_mulVecModP",
    "Eclib.Smat.Props.C47_new",
    "Eclib.Smat.Props.C47_copy",
    "Eclib.Smat.Props.C47_assign",
    "Eclib.Smat.Props.C47_ofMat",
    "Eclib.Smat.Props.C47_asMat",
    "Eclib.Smat.Props.C47_row",
    "Eclib.Smat.Props.C47_elem",
    "Eclib.Smat.Props.C47_setRow",
    "Eclib.Smat.Props.C47_setrow",
    "Eclib.Smat.Props.C47_setrowVec_partial",
    "Eclib.Smat.Props.C47_setrowVec_fails",
    "Eclib.Smat.Props.C47_selectRows",
    "Eclib.Smat.Props.C47_transpose",
    "Eclib.Smat.Props.C47_eq",
    "Eclib.Smat.Props.C47_eq_fails",
    "Eclib.Smat.Props.C47_eqmodp",
    "Eclib.Smat.Props.C47_eqmodp_fails",
    "Eclib.Smat.Props.C47_maxabs",
    "Eclib.Smat.Props.C47_scalarMatrix",
    "Eclib.Smat.Props.C47_population"
   ],
   "note": "Every listed operation is proved to act on the represented dense matrix as the dense operation does, with memory accesses in range. Partial because setrow(int,vec) is correct only when no reallocation is needed: C47_setrowVec_partial, refuted otherwise by C47_setrowVec_fails. operator== and eqmodp are exact only when no zeros are stored and the column counts agree (C47_eq, C47_eqmodp, with refutations); adding a scalar to a matrix with more rows than columns stores entries beyond the last column (C47_addScalar_tall). I/O, nullity, liftmat and liftmats_chinese are not modelled."
  },
  {
   "property": "C48",
   "status": "proved",
   "theorems": [
    "Eclib.Primes.C48_safe",
    "Eclib.Primes.C48_table",
    "Eclib.Primes.C48_bound",
    "Eclib.Primes.C48_number",
    "Eclib.Primes.C48_getfirst",
    "Eclib.Primes.C48_primevar",
    "Eclib.Primes.C48_prime_pi",
    "Eclib.Primes.C48_pdivs",
    "Eclib.Primes.C48_primdiv",
    "Eclib.Primes.C48_default",
    "Eclib.Primes.C48_default_pdivs",
    "Eclib.Primes.C48_pdivs_large"
   ],
   "note": "every bound within which prime gaps are below 256 (stored as bytes), which is proved for the default bound; memory safety for every bound; any history of calls; prime_pi shown not to end beyond the table; pdivs exact below the square of the bound and shown wrong beyond it"
  },
  {
   "property": "C49",
   "status": "proved",
   "theorems": [
    "Eclib.Lll.C49_terminates",
    "Eclib.Lll.C49_lattice",
    "Eclib.Lll.C49_reduced",
    "Eclib.Lll.C49_dependent",
    "Eclib.Lll.C49_dependent_one_fails",
    "Eclib.Lll.C49_empty_fails",
    "Eclib.Lll.C49_short"
   ],
   "note": "For positive weights and any integer vectors: termination (potential = product of the d[i]), exactness of all integer divisions, same lattice, LLL reduced (Gram-Schmidt definition, constant 3/4) on exit, dependence reported exactly for n >= 2, and the short vector bound 2^(n-1). C49_lattice needs no hypothesis on the weights. For n = 1 a zero vector is not reported (C49_dependent_one_fails) and n = 0 assigns d[1] out of range (C49_empty_fails)."
  },
  {
   "property": "C50",
   "status": "proved",
   "theorems": [
    "Eclib.Codes.Props.C50_I2int",
    "Eclib.Codes.Props.C50_I2long"
   ],
   "note": "Both types, all integers, including the message flag."
  },
  {
   "property": "C51",
   "status": "proved",
   "theorems": [
    "Eclib.Codes.Props.C51_roundtrip",
    "Eclib.Codes.Props.C51_injective",
    "Eclib.Codes.Props.C51_surjective",
    "Eclib.Codes.Props.C51_decode",
    "Eclib.Codes.Props.C51_negative"
   ],
   "note": "All int indices; int overflow is undefined in the model and shown not to occur."
  },
  {
   "property": "C52",
   "status": "proved",
   "theorems": [
    "Eclib.Codes.Props.C52_injective",
    "Eclib.Codes.Props.C52_permutes",
    "Eclib.Codes.Props.C52_booknumber"
   ],
   "note": "Whole table, all levels."
  },
  {
   "property": "C53",
   "status": "partial",
   "theorems": [
    "Eclib.Tate.C53_local",
    "Eclib.Tate.C53_local_good",
    "Eclib.Tate.C53_global_kills",
    "Eclib.Tate.C53_global_partial",
    "Eclib.Tate.C53_global_not_lcm",
    "Eclib.Tate.C53_number",
    "Eclib.Tate.C53_pari"
   ],
   "note": "local_Tamagawa_exponent is the exponent of every subgroup of order c_p of the geometric component group; the global exponent is a multiple of all of them always, and their lcm unless some fibre is I*n (n even) with trivial component group, where the code is refuted (C53_global_not_lcm)."
  },
  {
   "property": "C54",
   "status": "proved",
   "theorems": [
    "Eclib.Equiv.C54_testd"
   ],
   "note": "All quartics, matrices and scales."
  },
  {
   "property": "C55",
   "status": "proved",
   "theorems": [
    "Eclib.Forms.Props.C55_sl2_equivalent",
    "Eclib.Forms.Props.C55_gl2_equivalent"
   ],
   "note": "Positive discriminant, unconditional; termination included."
  },
  {
   "property": "C56",
   "status": "proved",
   "theorems": [
    "Eclib.Forms.Props.C56_j_c1",
    "Eclib.Forms.Props.C56_j_c2",
    "Eclib.Forms.Props.C56_j_c3",
    "Eclib.Forms.Props.C56_j_c4",
    "Eclib.Forms.Props.C56_signs"
   ],
   "note": "Identities over every commutative ring; signs over the complex roots for negative discriminant."
  },
  {
   "property": "C57",
   "status": "partial",
   "theorems": [
    "Eclib.Mat.Props.C57_echelonp_counterexample"
   ],
   "note": "The property fails: the back-substitution loop starts at r+1 instead of r1+1, so it never runs; proved on a 2x3 matrix with the default modulus."
  },
  {
   "property": "C58",
   "status": "proved",
   "theorems": [
    "Eclib.Curve.Props.C33_order",
    "Eclib.Curve.Props.C33_order_terminates",
    "Eclib.Curve.torsion_Z",
    "Eclib.Curve.multiples_unbounded"
   ],
   "note": "Nagell-Lutz bound (torsion_Z) and the existence of a multiple with Z>8 (multiples_unbounded) are proved from the chord and tangent law."
  },
  {
   "property": "C59",
   "status": "proved",
   "theorems": [
    "Eclib.Symb.Props.C59_rof",
    "Eclib.Symb.Props.C59_rsof",
    "Eclib.Symb.Props.C59_sof",
    "Eclib.Symb.Props.C59_tof"
   ],
   "note": "For every level N>=2."
  },
  {
   "property": "C60",
   "status": "partial",
   "theorems": [
    "Eclib.Sqf.C60_makenum_partial",
    "Eclib.Sqf.C60_makeindex_partial",
    "Eclib.Sqf.C60_roundtrip_partial",
    "Eclib.Sqf.C60_wide"
   ],
   "note": "For supports of at most 31 entries; for longer ones makenum shifts an int too far (C60_wide)."
  },
  {
   "property": "C61",
   "status": "proved",
   "theorems": [
    "Eclib.LocSol.C61_type",
    "Eclib.LocSol.C61_rsoluble",
    "Eclib.LocSol.C61_repeated_fails"
   ],
   "note": "Types 3, 2, 1 are two, four, no real zeros in the projective line; Rsoluble is exact. With a repeated factor Rsoluble can be wrong (-x^2(x^2+z^2))."
  },
  {
   "property": "C62",
   "status": "proved",
   "theorems": [
    "Eclib.LocSol.C62_locallysoluble",
    "Eclib.LocSol.C62_ace"
   ],
   "note": "Exact for all lists of primes below 1000; for larger primes the theorem takes the correctness of the unmodelled method as a hypothesis."
  },
  {
   "property": "C63",
   "status": "proved",
   "theorems": [
    "Eclib.Tate.C63_curve_red",
    "Eclib.Tate.C63_minimalize",
    "Eclib.Tate.C63_type_unique",
    "Eclib.Tate.C63_type_iff"
   ],
   "note": "Types are specified by Tate's normal forms up to integral changes of coordinates (TypeSpec.lean); each minimal equation has exactly one type. That the normal forms describe the Neron special fibre is not formalised. XGCD, SqrRootMod and FindRoots are contracts; a Curvedata object must satisfy its class invariant (Cdf.Ok)."
  },
  {
   "property": "C64",
   "status": "proved",
   "theorems": [
    "Eclib.Tate.C64_exponent",
    "Eclib.Tate.C64_conductor"
   ],
   "note": "The exponent is defined by Ogg's formula, as in the code; that it is the Artin conductor is not formalised."
  },
  {
   "property": "C65",
   "status": "proved",
   "theorems": [
    "Eclib.Pmod.C65_represents",
    "Eclib.Pmod.C65_group_law",
    "Eclib.Pmod.C65_laws"
   ],
   "note": "Refinement to Mathlib's WeierstrassCurve.Affine.Point over any field."
  },
  {
   "property": "C66",
   "status": "partial",
   "theorems": [
    "Eclib.Pmod.C66_bg",
    "Eclib.Pmod.C66_found",
    "Eclib.Pmod.C66_dlog_partial",
    "Eclib.Pmod.C66_upper_end",
    "Eclib.Pmod.C66_not_least"
   ],
   "note": "The result is always a solution in the interval when there is one. The code violates the claim at two places, proved by witnesses: for intervals shorter than 30 it also tries and may return upper+1 (C66_upper_end), and for lower>0 with lower*P=Q it may return a larger solution (C66_not_least). C66_bg gives the exact result in all other cases."
  },
  {
   "property": "C67",
   "status": "proved",
   "theorems": [
    "Eclib.Pmod.C67_order_mult",
    "Eclib.Pmod.C67_order_bounds",
    "Eclib.Pmod.C67_order_bounds_wrong",
    "Eclib.Pmod.C67_hasse_bounds",
    "Eclib.Pmod.C67_order_point",
    "Eclib.Hasse.hasse"
   ],
   "note": "Hasse's theorem is proved (Verif/Hasse) and used by C67_order_point, for every elliptic curve over a prime field. C67_order_bounds_wrong: outside its precondition (no multiple of the order in the interval) the function with bounds returns 1 without any error."
  },
  {
   "property": "C68",
   "status": "partial",
   "theorems": [
    "Eclib.Pmod.C68_tidy_lcm",
    "Eclib.Pmod.C68_merge1",
    "Eclib.Pmod.C68_linear_relation_partial",
    "Eclib.Pmod.C68_linear_relation_coprime"
   ],
   "note": "linear_relation returns (1,0) for points of coprime orders although Q is not in <P>: C68_linear_relation_coprime; the partial theorem covers all other cases."
  },
  {
   "property": "C69",
   "status": "partial",
   "theorems": [
    "Eclib.Pmod.C69_n2list",
    "Eclib.Pmod.C69_iso_type_counted",
    "Eclib.Pmod.C69_curve_counted",
    "Eclib.Pmod.C69_curve_cyclic",
    "Eclib.Pmod.C69_curve_partial",
    "Eclib.Pmod.C69_iso_type_wrong",
    "Eclib.Pmod.C69_merge2_dependent"
   ],
   "note": "The code violates the claim for fields where the points are not counted: C69_iso_type_wrong (q=139). For counted fields (q odd <100, 181, 331, 547) the claim holds for every elliptic curve and every sequence of random points (C69_curve_counted); for the others C69_curve_partial needs the structure theorem (quotient of order by exponent divides q-1 and the exponent) and that the first loop reached the exponent; C69_curve_cyclic has no such hypotheses. The bilinearity of the Weil pairing is a hypothesis; termination is not claimed (the result is conditional on return)."
  },
  {
   "property": "C70",
   "status": "partial",
   "theorems": [
    "Eclib.Pmod.C70_set_x",
    "Eclib.Pmod.C70_random_point",
    "Eclib.Pmod.C70_count",
    "Eclib.Pmod.C70_other_two",
    "Eclib.Pmod.C70_count_two",
    "Eclib.Pmod.C70_random_point_stuck"
   ],
   "note": "Proved for every odd prime q. Fails at q=2 for the count (C70_count_two); random_point does not return when infinity is the only point (C70_random_point_stuck)."
  },
  {
   "property": "C71",
   "status": "proved",
   "theorems": [
    "Eclib.Elim.C71_kernel",
    "Eclib.Elim.C71_kernel_dense"
   ],
   "note": "Model of smat_elim with arrays of unset cells, so reading or writing outside is an outcome of its own. The density test (floating point) is an argument that must say true when nothing is left; the dense reduction (NTL or FLINT) is a contract, met by echmodp of mat.cc (C71_kernel_dense). Machine overflow of nrr*nrc and of products in xmm is not modelled; entries are proved smaller than q in absolute value. new_kernel is not modelled."
  },
  {
   "property": "C72",
   "status": "partial",
   "theorems": [
    "Eclib.Elim.C72_ordlist_partial",
    "Eclib.Elim.C72_put_not_insert",
    "Eclib.Elim.C72_put_overflow",
    "Eclib.Elim.C72_putList_overflow"
   ],
   "note": "remove, remove(list), put(list) and put at the end are proved. The code violates the claim: put(X) in the middle moves the wrong cells or writes past the array, put(list) reads past a full array. Neither happens in the elimination (C71)."
  },
  {
   "property": "C73",
   "status": "proved",
   "theorems": [
    "Eclib.Elim.C73_kernel",
    "Eclib.Elim.C73_eigenspace",
    "Eclib.Elim.C73_combine",
    "Eclib.Elim.C73_restrict_mat",
    "Eclib.Elim.C73_subeigenspace",
    "Eclib.Elim.C73_make1d",
    "Eclib.Elim.C73_make1d_zero",
    "Eclib.Elim.C73_whole_undefined"
   ],
   "note": "Built on C47 (sparse matrices) and C71 (elimination), with their contracts. The constructor ssubspace(n) leaves the modulus unset, so combine and restrict_mat of it are undefined (C73_whole_undefined); make1d of the zero vector reads past the end of the map (C73_make1d_zero)."
  },
  {
   "property": "C74",
   "status": "proved",
   "theorems": [
    "Eclib.Hom.C74_coords",
    "Eclib.Hom.dim_unique"
   ],
   "note": "Model of the constructor without liftmat: the kernel modulo the prime is used as it is. Library routines xgcd and dense row reduction are contracts with instances."
  },
  {
   "property": "C75",
   "status": "proved",
   "theorems": [
    "Eclib.Hom.C75_numrel",
    "Eclib.Hom.reps_bound"
   ],
   "note": "Over the rationals: a dependency between relations gives a function on M-symbols invariant under the modular group, hence constant."
  },
  {
   "property": "C76",
   "status": "proved",
   "theorems": [
    "Eclib.Hom.C76_modsym",
    "Eclib.Hom.exists_manin",
    "Eclib.Hom.exists_modsym",
    "Eclib.Hom.assoc_unique",
    "Eclib.Hom.inv_iff_gamma0"
   ],
   "note": "Modular symbols are functions of two cusps invariant under Gamma_0(N) (the link to Mathlib's Gamma0 is inv_iff_gamma0); the coordinates are modulo the prime q used by the elimination, overflow of long is not modelled."
  },
  {
   "property": "C77",
   "status": "proved",
   "theorems": [
    "Eclib.Hom.C77_hecke",
    "Eclib.Hom.al_unique",
    "Eclib.Hom.al_involution",
    "Eclib.Hom.heckeT_isModSym"
   ],
   "note": "Modulo the prime used; for a space which is not restricted to its cuspidal part."
  },
  {
   "property": "C78",
   "status": "proved",
   "theorems": [
    "Eclib.Hom.C78_newheckeop",
    "Eclib.Hom.matopH_isHeil",
    "Eclib.Hom.heil_sum",
    "Eclib.Hom.matOf_unique"
   ],
   "note": "Modulo the prime used."
  },
  {
   "property": "C79",
   "status": "partial",
   "theorems": [
    "Eclib.Hom.C79_newheckeop_partial",
    "Eclib.Hom.C79_newheckeop_dual"
   ],
   "note": "The claim is false: the flag display is passed as dual (witness at level 4). Proved when both flags agree."
  },
  {
   "property": "C80",
   "status": "proved",
   "theorems": [
    "Eclib.Hom.C80_commute",
    "Eclib.Hom.op_comm",
    "Eclib.Hom.heckeT_comm",
    "Eclib.Hom.al_comm"
   ],
   "note": "Matrices of all operators commute modulo q; involutions square to 1."
  },
  {
   "property": "C81",
   "status": "proved",
   "theorems": [
    "Eclib.Hom.C81_kern",
    "Eclib.Hom.bdry_iff"
   ],
   "note": "kern = combinations with zero boundary, for every q > 3."
  },
  {
   "property": "C82",
   "status": "proved",
   "theorems": [
    "Eclib.Hom.C82_heckeop",
    "Eclib.Hom.C82_restricted",
    "Eclib.Hom.cuspidal_invariant"
   ],
   "note": "Matrix on the cuspidal subspace and on invariant subspaces; for int scalars with q = BIGPRIME under the precondition that entries are reduced."
  },
  {
   "property": "C83",
   "status": "proved",
   "theorems": [
    "Eclib.Lift.C83_liftmat",
    "Eclib.Lift.C83_liftmat_complete"
   ],
   "note": "int and long scalars; for bigint modrat itself is incomplete (C09). For int scalars modulo BIGPRIME the entries of m are described only if dd is reduced, which holds in the exact lift."
  },
  {
   "property": "C84",
   "status": "partial",
   "theorems": [
    "Eclib.Lift.C84_liftmat_partial",
    "Eclib.Lift.C84_maxabs_zero",
    "Eclib.Lift.C84_maxabs_wrong",
    "Eclib.Lift.C84_liftmat_wrong",
    "Eclib.Lift.C84_lift_subspace_undefined"
   ],
   "note": "The code violates the claim: maxabs is always 0, dd is not set."
  },
  {
   "property": "C85",
   "status": "partial",
   "theorems": [
    "Eclib.Lift.C85_liftmats_chinese_partial",
    "Eclib.Lift.C85_liftmats_chinese_wrong"
   ],
   "note": "The code violates the claim: it multiplies by dd/d. Modelled for one row; long and bigint."
  },
  {
   "property": "C86",
   "status": "partial",
   "theorems": [
    "Eclib.Lift.C86_lift_sound",
    "Eclib.Lift.C86_lift_defined",
    "Eclib.Lift.C86_lift_complete",
    "Eclib.Lift.C86_lift_comment_false",
    "Eclib.Lift.C86_lift_exception"
   ],
   "note": "Sound, and complete for vectors with entries at most sqrt(p/2); the wider claim of the comment and the absence of exceptions are refuted by witnesses."
  },
  {
   "property": "C87",
   "status": "proved",
   "theorems": [
    "Eclib.Twoadic.C87_case1",
    "Eclib.Twoadic.C87_case1_terminates",
    "Eclib.Twoadic.C87_case1_loops",
    "Eclib.Twoadic.C87_case2",
    "Eclib.Twoadic.C87_case2_terminates",
    "Eclib.Twoadic.C87_case2_loops"
   ],
   "note": "Both versions (long without overflow, bigint). Termination for non-zero discriminant; for discriminant 0 the functions can loop forever (witnesses)."
  },
  {
   "property": "C88",
   "status": "partial",
   "theorems": [
    "Eclib.Twoadic.C88_try1_zero_partial",
    "Eclib.Twoadic.C88_try1_one_wrong"
   ],
   "note": "The answer 0 is right for all polynomials; the answer 1 is wrong for a polynomial given as a witness (Newton polygon test)."
  },
  {
   "property": "C89",
   "status": "proved",
   "theorems": [
    "Eclib.Legendre.C89_minv",
    "Eclib.Legendre.C89_GIgcd",
    "Eclib.Legendre.C89_lem1"
   ],
   "note": "all inputs"
  },
  {
   "property": "C90",
   "status": "proved",
   "theorems": [
    "Eclib.Legendre.C90_lem3",
    "Eclib.Legendre.C90_solve_cert",
    "Eclib.Legendre.C90_solve_cert_squarefree",
    "Eclib.Legendre.C90_soluble"
   ],
   "note": "the fuel of the model is an argument, shown sufficient when greater than |bc|; XGCD of NTL is a contract"
  },
  {
   "property": "C91",
   "status": "proved",
   "theorems": [
    "Eclib.Legendre.C91_mordell",
    "Eclib.Legendre.C91_legendre_reduce",
    "Eclib.Legendre.C91_new_reduce",
    "Eclib.Legendre.C91_legendre_param"
   ],
   "note": "All coefficients non-zero and pairwise coprime, all primitive solutions; termination included."
  },
  {
   "property": "C92",
   "status": "proved",
   "theorems": [
    "Eclib.Legendre.C92_legendre_solve",
    "Eclib.Legendre.C92_holzer",
    "Eclib.Legendre.C92_zero"
   ],
   "note": "Both directions: a returned triple is a primitive solution, and 0 is returned only if there is none. C92_zero records the answer 0 for a zero coefficient (excluded in the claim). use_lll=0."
  },
  {
   "property": "C93",
   "status": "partial",
   "theorems": [
    "Eclib.Legendre.C93_testlocsol3",
    "Eclib.Legendre.C93_testlocsol2",
    "Eclib.Legendre.C93_solve_conic",
    "Eclib.Legendre.C93_solve_conic_old_partial",
    "Eclib.Legendre.C93_solve_conic_old_wrong"
   ],
   "note": "testlocsol and method 4 proved. The methods 0-3 are wrong for b not 0 (witness for every implementation of solve_conic_diag); for b = 0 they are proved from the contract of solve_conic_diag."
  },
  {
   "property": "C94",
   "status": "partial",
   "theorems": [
    "Eclib.Legendre.C94_solve_conic_param_partial",
    "Eclib.Legendre.C94_square",
    "Eclib.Legendre.C94_not_squarefree"
   ],
   "note": "Proved for square-free d, and for all d if b^2-4ac is a square; for other d the code fails (witness)."
  },
  {
   "property": "C95",
   "status": "proved",
   "theorems": [
    "Eclib.Desc2.C95_desc2",
    "Eclib.Desc2.C95_no_points",
    "Eclib.Rank2.Props.C95_in_rank2",
    "Eclib.Desc2.C95_process_d3",
    "Eclib.Desc2.C95_g_content",
    "Eclib.Desc2.C95_param_complete",
    "Eclib.Desc2.C95_invariants"
   ],
   "note": "For any mask: C95_no_points under explicit hypotheses on the generators and the mask, and C95_in_rank2 derives these for the calls from find_elsgens' result. minim_all, locallysoluble and the loop with reduce are part of the model; by contract (DLib.Ok): pdivs, the method of locallysoluble for primes from 1000 on, reduce_quad (floating point: only that its matrix is invertible) and the search."
  },
  {
   "property": "C96",
   "status": "partial",
   "theorems": [
    "Eclib.Curve.C96_cover",
    "Eclib.Curve.C96_qc_partial",
    "Eclib.Curve.C96_e_square"
   ],
   "note": "Proved unless a is not a square, e is a square and z0 is not \u00b11; in that case the code returns a point that is not on the curve (witness C96_e_square)."
  },
  {
   "property": "C97",
   "status": "proved",
   "theorems": [
    "Eclib.Search.C97_ratpoint"
   ],
   "note": ""
  },
  {
   "property": "C98",
   "status": "partial",
   "theorems": [
    "Eclib.Search.C98_flags",
    "Eclib.Search.C98_search_partial",
    "Eclib.Search.C98_search_stored",
    "Eclib.Search.C98_flags_lost",
    "Eclib.Search.C98_even_numerators"
   ],
   "note": "False for the code as it is (two witnesses); proved for e mod 8 <= 4, d mod 4 != 3 when the table of gcds is used or the ranges are short, and without the condition on ranges for the version that stores the flags."
  },
  {
   "property": "C99",
   "status": "proved",
   "theorems": [
    "Eclib.Stoll.C99_sieve",
    "Eclib.Stoll.C99_sieve_zero",
    "Eclib.Stoll.C99_excluded"
   ],
   "note": "Words are BitVec 64; the tables for both kinds of numerators and the row for denominators divisible by p, and the excluded denominators and numerators."
  }
 ]
}