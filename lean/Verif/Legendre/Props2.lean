import Verif.Legendre.Conic
import Mathlib.Tactic.NormNum.Prime

/-!
# C91–C94: reduction of solutions, Legendre's equation, conics

The specification: `Sol` (non-trivial solution), `Coef` (coefficients not zero and pairwise coprime), `Prim` (primitive
triple), `Holzer` (Holzer's bounds), `Param` (the identity and the discriminants of a parametrization), and for the
conic `a x² + b x z + c z² = d y²` `CSol` and `CParam`.
-/

namespace Eclib.Legendre

open Marith (XGcd SqrRootMod)
open Marith.Props (xgcd0 sqr0)
open Spec (IsPrimeDivisorList)
open Forms (Q)

/-! ## C91 -/

/-- `conic_mordell_reduce`: for `a, b > 0` the loop ends with a primitive solution with `z² ≤ ab`. -/
theorem C91_mordell (X : XGcd) (a b c x y z : ℤ) (hC : Coef a b c) (ha : 0 < a) (hb : 0 < b)
    (hS : Sol a b c x y z) (hP : Prim x y z) :
    ∃ s, mordellReduce X a b c x y z = some s ∧ Sol a b c s.1 s.2.1 s.2.2 ∧ Prim s.1 s.2.1 s.2.2 ∧
      s.2.2 ^ 2 ≤ a * b := mordellReduce_spec X hC ha hb hS hP

theorem coef_ex : Coef 2 3 (-5) :=
  ⟨by norm_num, by norm_num, by norm_num, ⟨-1, 1, by norm_num⟩, ⟨2, 1, by norm_num⟩, ⟨-1, -2, by norm_num⟩⟩

theorem prim_ex : Prim 43 13 29 := fun d h1 h2 _ => by
  have h : IsCoprime (43 : ℤ) 13 := ⟨-3, 10, by norm_num⟩
  exact h.isUnit_of_dvd' h1 h2

example : Sol 2 3 (-5) 43 13 29 ∧ Prim 43 13 29 ∧ (mordellReduce xgcd0 2 3 (-5) 43 13 29).isSome :=
  ⟨⟨by norm_num, by norm_num⟩, prim_ex, by decide +kernel⟩

/-- `legendre_reduce`: a primitive solution satisfying Holzer's bounds, for all signs. -/
theorem C91_legendre_reduce (X : XGcd) (a b c x y z : ℤ) (hC : Coef a b c) (hS : Sol a b c x y z) (hP : Prim x y z) :
    ∃ s, legendreReduce X a b c x y z = some s ∧ Sol a b c s.1 s.2.1 s.2.2 ∧ Prim s.1 s.2.1 s.2.2 ∧
      Holzer a b c s.1 s.2.1 s.2.2 := legendreReduce_spec X hC hS.not_same.1 hS.not_same.2 hS hP

/-- `new_legendre_reduce`: likewise. -/
theorem C91_new_reduce (X : XGcd) (a b c x y z : ℤ) (hC : Coef a b c) (hS : Sol a b c x y z) (hP : Prim x y z) :
    ∃ s, newReduce X a b c x y z = some s ∧ Sol a b c s.1 s.2.1 s.2.2 ∧ Prim s.1 s.2.1 s.2.2 ∧
      Holzer a b c s.1 s.2.1 s.2.2 := newReduce_spec X hC hS.not_same.1 hS.not_same.2 hS hP

example : newReduce xgcd0 2 3 (-5) 43 13 29 = some (1, 1, 1) := by decide +kernel

/-- `legendre_param`: all divisions are exact, the three quadratics satisfy the identity, their discriminants are
`-4bc`, `-4ac`, `-4ab`, and their leading coefficients are a solution. -/
theorem C91_legendre_param (X : XGcd) (a b c x y z : ℤ) (ha : a ≠ 0) (hb : b ≠ 0) (hc : c ≠ 0)
    (hS : Sol a b c x y z) (hP : Prim x y z) (hz : z ≠ 0) :
    ∃ qx qy qz, legendreParam X a b c x y z = some (qx, qy, qz) ∧ Param a b c qx qy qz ∧
      Sol a b c qx.a qy.a qz.a := by
  obtain ⟨qx, qy, qz, h, hp⟩ := legendreParam_spec X ha hb hc hS hP hz
  exact ⟨qx, qy, qz, h, hp, hp.lead ha hb hc⟩

example : legendreParam xgcd0 39 34 (-31) 3 10 11 = some (⟨-9, 56, 30⟩, ⟨-32, -42, 24⟩, ⟨35, 24, 42⟩) := by
  decide +kernel

/-! ## C92 -/

/-- `legendre_solve`: for non-zero coefficients and a factor base containing the primes dividing them, the result is a
primitive solution with non-negative coordinates, or 0 and there is no solution. -/
theorem C92_legendre_solve (X : XGcd) (S : SqrRootMod) (a b c : ℤ) (fb : List ℤ) (ha : a ≠ 0) (hb : b ≠ 0) (hc : c ≠ 0)
    (hpr : ∀ p ∈ fb, 0 < p ∧ Prime p) (hnd : fb.Nodup) (hall : ∀ p, 0 < p → Prime p → p ∣ a * b * c → p ∈ fb) :
    (∃ x y z, legendreSolve X S a b c fb = .sol x y z ∧ Sol a b c x y z ∧ Prim x y z ∧ 0 ≤ x ∧ 0 ≤ y ∧ 0 ≤ z) ∨
    (legendreSolve X S a b c fb = .insol ∧ ¬ ∃ x y z, Sol a b c x y z) :=
  legendreSolve_spec X S ha hb hc hpr hnd hall

/-- If the coefficients are square-free and pairwise coprime the solution satisfies Holzer's bounds. -/
theorem C92_holzer (X : XGcd) (S : SqrRootMod) (a b c : ℤ) (fb : List ℤ) (hC : Coef a b c)
    (sa : Squarefree a) (sb : Squarefree b) (sc : Squarefree c)
    (hpr : ∀ p ∈ fb, 0 < p ∧ Prime p) (hnd : fb.Nodup) (hall : ∀ p, 0 < p → Prime p → p ∣ a * b * c → p ∈ fb)
    (x y z : ℤ) (h : legendreSolve X S a b c fb = .sol x y z) : Holzer a b c x y z :=
  legendreSolve_holzer X S hC sa sb sc hpr hnd hall h

/-- The answer 0 is returned if a coefficient is 0, although the equation is then soluble for some (here all) `b, c`. -/
theorem C92_zero (X : XGcd) (S : SqrRootMod) (b c : ℤ) (fb : List ℤ) :
    legendreSolve X S 0 b c fb = .insol ∧ Sol 0 b c 1 0 0 := by
  refine ⟨?_, by ring, by norm_num⟩
  unfold legendreSolve
  rw [if_pos (Or.inl rfl)]

theorem fb_ex : (∀ p ∈ [(2 : ℤ), 3, 5], 0 < p ∧ Prime p) ∧ [(2 : ℤ), 3, 5].Nodup ∧
    ∀ p : ℤ, 0 < p → Prime p → p ∣ 2 * 3 * (-5) → p ∈ [(2 : ℤ), 3, 5] := by
  refine ⟨?_, by decide, ?_⟩
  · intro p hp
    simp only [List.mem_cons, List.not_mem_nil, or_false] at hp
    rcases hp with rfl | rfl | rfl <;> exact ⟨by norm_num, by rw [Int.prime_iff_natAbs_prime]; norm_num⟩
  · intro p h0 hp hd
    have h1 : p ∣ [(2 : ℤ), 3, 5].prod := by
      have : [(2 : ℤ), 3, 5].prod = -(2 * 3 * (-5)) := by norm_num
      rw [this]; exact (dvd_neg).mpr hd
    refine (mem_of_dvd_prod ?_ h0 hp).mp h1
    intro q hq
    simp only [List.mem_cons, List.not_mem_nil, or_false] at hq
    rcases hq with rfl | rfl | rfl <;> exact ⟨by norm_num, by rw [Int.prime_iff_natAbs_prime]; norm_num⟩

example : legendreSolve xgcd0 sqr0 2 3 (-5) [2, 3, 5] = .sol 1 1 1 := by decide +kernel
example : legendreSolve xgcd0 sqr0 39 34 (-31) [2, 3, 13, 17, 31] = .sol 5 4 7 := by decide +kernel
example : legendreSolve xgcd0 sqr0 1 1 (-3) [3] = .insol := by decide +kernel

/-! ## C93 -/

/-- `testlocsol(a,alist,b,blist,c,clist)` decides the solubility of `ax²+by²+cz²=0` for square-free pairwise coprime
coefficients. -/
theorem C93_testlocsol3 (a b c : ℤ) (la lb lc : List ℤ) (hC : Coef a b c) (sa : Squarefree a) (sb : Squarefree b)
    (sc : Squarefree c) (ha : IsPrimeDivisorList a la) (hb : IsPrimeDivisorList b lb) (hc : IsPrimeDivisorList c lc) :
    testlocsol3 a la b lb c lc = true ↔ ∃ x y z, Sol a b c x y z :=
  testlocsol3_spec hC sa sb sc ha hb hc

/-- `testlocsol(a,alist,b,blist)` decides the solubility of `ax²+by²=z²` for square-free coefficients. -/
theorem C93_testlocsol2 (a b : ℤ) (la lb : List ℤ) (sa : Squarefree a) (sb : Squarefree b)
    (ha : IsPrimeDivisorList a la) (hb : IsPrimeDivisorList b lb) :
    testlocsol2 a la b lb = true ↔ ∃ x y z : ℤ, a * x ^ 2 + b * y ^ 2 = z ^ 2 ∧ ¬ (x = 0 ∧ y = 0 ∧ z = 0) :=
  testlocsol2_spec sa sb ha hb

example : testlocsol3 39 [3, 13] 34 [2, 17] (-31) [31] = true ∧ testlocsol3 1 [] 1 [] (-3) [3] = false ∧
    testlocsol2 (-6) [2, 3] 10 [2, 5] = true ∧ testlocsol2 3 [3] 6 [2, 3] = true ∧
    testlocsol2 3 [3] 3 [3] = false := by decide +kernel

example : (-6) * 1 ^ 2 + 10 * 1 ^ 2 = (2 : ℤ) ^ 2 ∧ 3 * 1 ^ 2 + 6 * 1 ^ 2 = (3 : ℤ) ^ 2 := by norm_num

/-- `solve_conic` with method 4 (the default): for `a`, `d`, `b²-4ac` not 0 and a factor base containing the primes
dividing them, the result is a primitive solution of `ax²+bxz+cz²=dy²`, or 0 and there is no solution. -/
theorem C93_solve_conic (X : XGcd) (S : SqrRootMod) (a b c d : ℤ) (fb : List ℤ) (ha : a ≠ 0) (hd : d ≠ 0)
    (hD : b ^ 2 - 4 * a * c ≠ 0) (hpr : ∀ p ∈ fb, 0 < p ∧ Prime p) (hnd : fb.Nodup)
    (hall : ∀ p, 0 < p → Prime p → p ∣ (b ^ 2 - 4 * a * c) * a * d → p ∈ fb) :
    (∃ x y z, solveConic X S a b c d fb = .sol x y z ∧ CSol a b c d x y z ∧ Prim x y z) ∨
    (solveConic X S a b c d fb = .insol ∧ ¬ ∃ x y z, CSol a b c d x y z) :=
  solveConic_spec X S ha hd hD hpr hnd hall

example : solveConic xgcd0 sqr0 1 1 (-1) 11 [2, 11, 5] = .sol 3 1 2 ∧ (1 : ℤ) * 3 ^ 2 + 1 * 3 * 2 + (-1) * 2 ^ 2 = 11 * 1 ^ 2 := by
  decide +kernel

/-- `solve_conic` with the methods 0 to 3, `b = 0`: correct if `solve_conic_diag` is (it is not modelled). -/
theorem C93_solve_conic_old_partial (diag : ℤ → List ℤ → ℤ → List ℤ → Option (ℤ × ℤ × ℤ)) (a c d : ℤ) (fb : List ℤ)
    (ha : a ≠ 0) (hc : c ≠ 0) (hd : d ≠ 0) (hpr : ∀ p ∈ fb, 0 < p ∧ Prime p) (hnd : fb.Nodup)
    (hall : ∀ p, 0 < p → Prime p → p ∣ a * c * d → p ∈ fb)
    (hdiag : ∀ u lu v lv, Squarefree u → Squarefree v → IsPrimeDivisorList u lu → IsPrimeDivisorList v lv →
      (∃ x y z : ℤ, u * x ^ 2 + v * y ^ 2 = z ^ 2 ∧ ¬ (x = 0 ∧ y = 0 ∧ z = 0)) →
      ∃ s, diag u lu v lv = some s ∧ s.1 ^ 2 - u * s.2.2 ^ 2 = v * s.2.1 ^ 2 ∧ ¬ (s.1 = 0 ∧ s.2.1 = 0 ∧ s.2.2 = 0)) :
    (∃ x y z, solveConicOld diag a 0 c d fb = .sol x y z ∧ CSol a 0 c d x y z ∧ Prim x y z) ∨
    (solveConicOld diag a 0 c d fb = .insol ∧ ¬ ∃ x y z, CSol a 0 c d x y z) :=
  solveConicOld_diag ha hc hd hpr hnd hall hdiag

/-- With the methods 0 to 3 and `b ≠ 0` soluble conics are declared insoluble: `x²+xz-z²=11y²` has the solution
`(3,1,1)` (and 2, 5, 11 are the primes dividing `2·a·d·(b²-4ac)`), but the result is 0, whatever `solve_conic_diag`
does: the discriminant is computed as `b²+4ac`. -/
theorem C93_solve_conic_old_wrong (diag : ℤ → List ℤ → ℤ → List ℤ → Option (ℤ × ℤ × ℤ)) :
    solveConicOld diag 1 1 (-1) 11 [2, 11, 5] = .insol ∧ CSol 1 1 (-1) 11 3 1 1 := by
  refine ⟨?_, by norm_num, by norm_num⟩
  have h : testlocsol2 (Marith.sqfdecomp (-3) [2, 11, 5]).1 (Marith.sqfdecomp (-3) [2, 11, 5]).2.2
      (Marith.sqfdecomp 11 [2, 11, 5]).1 (Marith.sqfdecomp 11 [2, 11, 5]).2.2 = false := by decide +kernel
  have e : solveConicOld diag 1 1 (-1) 11 [2, 11, 5] =
      if !testlocsol2 (Marith.sqfdecomp (-3) [2, 11, 5]).1 (Marith.sqfdecomp (-3) [2, 11, 5]).2.2
        (Marith.sqfdecomp 11 [2, 11, 5]).1 (Marith.sqfdecomp 11 [2, 11, 5]).2.2 then .insol
      else
        match diag (Marith.sqfdecomp (-3) [2, 11, 5]).1 (Marith.sqfdecomp (-3) [2, 11, 5]).2.2
            (Marith.sqfdecomp 11 [2, 11, 5]).1 (Marith.sqfdecomp 11 [2, 11, 5]).2.2 with
        | none => .problem
        | some s =>
          let x := s.1 * ((Marith.sqfdecomp (-3) [2, 11, 5]).2.1 * (Marith.sqfdecomp 11 [2, 11, 5]).2.1)
          let y := s.2.1 * (Marith.sqfdecomp (-3) [2, 11, 5]).2.1
          let z := s.2.2 * (Marith.sqfdecomp 11 [2, 11, 5]).2.1
          let r := cancel (x - 1 * z) (y * 1) (z * 1)
          .sol r.1 r.2.1 r.2.2 := rfl
  rw [e, h]
  rfl

/-! ## C94 -/

/-- `solve_conic_param` for square-free `d`: all divisions are exact; the result is a parametrization of the solutions
of `ax²+bxz+cz²=dy²` by quadratics of discriminants `4cd`, `b²-4ac`, `4ad` whose leading coefficients are a solution, or
0 and there is no solution. -/
theorem C94_solve_conic_param_partial (X : XGcd) (S : SqrRootMod) (a b c d : ℤ) (fb : List ℤ) (ha : a ≠ 0)
    (hd : Squarefree d) (hD : b ^ 2 - 4 * a * c ≠ 0) (hpr : ∀ p ∈ fb, 0 < p ∧ Prime p) (hnd : fb.Nodup)
    (hall : ∀ p, 0 < p → Prime p → p ∣ (b ^ 2 - 4 * a * c) * a * d → p ∈ fb) :
    (∃ qx qy qz, solveConicParam X S a b c d fb = .sol qx qy qz ∧ CParam a b c d qx qy qz) ∨
    (solveConicParam X S a b c d fb = .insol ∧ ¬ ∃ x y z, CSol a b c d x y z) :=
  solveConicParam_spec X S ha hd hD hpr hnd hall

/-- If `b²-4ac` is a square no condition on `d` is needed. -/
theorem C94_square (X : XGcd) (S : SqrRootMod) (a b c d r : ℤ) (fb : List ℤ) (ha : a ≠ 0) (hd : d ≠ 0)
    (h : b ^ 2 - 4 * a * c = r ^ 2) :
    ∃ qx qy qz, solveConicParam X S a b c d fb = .sol qx qy qz ∧ CParam a b c d qx qy qz := by
  have hs : (Marith.isqrt (b * b - 4 * a * c)).1 = true := (Marith.Props.C12_isqrt _).mpr ⟨r, by rw [← h]; ring⟩
  unfold solveConicParam
  simp only
  rw [if_pos hs]
  exact paramSquare_spec ha hd (Marith.isqrt_sound _ hs)

example : solveConicParam xgcd0 sqr0 1 1 (-1) 11 [2, 11, 5] = .sol ⟨3, 2, 4⟩ ⟨1, 1, -1⟩ ⟨2, -6, -1⟩ ∧
    solveConicParam xgcd0 sqr0 2 3 (-5) 11 [2, 11, 5, 7] = .sol ⟨11, 0, 5⟩ ⟨0, 7, 0⟩ ⟨11, 0, -2⟩ := by decide +kernel

/-- For other `d` the divisions can fail ("Problem: factor ndiv …"), and the quadratics are left half-adjusted:
`2x²+7z²=4y²`. -/
theorem C94_not_squarefree :
    solveConic xgcd0 sqr0 2 0 7 4 [2, 7] = .sol 2 3 2 ∧ CSol 2 0 7 4 2 3 2 ∧ Prim 2 3 2 ∧
      solveConicParam xgcd0 sqr0 2 0 7 4 [2, 7] = .problem := by
  refine ⟨by decide +kernel, ⟨by norm_num, by norm_num⟩, fun d h1 h2 _ => ?_, by decide +kernel⟩
  have h : IsCoprime (2 : ℤ) 3 := ⟨-1, 1, by norm_num⟩
  exact h.isUnit_of_dvd' h1 h2

end Eclib.Legendre
