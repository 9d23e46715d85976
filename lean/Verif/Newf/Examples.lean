import Verif.Newf.SymProps

/-!
# C106, C107: witnesses and examples at level 11
-/

namespace Eclib.Newf

open Symb (Symbdata)
open Hom Hom.ManinSpec NewfSpec

/-- the space of level 11 without sign modulo 1009 -/
def ex11q : Option Space := ((Symbdata.make 11 [11]).bind fun S =>
  make Marith.Props.xgcd0 .int 1009 (fun _ => true) (Mat.echmodp Marith.Props.xgcd0 .int 1009) 805 S 0).map (·.1)

/-- the columns of the entries of a matrix of size 3 -/
def entries3 (M : OpMat) : List (List (Option ℤ)) := (List.range 3).map fun i => (List.range 3).map fun j => M.entry (i + 1) (j + 1)

/-- **C106, the full statement is false for `p = 2`.**  At level 11 the vector `(0,1,1)` is an eigenvector of `T_2` with eigenvalue -2, but
`apvec(2)` returns -1: of the four Heilbronn matrices of determinant 2 only two are used, the loop over `(p-1)>>1` being empty. -/
theorem C106_apvec_two : ∃ H M coords, ex11q = some H ∧ H.rk = 3 ∧ H.newheckeop 2 true false = some M ∧
    entries3 M = [[some 3, some (-1), some 1], [some 0, some (-2), some 0], [some 0, some 0, some (-2)]] ∧
    findCoords .int 1009 H [0, 1, 1] = some (coords, 1) ∧ apvec H 1 [11] 2 [⟨coords, 1, 2, 1, [-1]⟩] = some [-1] := by
  have h : (ex11q.bind fun H => (H.newheckeop 2 true false).bind fun M => (findCoords .int 1009 H [0, 1, 1]).map fun c =>
      (H.rk, entries3 M, c.2, apvec H 1 [11] 2 [⟨c.1, 1, 2, 1, [-1]⟩])) =
      some (3, [[some 3, some (-1), some 1], [some 0, some (-2), some 0], [some 0, some 0, some (-2)]], 1, some [-1]) := by decide +kernel
  obtain ⟨H, h1, h⟩ := Option.bind_eq_some_iff.1 h
  obtain ⟨M, h2, h⟩ := Option.bind_eq_some_iff.1 h
  obtain ⟨c, h3, h⟩ := Option.map_eq_some_iff.1 h
  obtain ⟨e1, h⟩ := Prod.mk.inj h
  obtain ⟨e2, h⟩ := Prod.mk.inj h
  obtain ⟨e3, e4⟩ := Prod.mk.inj h
  exact ⟨H, M, c.1, h1, e1, h2, e2, by rw [h3, ← e3], e4⟩

/-- **C106, the full statement is false for `sign = -1`.**  When no component is non-zero for all forms, `find_jlist` uses the vectors `bplus`,
which are empty for the sign -1: an access outside the vector. -/
theorem C106_jlist_minus : ∃ fs : List (List ℤ × List ℤ), (∀ f ∈ fs, f.2.length = 2 ∧ ∃ x ∈ f.2, x ≠ 0) ∧ findJlist (-1) 2 fs = none :=
  ⟨[([], [1, 0]), ([], [0, 1])], by decide, by decide⟩

/-! ### examples -/

/-- the eigenvalues -1, 1, -2, 4, 7 for the primes 3, 5, 7, 13, 31 at level 11 -/
example : (ex11q.bind fun H => (findCoords .int 1009 H [0, 1, 1]).bind fun c =>
    [3, 5, 7, 13, 31].mapM fun p => apvec H 1 [11] p [⟨c.1, c.2, 2, 1, [-1]⟩]) = some [[-1], [1], [-2], [4], [7]] := by decide +kernel

/-- at the prime 11 -/
example : (ex11q.bind fun H => apvec H 1 [11] 11 [⟨[], 1, 2, 1, [-1]⟩]) = some [1] := by decide +kernel

theorem prime1009 : Nat.Prime 1009 := by norm_num

/-- the hypotheses of `C106_eigen_partial` are met at level 11 for `p = 3`, `a = -1` -/
example : ∃ H coords, ex11q = some H ∧ findCoords .int 1009 H [0, 1, 1] = some (coords, 1) ∧
    apvec H 1 [11] (3 : ℕ) [⟨coords, 1, 2, 1, [-1]⟩] = some [-1] := by
  have : Fact (Nat.Prime 1009) := ⟨prime1009⟩
  obtain ⟨S, hS, _⟩ := Symb.specials_spec (by norm_num) ps11
  have hfuel : (S.nsymb.toNat + 11) * (2 * S.nsymb.toNat + 11) ≤ 805 := by
    have h : (Symbdata.make 11 [11]).map (fun S => S.nsymb) = some 12 := by decide +kernel
    rw [hS] at h
    have h' : S.nsymb = 12 := Option.some.inj h
    rw [h']
    decide
  obtain ⟨H, th, h1, h2⟩ := C106_eigen_partial (q := 1009) (by norm_num) ps11 hS (pf := 0) (by norm_num) (by norm_num)
    Marith.Props.xgcd0 .int (sparse := fun _ => true) (fun _ _ => rfl) (Elim.rrefOk_echmodp Marith.Props.xgcd0 .int) hfuel
  have h1 : make Marith.Props.xgcd0 .int 1009 (fun _ => true) (Mat.echmodp Marith.Props.xgcd0 .int 1009) 805 S 0 = some (H, th) := h1
  have hH : ex11q = some H := by
    unfold ex11q
    rw [hS, Option.bind_some]
    rw [h1]
    rfl
  have hk : (ex11q.bind fun H => (H.newheckeop 3 true false).map fun M => (H.rk, entries3 M)) =
      some (3, [[some 4, some (-1), some 1], [some 0, some (-1), some 0], [some 0, some 0, some (-1)]]) := by decide +kernel
  have hc : (ex11q.bind fun H => (findCoords .int 1009 H [0, 1, 1])) = some ([0, 0, 0, 1, 1, 0], 1) := by decide +kernel
  rw [hH, Option.bind_some] at hk hc
  obtain ⟨M, k1, k2⟩ := Option.map_eq_some_iff.1 hk
  obtain ⟨k3, k4⟩ := Prod.mk.inj k2
  obtain ⟨coords, e1, e2⟩ := h2 [0, 1, 1] (by rw [k3]; rfl) (by decide) (by
    intro e he
    exact isUnit_of_dvd_one (he 1 (by simp))) 3 (by norm_num) (by norm_num) (by norm_num) (-1) (by norm_num) (by
      obtain ⟨S', pf', ci, vecs, rk, free⟩ := H
      simp only at k3
      subst k3
      refine ⟨M, ![![4, -1, 1], ![0, -1, 0], ![0, 0, -1]], k1, ?_, ?_⟩
      · unfold entries3 at k4
        intro i j
        have h5 : ∀ i j : ℕ, i < 3 → j < 3 → M.entry (i + 1) (j + 1) =
            (((((List.range 3).map fun i => (List.range 3).map fun j => M.entry (i + 1) (j + 1))[i]?).getD [])[j]?).getD none := by
          intro i j hi hj
          simp [hi, hj]
        rw [h5 i j i.2 j.2, k4]
        fin_cases i <;> fin_cases j <;> rfl
      · show ∀ j : Fin 3, ((1009 : ℕ) : ℤ) ∣ ∑ i : Fin 3, (![![4, -1, 1], ![0, -1, 0], ![0, 0, -1]] : Fin 3 → Fin 3 → ℤ) j i * [0, 1, 1].getD i 0 -
          -1 * [0, 1, 1].getD j 0
        decide)
  have hc' : findCoords .int ((1009 : ℕ) : ℤ) H [0, 1, 1] = some ([0, 0, 0, 1, 1, 0], 1) := hc
  rw [hc'] at e1
  obtain ⟨rfl, -⟩ := Prod.mk.inj (Option.some.inj e1)
  refine ⟨H, _, hH, hc, e2 1 (by decide) (by decide +kernel) 2 (by norm_num) (by rw [k3]; norm_num) (by decide) [-1]⟩

/-- the vector of Manin for the primes 2 and 3, `1 + p - a_p` being 5 for both -/
example : (ex11q.bind fun H => [2, 3].mapM fun p => maninvector H p) = some [⟨3, [(2, 1), (3, -1)]⟩, ⟨3, [(2, 1), (3, -1)]⟩] := by decide +kernel

/-- `find_jlist` for two forms with and without a common component -/
example : findJlist 1 3 [([0, 1, 2], []), ([1, 0, 3], [])] = some [(3, 2), (3, 3)] ∧
    findJlist 1 2 [([0, 1], []), ([1, 0], [])] = some [(2, 1), (1, 1)] := by decide

/-- `find_bsd_ratio`: a positive number `pdot` changes the sign of the coordinates -/
example : findBsd [1, -2] 10 5 2 (-2) = some ([-1, 2], 2 / 5) := by
  have h1 : Int.tmod 10 5 = 0 := by decide
  have h2 : Int.tdiv 10 5 = 2 := by decide
  norm_num [findBsd, h1, h2]

end Eclib.Newf
