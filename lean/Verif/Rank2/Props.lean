import Verif.Rank2.Mordell

/-!
# C115: the first descent via 2-isogeny computes the Selmer groups and bounds the rank
-/

namespace Eclib.Rank2

set_option linter.unusedSectionVars false

open WeierstrassCurve
open Eclib.Sift (dl dl_add dl_ne dl_neg)
open Eclib.LocSol (HasPoint PointAt HasRealPoint)
open Eclib.Sqf (makenum makeindex decP Base suppOf makenum_eq Sq)
open Eclib.Bits

namespace Props

/-- **C115** (up to 29 primes). For a curve `y² = x(x² + cx + d)` the two runs of `find_elsgens` leave bases of
the two Selmer groups, the generators recorded as torsion are classes of points of finite order, and
`rank_bound = els0 + els1 - 2` is an upper bound for the rank. -/
theorem C115_descent_partial (V : Env) (ok : V.Ok) (s2 s4 x0 c d : ℤ) (hcd : c = 3 * x0 + s2) (hdd : d = x0 * (c + s2) + s4)
    (hc : d ≠ 0 ∧ c ^ 2 - 4 * d ≠ 0) (hl0 : (V.pdivs d).length ≤ 29) (hl1 : (V.pdivs (c * c - 4 * d)).length ≤ 29) :
    ∃ N, ∀ f ≥ N, ∃ R, localDescent (V.withFuel f) s2 s4 x0 = some (some R) ∧
      IsBasis (Sel c d) R.e0.gens ∧ IsBasis (Sel (-2 * c) (c * c - 4 * d)) R.e1.gens ∧
      (R.e0.nt2 ≤ R.e0.gens.length ∧ ∀ D ∈ R.e0.gens.take R.e0.nt2, GlobT c d D) ∧
      (R.e1.nt2 ≤ R.e1.gens.length ∧ ∀ D ∈ R.e1.gens.take R.e1.nt2, GlobT (-2 * c) (c * c - 4 * d) D) ∧
      R.bound = R.e0.gens.length + R.e1.gens.length - 2 ∧
      (Module.finrank ℤ (Cu (c : ℚ) (d : ℚ)).toAffine.Point : ℤ) ≤ R.bound ∧
      Desc2.Covered (-1 :: V.pdivs d) R.e0.gens R.e0.mask ∧
      Desc2.Covered (-1 :: V.pdivs (c * c - 4 * d)) R.e1.gens R.e1.mask := by
  have hc : Curve c d := hc
  have hd' : c * c - 4 * d = c ^ 2 - 4 * d := by ring
  have p0 : PdivsOf d (V.pdivs d) := ok.pdivs d hc.1
  have p1 : PdivsOf (c * c - 4 * d) (V.pdivs (c * c - 4 * d)) := ok.pdivs _ hc.dual.1
  have hbp : ∀ p ∈ badPrimes (V.pdivs d) (V.pdivs (c * c - 4 * d)), 0 ≤ p ∧ Prime p := by
    intro p hp
    rw [mem_badPrimes, p0.2, p1.2] at hp
    rcases hp with rfl | h | h
    · exact ⟨by norm_num, Int.prime_two⟩
    · exact ⟨h.1.le, h.2.1⟩
    · exact ⟨h.1.le, h.2.1⟩
  have hall : ∀ p : ℤ, 0 < p → Prime p → (p ∣ 2 ∨ p ∣ d ∨ p ∣ c * c - 4 * d) →
      p ∈ badPrimes (V.pdivs d) (V.pdivs (c * c - 4 * d)) := by
    intro p h1 h2 h3
    rw [mem_badPrimes, p0.2, p1.2]
    rcases h3 with h | h | h
    · exact Or.inl (Curve.prime_two_dvd h1 h2 h)
    · exact Or.inr (Or.inl ⟨h1, h2, h⟩)
    · exact Or.inr (Or.inr ⟨h1, h2, h⟩)
  obtain ⟨F0, h0⟩ := findEls_ok ok hc p0 (by omega) hbp (fun p h1 h2 h3 => hall p h1 h2 (by
      rcases h2.dvd_or_dvd h3 with h | h
      · rcases h2.dvd_or_dvd h with h | h
        · exact Or.inl h
        · exact Or.inr (Or.inl h)
      · exact Or.inr (Or.inr (by rw [hd']; exact h))))
    (ee2 := (isqrt (c * c - 4 * d)).map fun (r : ℤ) => (-c - r).fdiv 2) (by
      intro e he
      obtain ⟨r, h1, rfl⟩ := Option.map_eq_some_iff.1 he
      have h2 := isqrt_some h1
      obtain ⟨k, hk⟩ : (2 : ℤ) ∣ -c - r := by
        have h3 : (2 : ℤ) ∣ (-c - r) * (-c + r) := ⟨2 * d, by linear_combination -h2⟩
        rcases Int.prime_two.dvd_or_dvd h3 with h | h
        · exact h
        · have := dvd_sub h ⟨r, rfl⟩
          rwa [show -c + r - 2 * r = -c - r by ring] at this
      simp only [hk]
      rw [Int.mul_fdiv_cancel_left _ (by norm_num)]
      have : 4 * (k ^ 2 + c * k + d) = 0 := by
        have hr : r = -c - 2 * k := by linear_combination -hk
        rw [hr] at h2
        linear_combination h2
      omega)
  obtain ⟨F1, h1⟩ := findEls_ok ok hc.dual p1 (by omega) hbp (fun p h1 h2 h3 => hall p h1 h2 (by
      rw [show 2 * (c * c - 4 * d) * ((-2 * c) ^ 2 - 4 * (c * c - 4 * d)) = 2 * (c * c - 4 * d) * (2 * (2 * (2 * (2 * d)))) by ring] at h3
      rcases h2.dvd_or_dvd h3 with h | h
      · rcases h2.dvd_or_dvd h with h | h
        · exact Or.inl h
        · exact Or.inr (Or.inr h)
      · rcases h2.dvd_or_dvd h with h | h
        · exact Or.inl h
        rcases h2.dvd_or_dvd h with h | h
        · exact Or.inl h
        rcases h2.dvd_or_dvd h with h | h
        · exact Or.inl h
        rcases h2.dvd_or_dvd h with h | h
        · exact Or.inl h
        exact Or.inr (Or.inl h)))
    (ee2 := (isqrt d).map fun (r : ℤ) => c - 2 * r) (by
      intro e he
      obtain ⟨r, h1, rfl⟩ := Option.map_eq_some_iff.1 he
      have h2 := isqrt_some h1
      linear_combination 4 * h2)
  refine ⟨max F0 F1, fun f hf => ?_⟩
  obtain ⟨E0, a1, a2, a3, a4⟩ := h0 f (by omega)
  obtain ⟨E1, b1, b2, b3, b4⟩ := h1 f (by omega)
  refine ⟨⟨E0, E1, E0.gens.length + E1.gens.length - 2⟩, ?_, a2, b2, a3, b3, rfl, ?_, a4, b4⟩
  · unfold localDescent
    simp only [← hcd, ← hdd]
    have hns : ¬ 2 * d * (c * c - 4 * d) = 0 := mul_ne_zero (mul_ne_zero (by norm_num) hc.1) hc.dual.1
    rw [if_neg hns]
    have e : (V.withFuel f).pdivs = V.pdivs := rfl
    simp only [e, a1, b1]
  · obtain ⟨F, _, _, ⟨e⟩⟩ := mordell_structure hc
    have k1 := rank_glob hc e
    have k2 := glob_le hc a2
    have k3 := glob_le hc.dual b2
    have k4 : 2 ^ (Module.finrank ℤ (Cu (c : ℚ) (d : ℚ)).toAffine.Point + 2) ≤ 2 ^ (E0.gens.length + E1.gens.length) := by
      rw [k1, pow_add]
      exact Nat.mul_le_mul k2 k3
    have k5 := (Nat.pow_le_pow_iff_right (by norm_num : 1 < 2)).1 k4
    simp only
    omega

/-- Mordell's theorem: the group of rational points of these curves is finitely generated, so its rank is that of a
module over the integers -/
theorem C115_mordell (c d : ℤ) (hc : d ≠ 0 ∧ c ^ 2 - 4 * d ≠ 0) : Module.Finite ℤ (Cu (c : ℚ) (d : ℚ)).toAffine.Point :=
  Module.Finite.iff_addGroup_fg.2 (mordell hc)

/-- a singular curve is reported -/
theorem C115_singular (V : Env) (s2 s4 x0 c d : ℤ) (hcd : c = 3 * x0 + s2) (hdd : d = x0 * (c + s2) + s4)
    (h : d = 0 ∨ c ^ 2 - 4 * d = 0) : localDescent V s2 s4 x0 = some none := by
  unfold localDescent
  simp only [← hcd, ← hdd]
  rw [if_pos]
  rcases h with h | h
  · rw [h]; ring
  · have : c * c - 4 * d = 0 := by rw [← h]; ring
    rw [this]; ring

/-- the change of coordinate: if `x0` is a root of `x³ + s2x² + s4x + s6`, then `(x,y) ↦ (x - x0, y)` maps the
curve `y² = x³ + s2x² + s4x + s6` to the curve with the coefficients `c`, `d` of the code -/
theorem C115_shift (s2 s4 s6 x0 c d : ℤ) (hcd : c = 3 * x0 + s2) (hdd : d = x0 * (c + s2) + s4)
    (h : x0 ^ 3 + s2 * x0 ^ 2 + s4 * x0 + s6 = 0) (x y : ℚ) :
    y ^ 2 = x ^ 3 + s2 * x ^ 2 + s4 * x + s6 ↔ y ^ 2 = (x - x0) ^ 3 + c * (x - x0) ^ 2 + d * (x - x0) := by
  have h' : (x0 : ℚ) ^ 3 + s2 * x0 ^ 2 + s4 * x0 + s6 = 0 := by exact_mod_cast h
  have : (x - x0) ^ 3 + c * (x - x0) ^ 2 + d * (x - x0) = x ^ 3 + s2 * x ^ 2 + s4 * x + (s6 : ℚ) := by
    rw [hdd, hcd]
    push_cast
    linear_combination -h'
  rw [this]

/-- 64 entries in the support (`-1` and 63 primes) or more are refused … -/
theorem C115_too_many (V : Env) (bp supp : List ℤ) (c d : ℤ) (ee2 : Option ℤ) (h : 64 ≤ supp.length) :
    findEls V bp supp c d ee2 = some none := by
  unfold findEls
  rw [if_pos h]

/-- … but from 31 to 63 entries the shift `1<<ns` of an `int` is undefined -/
theorem C115_wide (V : Env) (bp supp : List ℤ) (c d : ℤ) (ee2 : Option ℤ) (h : 31 ≤ supp.length) (h' : supp.length < 64) :
    findEls V bp supp c d ee2 = none := by
  unfold findEls
  rw [if_neg (by omega), if_pos h]

end Props

/-! ## the hypotheses are met -/

/-- an environment that meets the contracts -/
noncomputable def exEnv : Env where
  ss a b c d e p := by
    classical exact some (decide (PointAt ⟨a, b, c, d, e⟩ p))
  fuel := 0
  pdivs n := ((List.range (n.natAbs + 1)).filter fun (p : ℕ) => decide (p.Prime ∧ p ∣ n.natAbs)).map fun (p : ℕ) => (p : ℤ)
  tors _ _ := [none, some (0, 0)]
  ord _ _ _ := 2
  mulX _ _ _ _ := 0

theorem exEnv_ok : exEnv.Ok := by
  refine ⟨?_, ?_, ?_⟩
  · intro a c e p _ _ _
    classical
    exact ⟨decide (PointAt ⟨a, 0, c, 0, e⟩ p), rfl, by simp⟩
  · intro n hn
    refine ⟨((List.nodup_range).filter _).map Nat.cast_injective, fun p => ?_⟩
    show p ∈ ((List.range (n.natAbs + 1)).filter fun (p : ℕ) => decide (p.Prime ∧ p ∣ n.natAbs)).map (fun (p : ℕ) => (p : ℤ)) ↔ _
    rw [List.mem_map]
    constructor
    · rintro ⟨q, hq, rfl⟩
      rw [List.mem_filter, decide_eq_true_eq] at hq
      exact ⟨by exact_mod_cast hq.2.1.pos, Nat.prime_iff_prime_int.1 hq.2.1, Int.natCast_dvd.2 hq.2.2⟩
    · rintro ⟨h1, h2, h3⟩
      obtain ⟨q, rfl⟩ := Int.eq_ofNat_of_zero_le h1.le
      refine ⟨q, ?_, rfl⟩
      rw [List.mem_filter, decide_eq_true_eq, List.mem_range]
      have h4 := Int.natCast_dvd.1 h3
      have := Nat.le_of_dvd (by omega) h4
      exact ⟨by omega, Nat.prime_iff_prime_int.2 h2, h4⟩
  · intro c d hc
    refine ⟨by simp [exEnv], by simp [exEnv], fun x y h => ?_⟩
    have : x = 0 ∧ y = 0 := by simpa [exEnv] using h
    rw [this.1, this.2]
    exact tpt_two hc (by ring)

/-- the curve `y² = x³ + 3x` -/
example : ∃ N, ∀ f ≥ N, ∃ R, localDescent (exEnv.withFuel f) 0 3 0 = some (some R) ∧ IsBasis (Sel 0 3) R.e0.gens ∧
    IsBasis (Sel 0 (-12)) R.e1.gens ∧ (Module.finrank ℤ (Cu ((0 : ℤ) : ℚ) ((3 : ℤ) : ℚ)).toAffine.Point : ℤ) ≤ R.bound := by
  obtain ⟨N, h⟩ := Props.C115_descent_partial exEnv exEnv_ok 0 3 0 0 3 rfl rfl (by norm_num)
    (by
      show (List.map _ (List.filter _ (List.range 4))).length ≤ 29
      rw [List.length_map]
      exact (List.length_filter_le _ _).trans (by simp))
    (by
      show (List.map _ (List.filter _ (List.range 13))).length ≤ 29
      rw [List.length_map]
      exact (List.length_filter_le _ _).trans (by simp))
  refine ⟨N, fun f hf => ?_⟩
  obtain ⟨R, h1, h2, h3, -, -, -, h7, -⟩ := h f hf
  exact ⟨R, h1, h2, h3, h7⟩

end Eclib.Rank2
