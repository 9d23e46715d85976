import Verif.Rank2.GProps
import Verif.Legendre.Props3

/-!
# The calls of `desc2` in `rank2`

`second_descent` and `find_els2gens` (mrank2.cc:126-145, 458-462) give to `desc2` the primes `badprimes` and the support,
the generators `elsgens` and the mask of the other curve.  Here the hypotheses of C95 on these arguments are shown to hold
after `find_elsgens`.
-/

namespace Eclib.Rank2

open Eclib.Desc2 (desc2 DLib Covered KHom Ev DHyp lib0 lib0_ok pdivs1 pdivs1_ok)
open Marith (XGcd SqrRootMod)

theorem badPrimes_sorted {a b : List ℤ} (ha : a.Pairwise (· < ·)) (hb : b.Pairwise (· < ·)) (pa : ∀ p ∈ a, 0 < p ∧ Prime p)
    (pb : ∀ p ∈ b, 0 < p ∧ Prime p) : (badPrimes a b).Pairwise (· < ·) := by
  have h := Desc2.sorted_setUnion a b ha hb
  unfold badPrimes
  simp only
  split_ifs with h2
  · exact h
  · rw [List.pairwise_cons]
    refine ⟨fun p hp => ?_, h⟩
    have hpr : 0 < p ∧ Prime p := by
      rcases (Desc2.mem_setUnion a b p).1 hp with h | h
      · exact pa p h
      · exact pb p h
    have h1 : p ≠ 1 := fun h => hpr.2.not_isUnit (h ▸ isUnit_one)
    have h3 : p ≠ 2 := fun h => h2 (h ▸ hp)
    omega

/-- the classes of the other curve -/
theorem Sel.hom {c d g : ℤ} (h : Sel (-2 * c) d g) : g * (d / g) = d ∧ Ev (KHom c g (d / g)) := by
  refine ⟨Int.mul_ediv_cancel' h.dvd, ?_, fun p hp => ?_⟩
  · obtain ⟨x, y, z, h0, he⟩ := real_iff.1 h.real
    refine ⟨x, y, z, h0, ?_⟩
    rw [he]
    push_cast
    ring
  · have : Fact p.Prime := ⟨hp⟩
    obtain ⟨x, y, z, h0, he⟩ := loc_iff.1 (h.loc p hp)
    refine ⟨x, y, z, h0, ?_⟩
    rw [he]
    push_cast
    ring

theorem Sel.hom' {c d g : ℤ} (h : Sel c d g) : g * (16 * (d / g)) = 16 * d ∧ Ev (KHom (-2 * c) g (16 * (d / g))) := by
  have key : ∀ (K : Type) [Field K] [CharZero K], QP (c : K) (g : K) ((d / g : ℤ) : K) → KHom (-2 * c) g (16 * (d / g)) K := by
    rintro K _ _ ⟨x, y, z, h0, he⟩
    refine ⟨x, y, z / 2, fun h => h0 ⟨h.1, ?_⟩, ?_⟩
    · simpa using h.2
    · rw [he]
      push_cast
      ring
  refine ⟨?_, key ℝ (real_iff.1 h.real), fun p hp => ?_⟩
  · have := Int.mul_ediv_cancel' h.dvd
    linear_combination 16 * this
  · have : Fact p.Prime := ⟨hp⟩
    exact key ℚ_[p] (loc_iff.1 (h.loc p hp))

theorem dvd_two_cases {p n : ℤ} (h0 : 0 < p) (hp : Prime p) (h : p ∣ 16 * n) : p = 2 ∨ p ∣ n := by
  rw [show (16 : ℤ) = 2 ^ 4 by norm_num] at h
  rcases hp.dvd_or_dvd h with h | h
  · exact Or.inl (Curve.prime_two_dvd h0 hp (hp.dvd_of_dvd_pow h))
  · exact Or.inr h

namespace Props

/-- The second descent after the first: `desc2`, called as in `second_descent` and `find_els2gens` with the primes, the
support, the generators and the mask that `find_elsgens` has computed for the other curve, returns -1 only if the
homogeneous space has no rational point, for all factorisations `d = d1 d2` without squares and also for the 2-isogenous
curve. -/
theorem C95_in_rank2 (V : Env) (ok : V.Ok) (hs : ∀ n, n ≠ 0 → (V.pdivs n).Pairwise (· < ·)) (s2 s4 x0 c d : ℤ)
    (hcd : c = 3 * x0 + s2) (hdd : d = x0 * (c + s2) + s4) (hc : d ≠ 0 ∧ c ^ 2 - 4 * d ≠ 0)
    (hl0 : (V.pdivs d).length ≤ 29) (hl1 : (V.pdivs (c * c - 4 * d)).length ≤ 29)
    (X : XGcd) (S : SqrRootMod) (L : DLib) (hL : L.Ok) (so ad : Bool) :
    ∃ N, ∀ f ≥ N, ∃ R, localDescent (V.withFuel f) s2 s4 x0 = some (some R) ∧
      (∀ d1 d2 : ℤ, d1 * d2 = d → ¬ IsSquare d1 → ¬ IsSquare d2 →
        desc2 X S L c d1 d2 (badPrimes (V.pdivs d) (V.pdivs (c * c - 4 * d))) (-1 :: V.pdivs (c * c - 4 * d)) R.e1.gens
          R.e1.mask so ad = .noPoints →
        ¬ ∃ x y z : ℤ, y ^ 2 = d1 * x ^ 4 + c * x ^ 2 * z ^ 2 + d2 * z ^ 4 ∧ ¬ (x = 0 ∧ z = 0)) ∧
      (∀ d1 d2 : ℤ, d1 * d2 = c * c - 4 * d → ¬ IsSquare d1 → ¬ IsSquare d2 →
        desc2 X S L (-2 * c) d1 d2 (badPrimes (V.pdivs d) (V.pdivs (c * c - 4 * d))) (-1 :: V.pdivs d) R.e0.gens
          R.e0.mask so ad = .noPoints →
        ¬ ∃ x y z : ℤ, y ^ 2 = d1 * x ^ 4 + (-2 * c) * x ^ 2 * z ^ 2 + d2 * z ^ 4 ∧ ¬ (x = 0 ∧ z = 0)) := by
  obtain ⟨N, hN⟩ := C115_descent_partial V ok s2 s4 x0 c d hcd hdd hc hl0 hl1
  have hc : Curve c d := hc
  have p0 : PdivsOf d (V.pdivs d) := ok.pdivs d hc.1
  have p1 : PdivsOf (c * c - 4 * d) (V.pdivs (c * c - 4 * d)) := ok.pdivs _ hc.dual.1
  have q0 : ∀ p ∈ V.pdivs d, 0 < p ∧ Prime p := fun p hp => ⟨((p0.2 p).1 hp).1, ((p0.2 p).1 hp).2.1⟩
  have q1 : ∀ p ∈ V.pdivs (c * c - 4 * d), 0 < p ∧ Prime p := fun p hp => ⟨((p1.2 p).1 hp).1, ((p1.2 p).1 hp).2.1⟩
  have hbp : ∀ p ∈ badPrimes (V.pdivs d) (V.pdivs (c * c - 4 * d)), 0 < p ∧ Prime p := by
    intro p hp
    rw [mem_badPrimes] at hp
    rcases hp with rfl | h | h
    · exact ⟨by norm_num, Int.prime_two⟩
    · exact q0 p h
    · exact q1 p h
  have hso := badPrimes_sorted (hs d hc.1) (hs _ hc.dual.1) q0 q1
  have hall : ∀ p : ℤ, 0 < p → Prime p → (p = 2 ∨ p ∣ d ∨ p ∣ c * c - 4 * d) →
      p ∈ badPrimes (V.pdivs d) (V.pdivs (c * c - 4 * d)) := by
    intro p h1 h2 h3
    rw [mem_badPrimes, p0.2, p1.2]
    rcases h3 with h | h | h
    · exact Or.inl h
    · exact Or.inr (Or.inl ⟨h1, h2, h⟩)
    · exact Or.inr (Or.inr ⟨h1, h2, h⟩)
  refine ⟨N, fun f hf => ?_⟩
  obtain ⟨R, r1, r2, r3, -, -, -, -, r4, r5⟩ := hN f hf
  have n0 := sel_gn p0 hl0 r2
  have n1 := sel_gn p1 hl1 r3
  refine ⟨R, r1, fun d1 d2 hd h1 h2 hr => ?_, fun d1 d2 hd h1 h2 hr => ?_⟩
  · have e : c ^ 2 - 4 * d1 * d2 = c * c - 4 * d := by rw [← hd]; ring
    refine Desc2.C95_no_points X S L hL c d1 d2 _ (V.pdivs (c * c - 4 * d)) R.e1.gens R.e1.mask so ad
      ⟨h1, h2, by rw [e]; exact hc.dual.1, hbp, hso, ?_, ?_, ?_, ?_, n1.len⟩ p1.base ?_ ?_ r5 hr
    · intro p h0 hp hd'
      rw [e, show 2 * d1 * d2 * (c * c - 4 * d) = 2 * (d * (c * c - 4 * d)) by rw [← hd]; ring] at hd'
      rcases hp.dvd_or_dvd hd' with h | h
      · exact hall p h0 hp (Or.inl (Curve.prime_two_dvd h0 hp h))
      · exact hall p h0 hp (Or.inr (hp.dvd_or_dvd h))
    · intro x hx
      rcases List.mem_cons.1 hx with h | h
      · exact Or.inl h
      · exact Or.inr (mem_badPrimes.2 (Or.inr (Or.inr h)))
    · show (-1 :: V.pdivs (c * c - 4 * d)).length ≤ 30
      rw [List.length_cons]
      omega
    · intro g hg
      have := r3.mem g hg
      exact ⟨this.sqf, fun p h0 hp hd => hall p h0 hp (Or.inr (Or.inr (hd.trans this.dvd)))⟩
    · intro p h0 hp hd'
      rw [e] at hd'
      exact Or.inl ((p1.2 p).2 ⟨h0, hp, hd'⟩)
    · intro g hg
      rw [e]
      exact ⟨_, (r3.mem g hg).hom⟩
  · have e : (-2 * c) ^ 2 - 4 * d1 * d2 = 16 * d := by
      have : 4 * d1 * d2 = 4 * (d1 * d2) := by ring
      rw [this, hd]; ring
    refine Desc2.C95_no_points X S L hL (-2 * c) d1 d2 _ (V.pdivs d) R.e0.gens R.e0.mask so ad
      ⟨h1, h2, by rw [e]; exact mul_ne_zero (by norm_num) hc.1, hbp, hso, ?_, ?_, ?_, ?_, n0.len⟩ p0.base ?_ ?_ r4 hr
    · intro p h0 hp hd'
      rw [e, show 2 * d1 * d2 * (16 * d) = 16 * (2 * ((c * c - 4 * d) * d)) by rw [← hd]; ring] at hd'
      rcases dvd_two_cases h0 hp hd' with h | h
      · exact hall p h0 hp (Or.inl h)
      rcases hp.dvd_or_dvd h with h | h
      · exact hall p h0 hp (Or.inl (Curve.prime_two_dvd h0 hp h))
      · exact hall p h0 hp (Or.inr (hp.dvd_or_dvd h).symm)
    · intro x hx
      rcases List.mem_cons.1 hx with h | h
      · exact Or.inl h
      · exact Or.inr (mem_badPrimes.2 (Or.inr (Or.inl h)))
    · show (-1 :: V.pdivs d).length ≤ 30
      rw [List.length_cons]
      omega
    · intro g hg
      have := r2.mem g hg
      exact ⟨this.sqf, fun p h0 hp hd => hall p h0 hp (Or.inr (Or.inl (hd.trans this.dvd)))⟩
    · intro p h0 hp hd'
      rw [e] at hd' ⊢
      by_cases hpd : p ∣ d
      · exact Or.inl ((p0.2 p).2 ⟨h0, hp, hpd⟩)
      · have h2 := (dvd_two_cases h0 hp hd').resolve_right hpd
        refine Or.inr ⟨h2, ⟨d, rfl⟩, fun h => hpd ?_⟩
        rw [h2]
        obtain ⟨k, hk⟩ := h
        exact ⟨k, by omega⟩
    · intro g hg
      rw [e]
      exact ⟨_, (r2.mem g hg).hom'⟩

end Props

/-! ## the hypotheses are met -/

/-- a mask with one bit: the support `-1`, `2` and the generator `-1` -/
example : Covered [-1, 2] [-1] 1 :=
  covered_of (ps := [2]) ⟨by simpa using Int.prime_two, by simp, by simp⟩ (by simp) (pg := [(0, 1)])
    ⟨by simp, by simp⟩ (by simp) (mask := 1) (by intro j; cases j <;> simp [Nat.testBit_succ])

theorem exEnv_sorted (n : ℤ) : (exEnv.pdivs n).Pairwise (· < ·) := by
  show (List.map _ (List.filter _ (List.range (n.natAbs + 1)))).Pairwise (· < ·)
  rw [List.pairwise_map]
  exact (List.pairwise_lt_range.filter _).imp fun h => by exact_mod_cast h

/-- the curve `y² = x³ + 3x` -/
example : ∃ N, ∀ f ≥ N, ∃ R, localDescent (exEnv.withFuel f) 0 3 0 = some (some R) ∧
    ∀ d1 d2 : ℤ, d1 * d2 = 3 → ¬ IsSquare d1 → ¬ IsSquare d2 →
      desc2 Marith.Props.xgcd0 Marith.Props.sqr0 lib0 0 d1 d2 (badPrimes (exEnv.pdivs 3) (exEnv.pdivs (0 * 0 - 4 * 3)))
        (-1 :: exEnv.pdivs (0 * 0 - 4 * 3)) R.e1.gens R.e1.mask false false = .noPoints →
      ¬ ∃ x y z : ℤ, y ^ 2 = d1 * x ^ 4 + 0 * x ^ 2 * z ^ 2 + d2 * z ^ 4 ∧ ¬ (x = 0 ∧ z = 0) := by
  obtain ⟨N, h⟩ := Props.C95_in_rank2 exEnv exEnv_ok (fun n _ => exEnv_sorted n) 0 3 0 0 3 rfl rfl (by norm_num)
    (by
      show (List.map _ (List.filter _ (List.range 4))).length ≤ 29
      rw [List.length_map]
      exact (List.length_filter_le _ _).trans (by simp))
    (by
      show (List.map _ (List.filter _ (List.range 13))).length ≤ 29
      rw [List.length_map]
      exact (List.length_filter_le _ _).trans (by simp)) Marith.Props.xgcd0 Marith.Props.sqr0 lib0 lib0_ok false false
  refine ⟨N, fun f hf => ?_⟩
  obtain ⟨R, h1, h2, -⟩ := h f hf
  exact ⟨R, h1, h2⟩

end Eclib.Rank2
