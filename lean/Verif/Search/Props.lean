import Verif.Search.Model
import Verif.Curve.Qc
import Verif.Arith.Props

/-!
# C97: `ratpoint`
-/

namespace Eclib.Search

open Forms (G)
open Marith (isqrt)
open Curve (QPoint)

theorem isqrt_of_sq {f v : ℤ} (h : v ^ 2 = f) : (isqrt f).1 = true := (Marith.Props.C12_isqrt f).mpr ⟨v, h.symm⟩

theorem test_some {x z y2 : ℤ} {p : ℤ × ℤ × ℤ} (h : test x z y2 = some p) : p.1 = x ∧ p.2.2 = z ∧ p.2.1 ^ 2 = y2 := by
  unfold test at h
  split_ifs at h with h1
  simp only [Option.some.injEq] at h
  subst h
  exact ⟨rfl, rfl, by linear_combination -(Marith.isqrt_sound _ h1)⟩

theorem test_none {x z y2 : ℤ} (h : test x z y2 = none) (v : ℤ) : v ^ 2 ≠ y2 := by
  intro hv
  unfold test at h
  rw [if_pos (isqrt_of_sq hv)] at h
  exact absurd h (by simp)

theorem ratX_some {g : G} {n sx : ℤ} {p : ℤ × ℤ × ℤ} (hs : 0 < sx) (h : ratX g n sx = some p) :
    QPoint g p.1 p.2.1 p.2.2 ∧ IsCoprime p.1 p.2.2 := by
  unfold ratX at h
  split_ifs at h with h1
  simp only [Option.or_eq_some_iff] at h
  have hc : IsCoprime sx (n - sx) := by
    have := Int.isCoprime_iff_gcd_eq_one.mpr h1
    have := this.add_mul_left_right (-1)
    rwa [show n + sx * -1 = n - sx by ring] at this
  rcases h with h | ⟨-, h⟩
  · obtain ⟨e1, e2, e3⟩ := test_some h
    rw [e1, e2]
    exact ⟨⟨e3, fun h0 => hs.ne' h0.1⟩, hc⟩
  · obtain ⟨e1, e2, e3⟩ := test_some h
    rw [e1, e2]
    exact ⟨⟨by rw [e3]; ring, fun h0 => hs.ne' (neg_eq_zero.mp h0.1)⟩, hc.neg_left⟩

/-- `ratpoint`: a point returned is a point of the quartic, with coprime coordinates; if there is none, no point with
coprime coordinates has `min ≤ |x| + |z| ≤ max`. -/
theorem C97_ratpoint (g : G) (min max : ℤ) :
    (∀ x y z, ratpoint g min max = some (x, y, z) → QPoint g x y z ∧ IsCoprime x z) ∧
    (ratpoint g min max = none →
      ∀ x y z, QPoint g x y z → IsCoprime x z → ¬ (min ≤ |x| + |z| ∧ |x| + |z| ≤ max)) := by
  unfold ratpoint
  by_cases h1 : (isqrt g.a).1 = true
  · rw [if_pos h1]
    refine ⟨fun x y z h => ?_, by simp⟩
    simp only [Option.some.injEq, Prod.mk.injEq] at h
    obtain ⟨rfl, rfl, rfl⟩ := h
    exact ⟨⟨by linear_combination -(Marith.isqrt_sound _ h1), by simp⟩, isCoprime_one_left⟩
  rw [if_neg h1]
  by_cases h2 : (isqrt g.e).1 = true
  · rw [if_pos h2]
    refine ⟨fun x y z h => ?_, by simp⟩
    simp only [Option.some.injEq, Prod.mk.injEq] at h
    obtain ⟨rfl, rfl, rfl⟩ := h
    exact ⟨⟨by linear_combination -(Marith.isqrt_sound _ h2), by simp⟩, isCoprime_one_right⟩
  rw [if_neg h2]
  constructor
  · intro x y z h
    obtain ⟨n, -, h⟩ := List.exists_of_findSome?_eq_some h
    unfold ratN at h
    by_cases hn : n = 1
    · rw [if_pos hn, Option.or_eq_some_iff] at h
      rcases h with h | ⟨-, h⟩
      · exact absurd (isqrt_of_sq (test_some h).2.2) h1
      · exact absurd (isqrt_of_sq (test_some h).2.2) h2
    · rw [if_neg hn] at h
      obtain ⟨sx, hm, h⟩ := List.exists_of_findSome?_eq_some h
      obtain ⟨i, -, rfl⟩ := List.mem_map.mp hm
      exact ratX_some (by positivity) h
  · intro h x y z hp hc hb
    rw [List.findSome?_eq_none_iff] at h
    have key : ∀ x z : ℤ, QPoint g x y z → IsCoprime x z → min ≤ |x| + |z| ∧ |x| + |z| ≤ max → 0 < z → False := by
      intro x z hp hc hb hz
      have hx : x ≠ 0 := by
        rintro rfl
        have hu := isCoprime_zero_left.mp hc
        rcases Int.isUnit_iff.mp hu with rfl | rfl
        · exact h2 (isqrt_of_sq (hp.eqn.trans (by ring)))
        · omega
      have hzz : |z| = z := abs_of_pos hz
      rw [hzz] at hb
      have hx0 : 0 < |x| := abs_pos.mpr hx
      have hN := h (|x| + z) (List.mem_map.mpr ⟨(|x| + z - min).toNat, List.mem_range.mpr (by omega), by omega⟩)
      unfold ratN at hN
      rw [if_neg (by omega), List.findSome?_eq_none_iff] at hN
      have hX := hN |x| (List.mem_map.mpr ⟨(|x| - 1).toNat, List.mem_range.mpr (by omega), by omega⟩)
      have hg : Int.gcd |x| (|x| + z) = 1 := by
        rw [← Int.isCoprime_iff_gcd_eq_one]
        have h3 : IsCoprime |x| z := by
          rcases abs_choice x with h | h <;> rw [h]
          · exact hc
          · exact hc.neg_left
        have := h3.add_mul_left_right 1
        rwa [show z + |x| * 1 = |x| + z by ring] at this
      unfold ratX at hX
      rw [if_pos hg] at hX
      simp only [Option.or_eq_none_iff] at hX
      obtain ⟨k1, k2⟩ := hX
      rcases abs_choice x with h | h
      · rw [h] at k1
        exact test_none k1 y (hp.eqn.trans (by ring))
      · rw [h] at k2
        exact test_none k2 y (hp.eqn.trans (by ring))
    rcases lt_trichotomy z 0 with hz | hz | hz
    · exact key (-x) (-z) ⟨hp.eqn.trans (by ring), fun h0 => hp.ne ⟨neg_eq_zero.mp h0.1, neg_eq_zero.mp h0.2⟩⟩
        (hc.neg_left.neg_right) (by rwa [abs_neg, abs_neg]) (by omega)
    · subst hz
      have hu := isCoprime_zero_right.mp hc
      apply h1
      rcases Int.isUnit_iff.mp hu with rfl | rfl
      · exact isqrt_of_sq (hp.eqn.trans (by ring))
      · exact isqrt_of_sq (hp.eqn.trans (by ring))
    · exact key x z hp hc hb hz

/-- `2x⁴ - 7x³z + 3xz³ + 5z⁴` at `(4 : 9 : 1)` -/
example : ratpoint ⟨2, -7, 0, 3, 5⟩ 5 5 = some (4, 9, 1) ∧ ratpoint ⟨2, 0, 0, 0, 3⟩ 1 6 = none := by decide +kernel

end Eclib.Search
