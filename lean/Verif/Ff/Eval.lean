import Verif.Ff.Norm

/-!
# `evaluate_weil_pol_0`: the value of `weil_pol` without computing it
-/

set_option linter.unusedSectionVars false

namespace Eclib.Ff

open Pmod (Pq coords)
open Polynomial
open WeierstrassCurve.Affine (CoordinateRing)
open WeierstrassCurve.Affine.CoordinateRing (mk XClass YClass XIdeal YIdeal XYIdeal)

variable {F : Type} [Field F] [DecidableEq F] {E : WeierstrassCurve F}

/-- `a` is the value at `(x, y)` of the function with divisor `n(T) - (nT) - (n-1)O` and leading coefficient 1, written as a
quotient of two functions -/
def Val (T : E.toAffine.Point) {x y : F} (h : E.toAffine.Equation x y) (n : ℕ) (a : F) : Prop :=
  ∃ (N D : E.toAffine.CoordinateRing) (i j : ℕ), Mon i N ∧ Mon j D ∧
    Ideal.span {N} * I (n • T) = Ideal.span {D} * I T ^ n ∧ ev h D ≠ 0 ∧ a * ev h D = ev h N

variable {T : E.toAffine.Point} {x y : F} {h : E.toAffine.Nonsingular x y}

theorem Val_one : Val T h.1 1 1 :=
  ⟨1, 1, 0, 0, Mon_one, Mon_one, by rw [one_smul, pow_one], by rw [map_one]; exact one_ne_zero, by simp⟩

/-- the value of a vertical line at a point not on it -/
theorem ev_vertical_ne (A : E.toAffine.Point) (h1 : WeierstrassCurve.Affine.Point.some x y h ≠ A)
    (h2 : WeierstrassCurve.Affine.Point.some x y h ≠ -A) : ev h.1 (toCR E (vertical (coords A))) ≠ 0 := by
  intro h0
  have := (ev_eq_zero h _ [A, -A] (by simp [← I_neg_mul])).mp h0
  simp only [List.mem_cons, List.not_mem_nil, or_false] at this
  tauto

theorem Val.add {n m : ℕ} {a b : F} (ha : Val T h.1 n a) (hb : Val T h.1 m b)
    (hS : ∀ k : ℕ, WeierstrassCurve.Affine.Point.some x y h ≠ k • T ∧ WeierstrassCurve.Affine.Point.some x y h ≠ -(k • T)) :
    Val T h.1 (n + m) (a * b * ev h.1 (toCR E (chord E (coords (n • T)) (coords (m • T)))) /
      ev h.1 (toCR E (vertical (coords ((n + m) • T))))) := by
  obtain ⟨N, D, i, j, hN, hD, hI, h0, hv⟩ := ha
  obtain ⟨N', D', i', j', hN', hD', hI', h0', hv'⟩ := hb
  have hV := ev_vertical_ne (h := h) ((n + m) • T) (hS _).1 (hS _).2
  refine ⟨N * N' * toCR E (chord E (coords (n • T)) (coords (m • T))), D * D' * toCR E (vertical (coords ((n + m) • T))), _, _,
    (hN.mul hN').mul (Mon_chord _ _), (hD.mul hD').mul (Mon_vertical _), ?_, ?_, ?_⟩
  · have e1 := chord_ideal (n • T) (m • T)
    have e2 := I_neg_mul ((n + m) • T)
    rw [← add_smul] at e1
    simp only [← Ideal.span_singleton_mul_span_singleton]
    rw [e1, ← e2, pow_add]
    calc _ = (Ideal.span {N} * I (n • T)) * (Ideal.span {N'} * I (m • T)) * (I ((n + m) • T) * I (-((n + m) • T))) := by ring
      _ = _ := by rw [hI, hI']; ring
  · rw [map_mul, map_mul]
    exact mul_ne_zero (mul_ne_zero h0 h0') hV
  · simp only [map_mul]
    rw [← hv, ← hv', div_mul_eq_mul_div, div_eq_iff hV]
    ring

theorem tangent_eq_chord (A : E.toAffine.Point) : toCR E (tangent E (coords A)) = toCR E (chord E (coords A) (coords A)) :=
  ((Mon_tangent A).unique (Mon_chord A A) (by rw [tangent_ideal, chord_ideal])).1

theorem coords_eq_oo (A : E.toAffine.Point) : coords A = .oo ↔ A = 0 := by
  rw [← Pmod.coords_zero (E := E), Pmod.coords_injective.eq_iff]

theorem evaluate_some (g : FF F) : evaluate g (coords (WeierstrassCurve.Affine.Point.some x y h)) = some (ev h.1 (toCR E g)) :=
  evaluate_spec g h.1

/-- the state after `n` has been processed, `w` the current power of 2 -/
def St (T : E.toAffine.Point) {x y : F} (h : E.toAffine.Nonsingular x y) (n w : ℕ) (s : MSt F) : Prop :=
  s.kT = coords (n • T) ∧ s.T2 = coords (w • T) ∧ Val T h.1 w s.a2 ∧ (n ≠ 0 → Val T h.1 n s.a)

theorem addStep_spec {n w : ℕ} {s : MSt F} (hs : St T h n w s) (hn : n < addOrderOf T)
    (hS : ∀ k : ℕ, WeierstrassCurve.Affine.Point.some x y h ≠ k • T ∧ WeierstrassCurve.Affine.Point.some x y h ≠ -(k • T)) :
    ∃ s', addStep E (coords (.some x y h)) s = some s' ∧ St T h (n + w) w s' := by
  obtain ⟨h1, h2, h3, h4⟩ := hs
  unfold addStep
  by_cases h0 : s.kT = .oo
  · rw [if_pos h0]
    rw [h1, coords_eq_oo] at h0
    have hn0 : n = 0 := by
      by_contra hne
      exact absurd (addOrderOf_dvd_iff_nsmul_eq_zero.mpr h0) (Nat.not_dvd_of_pos_of_lt (Nat.pos_of_ne_zero hne) hn)
    refine ⟨_, rfl, ?_, h2, h3, ?_⟩
    · rw [hn0, zero_add]; exact h2
    · rw [hn0, zero_add]; exact fun _ => h3
  · rw [if_neg h0]
    have hn0 : n ≠ 0 := by
      rintro rfl
      rw [zero_smul] at h1
      exact h0 h1
    have hv := (h4 hn0).add h3 hS
    have hk : Pq.add E s.kT s.T2 = coords ((n + w) • T) := by rw [h1, h2, ← Pmod.coords_add, add_smul]
    rw [evaluate_some, Option.bind_eq_bind, Option.bind_some]
    simp only [hk]
    rw [h1, h2]
    by_cases hz : coords ((n + w) • T) = .oo
    · rw [if_pos hz]
      rw [hz, show vertical (.oo : Pq F) = ⟨[1], []⟩ from rfl, toCR_one, map_one, div_one] at hv
      exact ⟨_, rfl, rfl, rfl, h3, fun _ => hv⟩
    · rw [if_neg hz, evaluate_some, Option.bind_some]
      exact ⟨_, rfl, rfl, rfl, h3, fun _ => hv⟩

theorem dblStep_spec {n w : ℕ} {s : MSt F} (hs : St T h n w s)
    (hS : ∀ k : ℕ, WeierstrassCurve.Affine.Point.some x y h ≠ k • T ∧ WeierstrassCurve.Affine.Point.some x y h ≠ -(k • T)) :
    ∃ s', dblStep E (coords (.some x y h)) s = some s' ∧ s'.a = s.a ∧ St T h n (2 * w) s' := by
  obtain ⟨h1, h2, h3, h4⟩ := hs
  unfold dblStep
  have hv := h3.add h3 hS
  rw [← two_mul, ← tangent_eq_chord] at hv
  have hk : Pq.mul E 2 s.T2 = coords ((2 * w) • T) := by
    rw [h2, ← Pmod.coords_mul, mul_smul]
    norm_cast
  rw [evaluate_some, Option.bind_eq_bind, Option.bind_some]
  simp only [hk]
  rw [h2]
  by_cases hz : coords ((2 * w) • T) = .oo
  · rw [if_pos hz]
    rw [hz, show vertical (.oo : Pq F) = ⟨[1], []⟩ from rfl, toCR_one, map_one, div_one] at hv
    exact ⟨_, rfl, rfl, h1, rfl, hv, h4⟩
  · rw [if_neg hz, evaluate_some, Option.bind_some]
    exact ⟨_, rfl, rfl, h1, rfl, hv, h4⟩

theorem millerLoop_spec
    (hS : ∀ k : ℕ, WeierstrassCurve.Affine.Point.some x y h ≠ k • T ∧ WeierstrassCurve.Affine.Point.some x y h ≠ -(k • T))
    (k : ℕ) : ∀ {n w : ℕ} {s : MSt F}, St T h n w s → 0 < k → 0 < w → n + k * w = addOrderOf T →
    ∃ a, millerLoop E (coords (.some x y h)) k s = some a ∧ Val T h.1 (addOrderOf T) a := by
  induction k using Nat.strong_induction_on with
  | _ k ih =>
    intro n w s hs hk hw hm
    rw [millerLoop, if_neg (by omega)]
    by_cases hodd : k % 2 = 1
    · simp only [if_pos hodd]
      obtain ⟨s', e, hs'⟩ := addStep_spec hs (by nlinarith) hS
      rw [e, Option.bind_eq_bind, Option.bind_some]
      by_cases h1 : k - 1 = 0
      · rw [if_pos h1]
        have : k = 1 := by omega
        subst this
        rw [one_mul] at hm
        rw [hm] at hs'
        exact ⟨_, rfl, hs'.2.2.2 (by omega)⟩
      · rw [if_neg h1]
        obtain ⟨s2, e2, _, hs2⟩ := dblStep_spec hs' hS
        rw [e2, Option.bind_some]
        refine ih _ (by omega) hs2 (by omega) (by omega) ?_
        obtain ⟨l, hl⟩ : ∃ l, k = 2 * l + 1 := ⟨k / 2, by omega⟩
        subst hl
        rw [show (2 * l + 1 - 1) / 2 = l by omega, ← hm]
        ring
    · simp only [if_neg hodd]
      rw [Option.bind_eq_bind, Option.bind_some, if_neg (by omega)]
      obtain ⟨s2, e2, _, hs2⟩ := dblStep_spec hs hS
      rw [e2, Option.bind_some]
      refine ih _ (by omega) hs2 (by omega) (by omega) ?_
      obtain ⟨l, hl⟩ : ∃ l, k = 2 * l := ⟨k / 2, by omega⟩
      subst hl
      rw [show (2 * l) / 2 = l by omega, ← hm]
      ring

/-- the ideal of `weil_pol` when `mT = 0` -/
theorem weilPol_ideal (T : E.toAffine.Point) (m : ℕ) (hm : 2 ≤ m) (hT : m • T = 0) :
    Ideal.span {toCR E (weilPol E (coords T) m)} = I T ^ m := by
  obtain ⟨l, rfl⟩ : ∃ l, m = l + 1 := ⟨m - 1, by omega⟩
  rw [(weilPol_inv T (l + 1) hm).1, Nat.add_sub_cancel]
  rw [succ_nsmul, add_comm] at hT
  rw [← eq_neg_of_add_eq_zero_left hT, pow_succ]

theorem weilPol_mon (T : E.toAffine.Point) (m : ℕ) (hm : 2 ≤ m) (hT : m • T = 0) :
    Mon (m * ord T) (toCR E (weilPol E (coords T) m)) := by
  obtain ⟨l, rfl⟩ : ∃ l, m = l + 1 := ⟨m - 1, by omega⟩
  have := (weilPol_inv T (l + 1) hm).2
  rw [Nat.add_sub_cancel] at this
  rw [succ_nsmul, add_comm] at hT
  rwa [eq_neg_of_add_eq_zero_right hT, ord_neg, ← Nat.succ_mul] at this

/-- the final value -/
theorem Val.final {m : ℕ} {a : F} (hm : 2 ≤ m) (hT : m • T = 0) (ha : Val T h.1 m a) :
    a = ev h.1 (toCR E (weilPol E (coords T) m)) := by
  obtain ⟨N, D, i, j, hN, hD, hI, h0, hv⟩ := ha
  rw [hT, I_zero, mul_one, ← weilPol_ideal T m hm hT, Ideal.span_singleton_mul_span_singleton] at hI
  have := (hN.unique (hD.mul (weilPol_mon T m hm hT)) hI).1
  rw [this, map_mul, mul_comm] at hv
  exact mul_left_cancel₀ h0 hv

theorem evalWeil0_spec (hm : 2 ≤ addOrderOf T) (hS : ∀ k : ℕ, WeierstrassCurve.Affine.Point.some x y h ≠ k • T) :
    evalWeil0 E (coords T) (addOrderOf T) (coords (.some x y h)) =
      some (ev h.1 (toCR E (weilPol E (coords T) (addOrderOf T)))) := by
  have hT := addOrderOf_nsmul_eq_zero T
  have hS' : ∀ k : ℕ, WeierstrassCurve.Affine.Point.some x y h ≠ k • T ∧ WeierstrassCurve.Affine.Point.some x y h ≠ -(k • T) := by
    refine fun k => ⟨hS k, fun e => hS (k * (addOrderOf T - 1)) ?_⟩
    rw [e, mul_smul, neg_eq_iff_add_eq_zero, ← smul_add, ← succ_nsmul', Nat.sub_add_cancel (by omega), hT, smul_zero]
  unfold evalWeil0
  by_cases h2 : addOrderOf T = 2
  · rw [if_pos h2]
    cases T with
    | zero => exact absurd h2 (by rw [show (WeierstrassCurve.Affine.Point.zero : E.toAffine.Point) = 0 from rfl, addOrderOf_zero]; omega)
    | some xT yT hTT =>
      rw [h2]
      change some (x - xT) = some (ev h.1 (toCR E (vertical (.pt xT yT))))
      rw [← XClass_toCR, ev_XClass]
  · rw [if_neg h2]
    obtain ⟨a, e, ha⟩ := millerLoop_spec hS' (addOrderOf T) (n := 0) (w := 1) (s := ⟨.oo, 1, coords T, 1⟩)
      ⟨by rw [zero_smul]; rfl, by rw [one_smul], Val_one (h := h), fun hne => absurd rfl hne⟩ (by omega) one_pos (by omega)
    rw [e, ha.final (h := h) hm hT]

end Eclib.Ff
