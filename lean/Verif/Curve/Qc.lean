import Verif.Curve.Proj
import Verif.Forms.Quartic
import Verif.Marith.Props
import Mathlib.Algebra.Order.Ring.Int
import Mathlib.Data.Int.NatAbs

/-!
# C96: the covering map from a quartic to its elliptic curve (libsrc/qc.cc)
-/

namespace Eclib.Curve

open Forms (G)
open Marith (isqrt)
open P2 (NZ OnE Same)

/-! ## the model -/

/-- The quartic used by `qc` and the numbers `q`, `z02` (qc.cc:48-64) -/
def qcQuartic (g : G) (x0 y0 z0 : ℤ) : G × ℤ × ℤ :=
  if (isqrt g.a).1 = true then (g, (isqrt g.a).2, 1)
  else if (isqrt g.e).1 = true then (⟨g.e, g.d, g.c, g.b, g.a⟩, (isqrt g.e).2, z0 ^ 2)
  else
    (⟨y0 ^ 2, z0 * (4 * g.a * x0 ^ 3 + 3 * g.b * x0 ^ 2 * z0 + 2 * g.c * x0 * z0 ^ 2 + g.d * z0 ^ 3),
      z0 ^ 2 * (6 * g.a * x0 ^ 2 + 3 * g.b * x0 * z0 + g.c * z0 ^ 2),
      z0 ^ 3 * (4 * g.a * x0 + g.b * z0), z0 ^ 4 * g.a⟩, y0, z0 ^ 2)

/-- The point of the curve with invariants `I`, `J` (qc.cc:70-74): `(xp*zp : yp : zp³)` -/
def qcPoint (h : G × ℤ × ℤ) : P2 :=
  let p := 3 * h.1.b * h.1.b - 8 * h.1.a * h.1.c
  let r := h.1.b * h.1.b * h.1.b + 8 * h.1.a * h.1.a * h.1.d - 4 * h.1.a * h.1.b * h.1.c
  let zp := 2 * h.2.1 * h.2.2
  P2.mk' (3 * p * zp) (27 * r) (zp ^ 3)

/-- `qc` (qc.cc:28-92), without messages: the point found on the curve with invariants `I`, `J`, and its image on the
curve `E` -/
def qc (g : G) (x0 y0 z0 u r s t : ℤ) : P2 × P2 :=
  (qcPoint (qcQuartic g x0 y0 z0), (qcPoint (qcQuartic g x0 y0 z0)).transform u r s t false)

/-- `IJ_curve = Curvedata(0,0,0,-27*ii,-27*jj,0)` (mrank1.cc:626) -/
def ijCurve (g : G) : Cv := ⟨0, 0, 0, -27 * g.II, -27 * g.JJ⟩

/-! ## the specification -/

/-- the covariant of degree 4 -/
def cov4 (a b c d e x z : ℤ) : ℤ :=
  (3 * b ^ 2 - 8 * a * c) * x ^ 4 + 4 * (b * c - 6 * a * d) * x ^ 3 * z +
    2 * (2 * c ^ 2 - 24 * a * e - 3 * b * d) * x ^ 2 * z ^ 2 + 4 * (c * d - 6 * b * e) * x * z ^ 3 +
    (3 * d ^ 2 - 8 * c * e) * z ^ 4

/-- the covariant of degree 6 -/
def cov6 (a b c d e x z : ℤ) : ℤ :=
  (b ^ 3 + 8 * a ^ 2 * d - 4 * a * b * c) * x ^ 6 +
    2 * (16 * a ^ 2 * e + 2 * a * b * d - 4 * a * c ^ 2 + b ^ 2 * c) * x ^ 5 * z +
    5 * (8 * a * b * e + b ^ 2 * d - 4 * a * c * d) * x ^ 4 * z ^ 2 + 20 * (b ^ 2 * e - a * d ^ 2) * x ^ 3 * z ^ 3 -
    5 * (8 * a * d * e + b * d ^ 2 - 4 * b * c * e) * x ^ 2 * z ^ 4 -
    2 * (16 * a * e ^ 2 + 2 * b * d * e - 4 * c ^ 2 * e + c * d ^ 2) * x * z ^ 5 -
    (d ^ 3 + 8 * b * e ^ 2 - 4 * c * d * e) * z ^ 6

/-- the image of `(x : y : z)` under the covering map: the point with coordinates `3 g4/(2y)²`, `27 g6/(2y)³` -/
def cover (g : G) (x y z : ℤ) : P2 :=
  ⟨6 * y * cov4 g.a g.b g.c g.d g.e x z, 27 * cov6 g.a g.b g.c g.d g.e x z, 8 * y ^ 3⟩

/-- a point of `y² = g(x,z)` -/
structure QPoint (g : G) (x y z : ℤ) : Prop where
  eqn : y ^ 2 = g.a * x ^ 4 + g.b * x ^ 3 * z + g.c * x ^ 2 * z ^ 2 + g.d * x * z ^ 3 + g.e * z ^ 4
  ne : ¬ (x = 0 ∧ z = 0)

/-! ## proofs -/

/-- the syzygy -/
theorem syzygy (a b c d e x z : ℤ) :
    27 * cov6 a b c d e x z ^ 2 = cov4 a b c d e x z ^ 3 -
      48 * (12 * a * e - 3 * b * d + c ^ 2) * (a * x ^ 4 + b * x ^ 3 * z + c * x ^ 2 * z ^ 2 + d * x * z ^ 3 + e * z ^ 4) ^ 2 *
        cov4 a b c d e x z -
      64 * (72 * a * c * e + 9 * b * c * d - 27 * a * d ^ 2 - 27 * b ^ 2 * e - 2 * c ^ 3) *
        (a * x ^ 4 + b * x ^ 3 * z + c * x ^ 2 * z ^ 2 + d * x * z ^ 3 + e * z ^ 4) ^ 3 := by
  unfold cov4 cov6
  ring

/-- `g(x0 X + z0 Z, z0 X)` -/
def shiftG (g : G) (x z : ℤ) : G :=
  ⟨g.a * x ^ 4 + g.b * x ^ 3 * z + g.c * x ^ 2 * z ^ 2 + g.d * x * z ^ 3 + g.e * z ^ 4,
    z * (4 * g.a * x ^ 3 + 3 * g.b * x ^ 2 * z + 2 * g.c * x * z ^ 2 + g.d * z ^ 3),
    z ^ 2 * (6 * g.a * x ^ 2 + 3 * g.b * x * z + g.c * z ^ 2), z ^ 3 * (4 * g.a * x + g.b * z), z ^ 4 * g.a⟩

theorem shiftG_disc (g : G) (x z : ℤ) : (shiftG g x z).disc = z ^ 24 * g.disc := by
  have h1 : (shiftG g x z).II = z ^ 8 * g.II := by simp only [shiftG, G.II]; ring
  have h2 : (shiftG g x z).JJ = z ^ 12 * g.JJ := by simp only [shiftG, G.JJ]; ring
  unfold G.disc
  rw [h1, h2]; ring

theorem shiftG_cov4 (g : G) (x z : ℤ) :
    3 * (shiftG g x z).b * (shiftG g x z).b - 8 * (shiftG g x z).a * (shiftG g x z).c =
      z ^ 4 * cov4 g.a g.b g.c g.d g.e x z := by
  simp only [shiftG, cov4]; ring

theorem shiftG_cov6 (g : G) (x z : ℤ) :
    (shiftG g x z).b * (shiftG g x z).b * (shiftG g x z).b + 8 * (shiftG g x z).a * (shiftG g x z).a * (shiftG g x z).d -
      4 * (shiftG g x z).a * (shiftG g x z).b * (shiftG g x z).c = -(z ^ 6 * cov6 g.a g.b g.c g.d g.e x z) := by
  simp only [shiftG, cov6]; ring

theorem disc_zero {g : G} (ha : g.a = 0) (hb : g.b = 0) : g.disc = 0 := by
  simp only [G.disc, G.II, G.JJ, ha, hb]; ring

theorem cover_nz {g : G} {x y z : ℤ} (hD : g.disc ≠ 0) (h : QPoint g x y z) : NZ (cover g x y z) := by
  by_cases hy : y = 0
  swap
  · exact Or.inr (Or.inr (mul_ne_zero (by norm_num) (pow_ne_zero 3 hy)))
  right; left
  have he := h.eqn
  rw [hy, sq, mul_zero] at he
  simp only [cover]
  refine mul_ne_zero (by norm_num) fun h6 => hD ?_
  by_cases hz : z = 0
  · have hx : x ≠ 0 := fun hx => h.ne ⟨hx, hz⟩
    rw [hz] at he h6
    have ha : g.a = 0 := by
      have : g.a * x ^ 4 = 0 := by rw [he]; ring
      exact (mul_eq_zero.mp this).resolve_right (pow_ne_zero 4 hx)
    refine disc_zero ha ?_
    simp only [cov6, ha] at h6
    have : g.b ^ 3 * x ^ 6 = 0 := by rw [← h6]; ring
    exact pow_eq_zero_iff (three_ne_zero) |>.mp ((mul_eq_zero.mp this).resolve_right (pow_ne_zero 6 hx))
  · have ha : (shiftG g x z).a = 0 := by rw [← he.symm]; rfl
    have hb := shiftG_cov6 g x z
    rw [h6, ha] at hb
    have hb' : (shiftG g x z).b ^ 3 = 0 := by linear_combination hb
    have := shiftG_disc g x z
    rw [disc_zero ha (pow_eq_zero_iff three_ne_zero |>.mp hb')] at this
    exact (mul_eq_zero.mp this.symm).resolve_left (pow_ne_zero 24 hz)

theorem cover_on {g : G} {x y z : ℤ} (h : QPoint g x y z) : OnE (ijCurve g) (cover g x y z) := by
  have s := syzygy g.a g.b g.c g.d g.e x z
  rw [← h.eqn] at s
  have hI : 12 * g.a * g.e - 3 * g.b * g.d + g.c ^ 2 = g.II := by simp only [G.II]; ring
  have hJ : 72 * g.a * g.c * g.e + 9 * g.b * g.c * g.d - 27 * g.a * g.d ^ 2 - 27 * g.b ^ 2 * g.e - 2 * g.c ^ 3 = g.JJ := by
    simp only [G.JJ]; ring
  rw [hI, hJ] at s
  simp only [OnE, ijCurve, cover]
  linear_combination 216 * y ^ 3 * s

/-- which point of the quartic is mapped -/
def qcSource (g : G) (x0 y0 z0 : ℤ) : ℤ × ℤ × ℤ :=
  if (isqrt g.a).1 = true then (1, (isqrt g.a).2, 0)
  else if (isqrt g.e).1 = true then (0, -(isqrt g.e).2, 1) else (x0, -y0, z0)

theorem mk'_same {x y z : ℤ} (h : NZ ⟨x, y, z⟩) : Same (P2.mk' x y z) ⟨x, y, z⟩ := by
  obtain ⟨k, hk, h1, h2, h3, -⟩ := P2.reduce_spec ⟨x, y, z⟩ h
  exact ⟨k, 1, hk, one_ne_zero, by rw [one_mul]; exact h1.symm, by rw [one_mul]; exact h2.symm,
    by rw [one_mul]; exact h3.symm⟩

theorem qcPoint_spec {g : G} {x0 y0 z0 : ℤ} (hD : g.disc ≠ 0) (h : QPoint g x0 y0 z0)
    (hz : IsSquare g.a ∨ ¬ IsSquare g.e ∨ z0 ^ 2 = 1) :
    QPoint g (qcSource g x0 y0 z0).1 (qcSource g x0 y0 z0).2.1 (qcSource g x0 y0 z0).2.2 ∧
    Same (qcPoint (qcQuartic g x0 y0 z0))
      (cover g (qcSource g x0 y0 z0).1 (qcSource g x0 y0 z0).2.1 (qcSource g x0 y0 z0).2.2) := by
  unfold qcSource qcQuartic
  by_cases h1 : (isqrt g.a).1 = true
  · rw [if_pos h1, if_pos h1]
    have e := Marith.isqrt_sound _ h1
    have hq : QPoint g 1 (isqrt g.a).2 0 := ⟨by linear_combination -e, by simp⟩
    refine ⟨hq, ?_⟩
    have hc : cover g 1 (isqrt g.a).2 0 = ⟨3 * (3 * g.b * g.b - 8 * g.a * g.c) * (2 * (isqrt g.a).2 * 1),
        27 * (g.b * g.b * g.b + 8 * g.a * g.a * g.d - 4 * g.a * g.b * g.c), (2 * (isqrt g.a).2 * 1) ^ 3⟩ := by
      simp only [cover, cov4, cov6]
      congr 1 <;> ring
    rw [hc]
    exact mk'_same (hc ▸ cover_nz hD hq)
  rw [if_neg h1, if_neg h1]
  have n1 : ¬ IsSquare g.a := fun ⟨k, hk⟩ => h1 ((Marith.Props.C12_isqrt g.a).mpr ⟨k, by rw [hk, sq]⟩)
  by_cases h2 : (isqrt g.e).1 = true
  · rw [if_pos h2, if_pos h2]
    have e := Marith.isqrt_sound _ h2
    have hq : QPoint g 0 (-(isqrt g.e).2) 1 := ⟨by linear_combination -e, by simp⟩
    refine ⟨hq, ?_⟩
    have hz1 : z0 ^ 2 = 1 := (hz.resolve_left n1).resolve_left fun hn => hn ⟨_, e⟩
    have hc : cover g 0 (-(isqrt g.e).2) 1 = ⟨(-1) * (3 * (3 * g.d * g.d - 8 * g.e * g.c) * (2 * (isqrt g.e).2 * z0 ^ 2)),
        (-1) * (27 * (g.d * g.d * g.d + 8 * g.e * g.e * g.b - 4 * g.e * g.d * g.c)), (-1) * (2 * (isqrt g.e).2 * z0 ^ 2) ^ 3⟩ := by
      rw [hz1]
      simp only [cover, cov4, cov6]
      congr 1 <;> ring
    have hnz := cover_nz hD hq
    rw [hc] at hnz ⊢
    refine (mk'_same ?_).trans ⟨-1, 1, by norm_num, one_ne_zero, by ring, by ring, by ring⟩
    refine hnz.imp (fun h h0 => h ?_) (Or.imp (fun h h0 => h ?_) (fun h h0 => h ?_)) <;>
    · dsimp only at h0 ⊢
      rw [h0]; ring
  · rw [if_neg h2, if_neg h2]
    have hq : QPoint g x0 (-y0) z0 := ⟨by rw [neg_sq]; exact h.eqn, h.ne⟩
    refine ⟨hq, ?_⟩
    have hz0 : z0 ≠ 0 := by
      intro hz0
      have hx : x0 ≠ 0 := fun hx => h.ne ⟨hx, hz0⟩
      have e := h.eqn
      rw [hz0] at e
      have e2 : (x0 ^ 2) ^ 2 * g.a = y0 ^ 2 := by rw [e]; ring
      have hd : x0 ^ 2 ∣ y0 := (Int.pow_dvd_pow_iff two_ne_zero).mp (e2 ▸ Dvd.intro _ rfl)
      obtain ⟨k, rfl⟩ := hd
      refine n1 ⟨k, mul_left_cancel₀ (pow_ne_zero 2 (pow_ne_zero 2 hx)) ?_⟩
      rw [e2]; ring
    have e0 : (⟨y0 ^ 2, z0 * (4 * g.a * x0 ^ 3 + 3 * g.b * x0 ^ 2 * z0 + 2 * g.c * x0 * z0 ^ 2 + g.d * z0 ^ 3),
      z0 ^ 2 * (6 * g.a * x0 ^ 2 + 3 * g.b * x0 * z0 + g.c * z0 ^ 2),
      z0 ^ 3 * (4 * g.a * x0 + g.b * z0), z0 ^ 4 * g.a⟩ : G) = shiftG g x0 z0 := by
      rw [h.eqn]; rfl
    rw [e0]
    unfold qcPoint
    simp only
    rw [shiftG_cov4, shiftG_cov6]
    have hnz := cover_nz hD hq
    have hs : Same ⟨3 * (z0 ^ 4 * cov4 g.a g.b g.c g.d g.e x0 z0) * (2 * y0 * z0 ^ 2),
        27 * -(z0 ^ 6 * cov6 g.a g.b g.c g.d g.e x0 z0), (2 * y0 * z0 ^ 2) ^ 3⟩ (cover g x0 (-y0) z0) :=
      ⟨1, -z0 ^ 6, one_ne_zero, neg_ne_zero.mpr (pow_ne_zero 6 hz0), by simp only [cover]; ring, by simp only [cover]; ring,
        by simp only [cover]; ring⟩
    exact (mk'_same (hs.symm.nz hnz)).trans hs

/-! ## C96 -/

/-- The covering map: for a quartic with non-zero discriminant and any of its points, the image is a point of
`Y² = X³ - 27IX - 27J`. -/
theorem C96_cover (g : G) (x y z : ℤ) (hD : g.disc ≠ 0) (h : QPoint g x y z) :
    NZ (cover g x y z) ∧ OnE (ijCurve g) (cover g x y z) := ⟨cover_nz hD h, cover_on h⟩

/-- `qc`: the point found is the image under the covering map of a point of the quartic (the given point with `y`
negated, if neither `a` nor `e` is a square), and the point returned is a valid point of `E` when `E` is obtained
by the change of coordinates `(u,r,s,t)`.  Missing: the case in which `e` is a square, `a` is not and `z0 ≠ ±1`, in
which the code is wrong (`C96_e_square`). -/
theorem C96_qc_partial (g : G) (x0 y0 z0 : ℤ) (hD : g.disc ≠ 0) (h : QPoint g x0 y0 z0)
    (hz : IsSquare g.a ∨ ¬ IsSquare g.e ∨ z0 ^ 2 = 1) (E : Cv) (u r s t : ℤ) (hu : u ≠ 0)
    (h1 : u * E.a1 = 2 * s) (h2 : u ^ 2 * E.a2 = 3 * r - s ^ 2) (h3 : u ^ 3 * E.a3 = 2 * t)
    (h4 : u ^ 4 * E.a4 = -27 * g.II + 3 * r ^ 2 - 2 * s * t)
    (h6 : u ^ 6 * E.a6 = -27 * g.JJ + r * (-27 * g.II) + r ^ 3 - t ^ 2) :
    (∃ x y z, QPoint g x y z ∧ Same (qc g x0 y0 z0 u r s t).1 (cover g x y z) ∧
      (¬ IsSquare g.a → ¬ IsSquare g.e → x = x0 ∧ y = -y0 ∧ z = z0)) ∧
    (qc g x0 y0 z0 u r s t).1.isvalid (ijCurve g) = true ∧
    (qc g x0 y0 z0 u r s t).2.isvalid E = true ∧
    ((qc g x0 y0 z0 u r s t).2.transform u r s t true).eq (qc g x0 y0 z0 u r s t).1 = true := by
  obtain ⟨k1, k2⟩ := qcPoint_spec hD h hz
  have nz : NZ (qc g x0 y0 z0 u r s t).1 := k2.symm.nz (cover_nz hD k1)
  have v : (qc g x0 y0 z0 u r s t).1.isvalid (ijCurve g) = true :=
    (P2.isvalid_iff _ _).mpr ⟨nz, (OnE.same k2).mpr (cover_on k1)⟩
  refine ⟨⟨_, _, _, k1, k2, fun n1 n2 => ?_⟩, v, ?_, ?_⟩
  · unfold qcSource
    rw [if_neg (fun h => n1 ⟨_, Marith.isqrt_sound _ h⟩), if_neg (fun h => n2 ⟨_, Marith.isqrt_sound _ h⟩)]
    exact ⟨rfl, rfl, rfl⟩
  · refine ((Props.C35_on_curve (ijCurve g) E _ nz u r s t hu ?_ ?_ ?_ ?_ ?_).1).mp v <;> simp only [ijCurve]
    · linear_combination h1
    · linear_combination h2
    · linear_combination h3
    · linear_combination h4
    · linear_combination h6
  · exact (Props.C35_transform _ nz u r s t hu).1

/-- `5x⁴ + 2x³z + z⁴` at `(1 : 5 : 2)`: `e = 1` is a square, `a = 5` is not; the point found is not on the curve. -/
theorem C96_e_square :
    QPoint ⟨5, 2, 0, 0, 1⟩ 1 5 2 ∧ (⟨5, 2, 0, 0, 1⟩ : G).disc ≠ 0 ∧
    (qc ⟨5, 2, 0, 0, 1⟩ 1 5 2 1 0 0 0).1.isvalid (ijCurve ⟨5, 2, 0, 0, 1⟩) = false :=
  ⟨⟨by norm_num, by norm_num⟩, by decide, by decide +kernel⟩

/-- `2x⁴ + x²z² + 6z⁴` at `(1 : 3 : 1)`, the point of `Y² = X³ - 27IX - 27J` moved by `(u,r,s,t) = (1,0,0,0)` -/
example : QPoint ⟨2, 0, 1, 0, 6⟩ 1 3 1 ∧ (⟨2, 0, 1, 0, 6⟩ : G).disc ≠ 0 ∧ ¬ IsSquare (2 : ℤ) ∧
    (qc ⟨2, 0, 1, 0, 6⟩ 1 3 1 1 0 0 0).2.isvalid ⟨0, 0, 0, -27 * 145, -27 * 862⟩ = true :=
  ⟨⟨by norm_num, by norm_num⟩, by decide, by
    rintro ⟨k, hk⟩
    have a : k < 2 := by nlinarith
    have b : -2 < k := by nlinarith
    interval_cases k <;> omega, by decide +kernel⟩

end Eclib.Curve
