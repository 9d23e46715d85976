import Verif.Legendre.LocAlg
import Verif.Legendre.Desc2Alg
import Verif.Local.HilbertGlobal
import Verif.Local.LocallySoluble

/-!
# Solubility at all places
-/

namespace Eclib.Desc2

open Legendre (CSol CParam)
open Forms (Q G SU)
open Forms.Spec (quad quart act)

/-- a property of fields holds for the real numbers and for the `p`-adic numbers, for all primes `p` -/
def Ev (P : (K : Type) → [Field K] → Prop) : Prop := P ℝ ∧ ∀ (p : ℕ) (hp : p.Prime), haveI : Fact p.Prime := ⟨hp⟩; P ℚ_[p]

theorem Ev.imp {P P' : (K : Type) → [Field K] → Prop} (h : ∀ (K : Type) [Field K] [CharZero K], P K → P' K) (hP : Ev P) :
    Ev P' := ⟨h ℝ hP.1, fun p hp => haveI : Fact p.Prime := ⟨hp⟩; h ℚ_[p] (hP.2 p hp)⟩

theorem Ev.imp2 {P P' P'' : (K : Type) → [Field K] → Prop} (h : ∀ (K : Type) [Field K] [CharZero K], P K → P' K → P'' K)
    (hP : Ev P) (hP' : Ev P') : Ev P'' :=
  ⟨h ℝ hP.1 hP'.1, fun p hp => haveI : Fact p.Prime := ⟨hp⟩; h ℚ_[p] (hP.2 p hp) (hP'.2 p hp)⟩

/-- a point of the quartic `y² = g(x,z)` over a field -/
def KPoint (g : G) (K : Type) [Field K] : Prop := ∃ x y z : K, ¬(x = 0 ∧ z = 0) ∧
  y ^ 2 = g.a * x ^ 4 + g.b * x ^ 3 * z + g.c * x ^ 2 * z ^ 2 + g.d * x * z ^ 3 + g.e * z ^ 4

/-- a point of the conic `q(s,t) = d u²` over a field -/
def KConic (q : Q) (d : ℤ) (K : Type) [Field K] : Prop := ∃ s t u : K, ¬(s = 0 ∧ t = 0) ∧ qv (q.a : K) q.b q.c s t = d * u ^ 2

/-- `d3` is the class of a point over a field -/
def KClass (q1 q3 : Q) (d3 : ℤ) (K : Type) [Field K] : Prop := Cls (q1.a : K) q1.b q1.c q3.a q3.b q3.c d3

/-- `d3` is the class of a point over the real numbers and over all the `p`-adic numbers -/
def LocClass (q1 q3 : Q) (d3 : ℤ) : Prop := Ev (KClass q1 q3 d3)

theorem LocClass.conic1 {q1 q3 : Q} {d3 : ℤ} (h : LocClass q1 q3 d3) : Ev (KConic q1 d3) :=
  Ev.imp (fun _ _ _ ⟨s, t, u, _, h0, h1, _⟩ => ⟨s, t, u, h0, h1⟩) h

theorem LocClass.conic3 {q1 q3 : Q} {d3 : ℤ} (h : LocClass q1 q3 d3) : Ev (KConic q3 d3) :=
  Ev.imp (fun _ _ _ ⟨s, t, _, v, h0, _, h1⟩ => ⟨s, t, v, h0, h1⟩) h

theorem conic_sol {q : Q} {d : ℤ} (ha : q.a ≠ 0) {K : Type} [Field K] [CharZero K] (h : KConic q d K) :
    ∃ x y z : K, ¬(x = 0 ∧ y = 0 ∧ z = 0) ∧ ((q.a * d : ℤ) : K) * x ^ 2 + ((q.b * q.b - 4 * q.a * q.c : ℤ) : K) * y ^ 2 = z ^ 2 := by
  obtain ⟨s, t, u, h0, h1⟩ := h
  have ha' : (q.a : K) ≠ 0 := by exact_mod_cast ha
  refine ⟨2 * u, t, 2 * q.a * s + q.b * t, ?_, ?_⟩
  · rintro ⟨-, h2, h3⟩
    rw [h2, mul_zero, add_zero] at h3
    exact h0 ⟨(mul_eq_zero.mp h3).resolve_left (mul_ne_zero two_ne_zero ha'), h2⟩
  · simp only [qv] at h1
    push_cast
    linear_combination (-4 * (q.a : K)) * h1

theorem conic_everywhere {q : Q} {d : ℤ} (ha : q.a ≠ 0) (h : Ev (KConic q d)) :
    Local.Everywhere (q.a * d) (q.b * q.b - 4 * q.a * q.c) :=
  ⟨conic_sol ha h.1, fun p hp => haveI : Fact p.Prime := ⟨hp⟩; conic_sol ha (h.2 p hp)⟩

/-- the theorem of Hasse for these conics -/
theorem conic_hasse {q : Q} {d : ℤ} (ha : q.a ≠ 0) (hd : d ≠ 0) (hD : q.b ^ 2 - 4 * q.a * q.c ≠ 0) (h : Ev (KConic q d)) :
    ∃ s u t : ℤ, CSol q.a q.b q.c d s u t := by
  obtain ⟨x, y, z, h0, h1⟩ := Local.legendre_thm _ _ (mul_ne_zero ha hd) (by rw [← sq]; exact hD) (conic_everywhere ha h)
  refine ⟨z - q.b * y, q.a * x, 2 * q.a * y, ?_, ?_⟩
  · linear_combination (-q.a) * h1
  · rintro ⟨e1, e2, e3⟩
    have hx := (mul_eq_zero.1 e2).resolve_left ha
    have hy := (mul_eq_zero.1 e3).resolve_left (mul_ne_zero two_ne_zero ha)
    refine h0 ⟨hx, hy, ?_⟩
    rw [hy] at e1
    linear_combination e1

/-- the parametrization of `a x² + b x z + c z² = d y²`, over a field -/
theorem kpar {a b c d : ℤ} {qx qy qz : Q} (h : CParam a b c d qx qy qz) (K : Type) [Field K] [CharZero K] :
    KPar (d * a : K) (d * b) (d * c) qx.a qx.b qx.c (d * qy.a) (d * qy.b) (d * qy.c) qz.a qz.b qz.c := by
  have hx := h.dx
  have hy := h.dy
  have hz := h.dz
  have hb := h.bxz
  simp only [Q.disc] at hx hy hz
  have i1 := h.ident 1 0
  have i2 := h.ident 0 1
  have i3 := h.ident 1 1
  have i4 := h.ident 1 (-1)
  have i5 := h.ident 2 1
  simp only [quad] at i1 i2 i3 i4 i5
  have e0 : a * qx.a ^ 2 + b * qx.a * qz.a + c * qz.a ^ 2 = d * qy.a ^ 2 := by linear_combination i1
  have e4 : a * qx.c ^ 2 + b * qx.c * qz.c + c * qz.c ^ 2 = d * qy.c ^ 2 := by linear_combination i2
  have e2 : a * (qx.b ^ 2 + 2 * qx.a * qx.c) + b * (qx.b * qz.b + qx.a * qz.c + qx.c * qz.a) + c * (qz.b ^ 2 + 2 * qz.a * qz.c) =
      d * (qy.b ^ 2 + 2 * qy.a * qy.c) := by
    apply mul_left_cancel₀ (show (2 : ℤ) ≠ 0 by norm_num)
    linear_combination i3 + i4 - 2 * e0 - 2 * e4
  have e1 : 2 * a * qx.a * qx.b + b * (qx.a * qz.b + qx.b * qz.a) + 2 * c * qz.a * qz.b = d * (2 * qy.a * qy.b) := by
    apply mul_left_cancel₀ (show (6 : ℤ) ≠ 0 by norm_num)
    linear_combination i5 - 16 * e0 - 4 * e2 - e4 - i3 + i4
  have e3 : 2 * a * qx.b * qx.c + b * (qx.b * qz.c + qx.c * qz.b) + 2 * c * qz.b * qz.c = d * (2 * qy.b * qy.c) := by
    linear_combination i3 - e0 - e1 - e2 - e4
  have ek : 2 * a * qx.a * qx.c + b * (qx.a * qz.c + qx.c * qz.a) + 2 * c * qz.a * qz.c - 2 * d * qy.a * qy.c = d * (b ^ 2 - 4 * a * c) := by
    apply mul_left_cancel₀ (show (3 : ℤ) ≠ 0 by norm_num)
    linear_combination e2 - a * hx - b * hb - c * hz + d * hy
  have c0 := congrArg (Int.cast : ℤ → K) e0
  have c1 := congrArg (Int.cast : ℤ → K) e1
  have c2 := congrArg (Int.cast : ℤ → K) e2
  have c3 := congrArg (Int.cast : ℤ → K) e3
  have c4 := congrArg (Int.cast : ℤ → K) e4
  have ck := congrArg (Int.cast : ℤ → K) ek
  push_cast at c0 c1 c2 c3 c4 ck
  exact ⟨by linear_combination (d : K) * c0, by linear_combination (d : K) * c1, by linear_combination (d : K) * c2,
    by linear_combination (d : K) * c3, by linear_combination (d : K) * c4, by linear_combination (d : K) * ck⟩

/-- … and of `d1 x² + c x z + d2 z² = y²` -/
theorem kpar1 {c d1 d2 : ℤ} {q1 q2 q3 : Q} (h : CParam d1 c d2 1 q1 q2 q3) (K : Type) [Field K] [CharZero K] :
    KPar (d1 : K) c d2 q1.a q1.b q1.c q2.a q2.b q2.c q3.a q3.b q3.c := by
  simpa using kpar h K

/-- a class gives a point of the descendent quartic -/
theorem point_quarticOf {q1 q3 Q1 Q2 Q3 : Q} {d3 : ℤ} (H : CParam q1.a q1.b q1.c d3 Q1 Q2 Q3) (h3 : d3 ≠ 0)
    (hD : q1.b ^ 2 - 4 * q1.a * q1.c ≠ 0) {K : Type} [Field K] [CharZero K] (hc : KClass q1 q3 d3 K) :
    KPoint (quarticOf q3 Q1 Q3 d3) K := by
  obtain ⟨s, t, u, v, hst, hu, hv⟩ := hc
  have h3' : (d3 : K) ≠ 0 := by exact_mod_cast h3
  have hD' : (q1.b : K) ^ 2 - 4 * q1.a * q1.c ≠ 0 := by exact_mod_cast hD
  obtain ⟨X, Z, k, n0, k0, k1, -, k3⟩ := (kpar H K).surj two_ne_zero (X := s) (Y := d3 * u) (Z := t)
    (fun h0 => mul_ne_zero (pow_ne_zero 2 h3') hD' (by linear_combination h0))
    (by simp only [qv] at hu; linear_combination (d3 : K) * hu) (fun h0 => hst ⟨h0.1, h0.2.2⟩)
  refine ⟨X, d3 * k * v, Z, n0, ?_⟩
  have e : (d3 * qv (q3.a : K) q3.b q3.c (qv (Q1.a : K) Q1.b Q1.c X Z) (qv (Q3.a : K) Q3.b Q3.c X Z) : K) =
      (quarticOf q3 Q1 Q3 d3).a * X ^ 4 + (quarticOf q3 Q1 Q3 d3).b * X ^ 3 * Z + (quarticOf q3 Q1 Q3 d3).c * X ^ 2 * Z ^ 2 +
        (quarticOf q3 Q1 Q3 d3).d * X * Z ^ 3 + (quarticOf q3 Q1 Q3 d3).e * Z ^ 4 := by
    simp only [quarticOf, qv, Q.eval]
    push_cast
    ring
  rw [← e, k1, k3]
  simp only [qv] at hv ⊢
  linear_combination (-(d3 : K) * k ^ 2) * hv

/-- a common factor that is a square -/
theorem KPoint.of_smul {g g' : G} {k : ℤ} (hk : k ≠ 0) (h : ∀ X Z, k ^ 2 * g.fn X Z = g'.fn X Z) {K : Type} [Field K] [CharZero K]
    (hp : KPoint g' K) : KPoint g K := by
  have e : g.smul (k ^ 2) = g' := by
    apply G.ext_fn
    funext X Z
    rw [G.fn_smul]
    exact h X Z
  obtain ⟨x, y, z, h0, h1⟩ := hp
  have hk' : (k : K) ≠ 0 := by exact_mod_cast hk
  refine ⟨x, y / k, z, h0, ?_⟩
  rw [← e] at h1
  simp only [G.smul] at h1
  push_cast at h1
  rw [div_pow, h1]
  field_simp

/-- the transform of a quartic -/
theorem KPoint.of_tr {g0 g : G} {m : SU} (hu : m.m00 ≠ 0) (hdet : m.m11 * m.m22 - m.m12 * m.m21 ≠ 0)
    (h : ∀ X Z, m.m00 ^ 2 * quart g.a g.b g.c g.d g.e X Z =
      quart g0.a g0.b g0.c g0.d g0.e (m.m11 * X + m.m12 * Z) (m.m21 * X + m.m22 * Z)) {K : Type} [Field K] [CharZero K]
    (hp : KPoint g0 K) : KPoint g K := by
  have e : g.smul (m.m00 ^ 2) = g0.apply m.toU := by
    apply G.ext_fn
    rw [Forms.Props.C25_apply_transform]
    funext X Z
    rw [G.fn_smul]
    simp only [G.fn, act, Forms.U.toM]
    simpa using h X Z
  obtain ⟨x, y, z, h0, h1⟩ := hp
  have hu' : (m.m00 : K) ≠ 0 := by exact_mod_cast hu
  have hd' : (m.m11 * m.m22 - m.m12 * m.m21 : K) ≠ 0 := by exact_mod_cast hdet
  have ca := congrArg (fun g : G => (g.a : K)) e
  have cb := congrArg (fun g : G => (g.b : K)) e
  have cc := congrArg (fun g : G => (g.c : K)) e
  have cd := congrArg (fun g : G => (g.d : K)) e
  have ce := congrArg (fun g : G => (g.e : K)) e
  simp only [G.smul, G.apply] at ca cb cc cd ce
  push_cast at ca cb cc cd ce
  refine ⟨m.m22 * x - m.m12 * z, (m.m11 * m.m22 - m.m12 * m.m21) ^ 2 * y / m.m00, m.m11 * z - m.m21 * x, ?_, ?_⟩
  · rintro ⟨n1, n2⟩
    refine h0 ⟨?_, ?_⟩
    · exact (mul_eq_zero.mp (show (m.m11 * m.m22 - m.m12 * m.m21 : K) * x = 0 by
        linear_combination (m.m11 : K) * n1 + m.m12 * n2)).resolve_left hd'
    · exact (mul_eq_zero.mp (show (m.m11 * m.m22 - m.m12 * m.m21 : K) * z = 0 by
        linear_combination (m.m22 : K) * n2 + m.m21 * n1)).resolve_left hd'
  · rw [div_pow, mul_pow, h1, div_eq_iff (pow_ne_zero 2 hu')]
    linear_combination (-(m.m22 * x - m.m12 * z : K) ^ 4) * ca - (m.m22 * x - m.m12 * z : K) ^ 3 * (m.m11 * z - m.m21 * x) * cb -
      (m.m22 * x - m.m12 * z : K) ^ 2 * (m.m11 * z - m.m21 * x) ^ 2 * cc -
      (m.m22 * x - m.m12 * z : K) * (m.m11 * z - m.m21 * x) ^ 3 * cd - (m.m11 * z - m.m21 * x : K) ^ 4 * ce

end Eclib.Desc2
