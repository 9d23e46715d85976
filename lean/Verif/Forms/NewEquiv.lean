import Verif.Forms.NewEquivModel
import Mathlib.Tactic.LinearCombination
import Mathlib.Tactic.FieldSimp
import Mathlib.Tactic.Positivity
import Mathlib.Data.Rat.Defs
import Mathlib.Algebra.Order.Field.Rat
import Mathlib.RingTheory.AdjoinRoot
import Mathlib.RingTheory.Polynomial.RationalRoot
import Mathlib.Algebra.Polynomial.SpecificDegree

/-!
# The equivalence test for quartics: the algebra

For a root `φ` of `x³ - 3Ix + J` the covariant `(4φg + g₄)/3` of the quartic `g` is the square of a quadratic form
divided by `z = (4aφ + p)/3`.  Two quartics with the same invariants are equivalent exactly if the product of their
`z` is a square in the algebra generated by `φ`; the polynomial of `new_equiv` has the traces of the square roots as roots.
-/

namespace Eclib.Forms.NewEquiv

open Polynomial

/-! ## Quartics over a field -/

/-- a quartic over `K` -/
@[ext] structure QK (K : Type*) where
  a : K
  b : K
  c : K
  d : K
  e : K

section defs
variable {K : Type*} [CommRing K]

/-- value -/
def QK.ev (g : QK K) (x y : K) : K :=
  g.a * x ^ 4 + g.b * x ^ 3 * y + g.c * x ^ 2 * y ^ 2 + g.d * x * y ^ 3 + g.e * y ^ 4

/-- invariant -/
def QK.I (g : QK K) : K := 12 * g.a * g.e - 3 * g.b * g.d + g.c ^ 2
/-- invariant -/
def QK.J (g : QK K) : K :=
  (72 * g.a * g.e + 9 * g.b * g.d - 2 * g.c ^ 2) * g.c - 27 * (g.a * g.d ^ 2 + g.b ^ 2 * g.e)
/-- seminvariant -/
def QK.p (g : QK K) : K := 3 * g.b ^ 2 - 8 * g.a * g.c
/-- seminvariant -/
def QK.r (g : QK K) : K := g.b ^ 3 + 8 * g.d * g.a ^ 2 - 4 * g.a * g.b * g.c

/-- covariant with leading coefficient `p` -/
def QK.g4 (g : QK K) (x y : K) : K :=
  (3 * g.b ^ 2 - 8 * g.a * g.c) * x ^ 4 + 4 * (g.b * g.c - 6 * g.a * g.d) * x ^ 3 * y
    + 2 * (2 * g.c ^ 2 - 24 * g.a * g.e - 3 * g.b * g.d) * x ^ 2 * y ^ 2 + 4 * (g.c * g.d - 6 * g.b * g.e) * x * y ^ 3
    + (3 * g.d ^ 2 - 8 * g.c * g.e) * y ^ 4

/-- covariant with leading coefficient `r` -/
def QK.g6 (g : QK K) (x y : K) : K :=
  (g.b ^ 3 + 8 * g.a ^ 2 * g.d - 4 * g.a * g.b * g.c) * x ^ 6
    + 2 * (16 * g.a ^ 2 * g.e + 2 * g.a * g.b * g.d - 4 * g.a * g.c ^ 2 + g.b ^ 2 * g.c) * x ^ 5 * y
    + 5 * (8 * g.a * g.b * g.e + g.b ^ 2 * g.d - 4 * g.a * g.c * g.d) * x ^ 4 * y ^ 2
    + 20 * (g.b ^ 2 * g.e - g.a * g.d ^ 2) * x ^ 3 * y ^ 3
    - 5 * (8 * g.a * g.d * g.e + g.b * g.d ^ 2 - 4 * g.b * g.c * g.e) * x ^ 2 * y ^ 4
    - 2 * (16 * g.a * g.e ^ 2 + 2 * g.b * g.d * g.e - 4 * g.c ^ 2 * g.e + g.c * g.d ^ 2) * x * y ^ 5
    - (g.d ^ 3 + 8 * g.b * g.e ^ 2 - 4 * g.c * g.d * g.e) * y ^ 6

/-- `l g(αX+βZ, γX+δZ)` -/
def QK.tr (g : QK K) (l α β γ δ : K) : QK K where
  a := l * (g.a * α ^ 4 + g.b * α ^ 3 * γ + g.c * α ^ 2 * γ ^ 2 + g.d * α * γ ^ 3 + g.e * γ ^ 4)
  b := l * (4 * g.a * α ^ 3 * β + g.b * (α ^ 3 * δ + 3 * α ^ 2 * β * γ) + g.c * (2 * α ^ 2 * γ * δ + 2 * α * β * γ ^ 2)
    + g.d * (3 * α * γ ^ 2 * δ + β * γ ^ 3) + 4 * g.e * γ ^ 3 * δ)
  c := l * (6 * g.a * α ^ 2 * β ^ 2 + g.b * (3 * α ^ 2 * β * δ + 3 * α * β ^ 2 * γ)
    + g.c * (α ^ 2 * δ ^ 2 + 4 * α * β * γ * δ + β ^ 2 * γ ^ 2) + g.d * (3 * α * γ * δ ^ 2 + 3 * β * γ ^ 2 * δ)
    + 6 * g.e * γ ^ 2 * δ ^ 2)
  d := l * (4 * g.a * α * β ^ 3 + g.b * (3 * α * β ^ 2 * δ + β ^ 3 * γ) + g.c * (2 * α * β * δ ^ 2 + 2 * β ^ 2 * γ * δ)
    + g.d * (α * δ ^ 3 + 3 * β * γ * δ ^ 2) + 4 * g.e * γ * δ ^ 3)
  e := l * (g.a * β ^ 4 + g.b * β ^ 3 * δ + g.c * β ^ 2 * δ ^ 2 + g.d * β * δ ^ 3 + g.e * δ ^ 4)

variable (g : QK K)

theorem QK.tr_ev (l α β γ δ x y : K) :
    (g.tr l α β γ δ).ev x y = l * g.ev (α * x + β * y) (γ * x + δ * y) := by
  simp only [QK.ev, QK.tr]; ring

theorem QK.tr_I (l α β γ δ : K) : (g.tr l α β γ δ).I = l ^ 2 * (α * δ - β * γ) ^ 4 * g.I := by
  simp only [QK.I, QK.tr]; ring

theorem QK.tr_J (l α β γ δ : K) : (g.tr l α β γ δ).J = l ^ 3 * (α * δ - β * γ) ^ 6 * g.J := by
  simp only [QK.J, QK.tr]; ring

theorem QK.tr_p (l α β γ δ : K) : (g.tr l α β γ δ).p = l ^ 2 * (α * δ - β * γ) ^ 2 * g.g4 α γ := by
  simp only [QK.p, QK.g4, QK.tr]; ring

theorem QK.tr_r (l α β γ δ : K) : (g.tr l α β γ δ).r = l ^ 3 * (α * δ - β * γ) ^ 3 * g.g6 α γ := by
  simp only [QK.r, QK.g6, QK.tr]; ring

theorem QK.syzygy : 27 * g.r ^ 2 = g.p ^ 3 - 48 * g.a ^ 2 * g.I * g.p - 64 * g.a ^ 3 * g.J := by
  simp only [QK.r, QK.p, QK.I, QK.J]; ring

/-- the trace of the square root of the product of the two `z` -/
def QK.T (g : QK K) (x y : K) : K :=
  3 * g.b ^ 2 * x ^ 2 + 2 * g.b * g.c * x * y - 12 * g.a * g.d * x * y + g.b * g.d * y ^ 2 - 8 * g.a * g.c * x ^ 2
    - 16 * g.a * g.e * y ^ 2

/-- the polynomial of `new_equiv` vanishes at the trace -/
theorem QK.T_root (x y : K) :
    27 * g.T x y ^ 4 - 18 * (32 * g.a * g.ev x y * g.I + g.p * g.g4 x y) * g.T x y ^ 2
      - 27 * 8 * (g.r * g.g6 x y) * g.T x y
      + (-256 * g.J * g.a * g.ev x y * (g.a * g.g4 x y + g.ev x y * g.p)
        + 64 * g.I * (g.p ^ 2 * g.ev x y ^ 2 + g.g4 x y ^ 2 * g.a ^ 2 + g.p * g.g4 x y * (g.a * g.ev x y))
        - g.p ^ 2 * g.g4 x y ^ 2) = 0 := by
  simp only [QK.T, QK.ev, QK.I, QK.J, QK.p, QK.r, QK.g4, QK.g6]; ring

end defs

/-! ## Equivalent quartics: the polynomial has a root -/

/-- the polynomial of `new_equiv` times 27, with rational coefficients -/
def upol (g1 g2 : QK ℚ) (u : ℚ) : ℚ :=
  27 * u ^ 4 - 18 * (32 * g1.a * g2.a * g1.I + g1.p * g2.p) * u ^ 2 - 27 * 8 * (g1.r * g2.r) * u
    + (-256 * g1.J * g1.a * g2.a * (g1.a * g2.p + g2.a * g1.p)
      + 64 * g1.I * (g1.p ^ 2 * g2.a ^ 2 + g2.p ^ 2 * g1.a ^ 2 + g1.p * g2.p * (g1.a * g2.a)) - g1.p ^ 2 * g2.p ^ 2)

theorem root_of_equiv (g1 : QK ℚ) {μ α β γ δ : ℚ} (h : (μ * (α * δ - β * γ)) ^ 2 = 1) :
    ∃ u, upol g1 (g1.tr (μ ^ 2) α β γ δ) u = 0 := by
  have hT := g1.T_root α γ
  have h' := h
  have ha : (g1.tr (μ ^ 2) α β γ δ).a = μ ^ 2 * g1.ev α γ := by simp only [QK.tr, QK.ev]
  have hp : (g1.tr (μ ^ 2) α β γ δ).p = μ ^ 2 * g1.g4 α γ := by
    rw [QK.tr_p]
    linear_combination (μ ^ 2 * g1.g4 α γ) * h
  rw [sq, mul_self_eq_one_iff] at h'
  rcases h' with h1 | h1
  · have hr : (g1.tr (μ ^ 2) α β γ δ).r = μ ^ 3 * g1.g6 α γ := by
      rw [QK.tr_r, show (μ ^ 2) ^ 3 * (α * δ - β * γ) ^ 3 = μ ^ 3 * (μ * (α * δ - β * γ)) ^ 3 by ring, h1]; ring
    refine ⟨μ * g1.T α γ, ?_⟩
    unfold upol
    rw [ha, hp, hr]
    linear_combination μ ^ 4 * hT
  · have hr : (g1.tr (μ ^ 2) α β γ δ).r = -(μ ^ 3 * g1.g6 α γ) := by
      rw [QK.tr_r, show (μ ^ 2) ^ 3 * (α * δ - β * γ) ^ 3 = μ ^ 3 * (μ * (α * δ - β * γ)) ^ 3 by ring, h1]; ring
    refine ⟨-(μ * g1.T α γ), ?_⟩
    unfold upol
    rw [ha, hp, hr]
    linear_combination μ ^ 4 * hT

/-! ## A root: the quartics are equivalent -/

/-- two quartics with the same `a ≠ 0`, `p`, `r`, `I` differ by a translation -/
theorem translate {h g : QK ℚ} (ha : g.a = h.a) (h0 : h.a ≠ 0) (hp : g.p = h.p) (hr : g.r = h.r) (hI : g.I = h.I) :
    ∃ t, g = h.tr 1 1 t 0 1 := by
  obtain ⟨a, b, c, d, e⟩ := g
  obtain ⟨a', b', c', d', e'⟩ := h
  simp only at ha h0
  subst ha
  simp only [QK.p, QK.r, QK.I] at hp hr hI
  obtain ⟨t, rfl⟩ : ∃ t, b = b' + 4 * a * t := ⟨(b - b') / (4 * a), by field_simp; ring⟩
  have hc : c = c' + 3 * b' * t + 6 * a * t ^ 2 := by
    have : (8 * a) * (c - (c' + 3 * b' * t + 6 * a * t ^ 2)) = 0 := by linear_combination -hp
    rcases mul_eq_zero.1 this with h | h
    · exact absurd h (by simpa using h0)
    · linarith
  subst hc
  have hd : d = d' + 2 * c' * t + 3 * b' * t ^ 2 + 4 * a * t ^ 3 := by
    have : (8 * a ^ 2) * (d - (d' + 2 * c' * t + 3 * b' * t ^ 2 + 4 * a * t ^ 3)) = 0 := by linear_combination hr
    rcases mul_eq_zero.1 this with h | h
    · exact absurd h (by simpa using h0)
    · linarith
  subst hd
  have he : e = e' + d' * t + c' * t ^ 2 + b' * t ^ 3 + a * t ^ 4 := by
    have : (12 * a) * (e - (e' + d' * t + c' * t ^ 2 + b' * t ^ 3 + a * t ^ 4)) = 0 := by linear_combination hI
    rcases mul_eq_zero.1 this with h | h
    · exact absurd h (by simpa using h0)
    · linarith
  subst he
  refine ⟨t, ?_⟩
  simp only [QK.tr, QK.mk.injEq]
  refine ⟨?_, ?_, ?_, ?_, ?_⟩ <;> ring

/-- from the coordinates of the first column to the transformation -/
theorem equiv_of_column {g1 g2 : QK ℚ} (hI : g1.I = g2.I) (hJ : g1.J = g2.J) (ha2 : g2.a ≠ 0) {l x y : ℚ}
    (hl : l ≠ 0) (hxy : x ≠ 0 ∨ y ≠ 0) (ha : g2.a = l ^ 2 * g1.ev x y) (hp : g2.p = l ^ 2 * g1.g4 x y) :
    ∃ α β γ δ : ℚ, α * δ - β * γ ≠ 0 ∧ g2 = g1.tr (l ^ 2) α β γ δ := by
  have hn : x ^ 2 + y ^ 2 ≠ 0 := by
    rcases hxy with h | h <;> positivity
  -- the quartic with determinant ε/l
  have key : ∀ ε : ℚ, ε ^ 2 = 1 → ∃ β δ : ℚ, x * δ - β * y = ε / l ∧
      (g1.tr (l ^ 2) x β y δ).a = g2.a ∧ (g1.tr (l ^ 2) x β y δ).p = g2.p ∧ (g1.tr (l ^ 2) x β y δ).I = g2.I ∧
      (g1.tr (l ^ 2) x β y δ).J = g2.J ∧ (g1.tr (l ^ 2) x β y δ).r = ε * (l ^ 3 * g1.g6 x y) := fun ε hε => by
    have hdet : x * (x * ε / (l * (x ^ 2 + y ^ 2))) - (-(y * ε / (l * (x ^ 2 + y ^ 2)))) * y = ε / l := by
      field_simp; ring
    have hl1 : l * (ε / l) = ε := by field_simp
    refine ⟨-(y * ε / (l * (x ^ 2 + y ^ 2))), x * ε / (l * (x ^ 2 + y ^ 2)), hdet, ?_, ?_, ?_, ?_, ?_⟩
    · rw [ha]; simp only [QK.tr, QK.ev]
    · rw [QK.tr_p, hdet, hp, show (l ^ 2) ^ 2 * (ε / l) ^ 2 = l ^ 2 * (l * (ε / l)) ^ 2 by ring, hl1, hε]; ring
    · rw [QK.tr_I, hdet, ← hI, show (l ^ 2) ^ 2 * (ε / l) ^ 4 = ((l * (ε / l)) ^ 2) ^ 2 by ring, hl1, hε]; ring
    · rw [QK.tr_J, hdet, ← hJ, show (l ^ 2) ^ 3 * (ε / l) ^ 6 = ((l * (ε / l)) ^ 2) ^ 3 by ring, hl1, hε]; ring
    · rw [QK.tr_r, hdet, show (l ^ 2) ^ 3 * (ε / l) ^ 3 = l ^ 3 * ((l * (ε / l)) ^ 2 * (l * (ε / l))) by ring, hl1, hε]
      ring
  -- the sign
  obtain ⟨ε, hε, hr⟩ : ∃ ε : ℚ, ε ^ 2 = 1 ∧ g2.r = ε * (l ^ 3 * g1.g6 x y) := by
    obtain ⟨β, δ, -, k1, k2, k3, k4, k5⟩ := key 1 (by norm_num)
    have s1 := (g1.tr (l ^ 2) x β y δ).syzygy
    have s2 := g2.syzygy
    rw [k1, k2, k3, k4, ← s2, k5] at s1
    have : (g2.r - l ^ 3 * g1.g6 x y) * (g2.r + l ^ 3 * g1.g6 x y) = 0 := by linear_combination -s1 / 27
    rcases mul_eq_zero.1 this with h | h
    · exact ⟨1, by norm_num, by linarith⟩
    · exact ⟨-1, by norm_num, by linarith⟩
  obtain ⟨β, δ, hdet, k1, k2, k3, -, k5⟩ := key ε hε
  obtain ⟨t, ht⟩ := translate (h := g1.tr (l ^ 2) x β y δ) (g := g2) k1.symm (by rw [k1]; exact ha2) k2.symm
    (by rw [k5, hr]) k3.symm
  refine ⟨x, x * t + β, y, y * t + δ, ?_, ?_⟩
  · rw [show x * (y * t + δ) - (x * t + β) * y = x * δ - β * y by ring, hdet]
    refine div_ne_zero ?_ hl
    rintro rfl
    norm_num at hε
  · rw [ht]
    simp only [QK.tr, QK.mk.injEq]
    refine ⟨?_, ?_, ?_, ?_, ?_⟩ <;> ring

/-- the argument in the field generated by `ψ`, where `φ = 3ψ + 2c` -/
theorem column_of_root {K : Type*} [Field K] [CharZero K] {g1 g2 : QK ℚ} {ψ : K}
    (hψ : ψ ^ 3 + 2 * g1.c * ψ ^ 2 + (g1.c ^ 2 + g1.b * g1.d - 4 * g1.a * g1.e) * ψ
      + (g1.b * g1.c * g1.d - g1.a * g1.d ^ 2 - g1.e * g1.b ^ 2) = 0)
    (ind : ∀ x0 x1 x2 : ℚ, (x0 : K) + x1 * ψ + x2 * ψ ^ 2 = 0 → x0 = 0 ∧ x1 = 0 ∧ x2 = 0)
    (span : ∀ w : K, ∃ x0 x1 x2 : ℚ, w = x0 + x1 * ψ + x2 * ψ ^ 2)
    (hI : g1.I = g2.I) (hJ : g1.J = g2.J) (ha1 : g1.a ≠ 0) (ha2 : g2.a ≠ 0) (hr1 : g1.r ≠ 0) {u : ℚ}
    (hu : upol g1 g2 u = 0) :
    ∃ l x y : ℚ, l ≠ 0 ∧ (x ≠ 0 ∨ y ≠ 0) ∧ g2.a = l ^ 2 * g1.ev x y ∧ g2.p = l ^ 2 * g1.g4 x y := by
  have s1 := g1.syzygy
  have s2 := g2.syzygy
  rw [← hI, ← hJ] at s2
  have eI : g1.I = 12 * g1.a * g1.e - 3 * g1.b * g1.d + g1.c ^ 2 := rfl
  have eJ : g1.J = (72 * g1.a * g1.e + 9 * g1.b * g1.d - 2 * g1.c ^ 2) * g1.c -
    27 * (g1.a * g1.d ^ 2 + g1.b ^ 2 * g1.e) := rfl
  have ep : g1.p = 3 * g1.b ^ 2 - 8 * g1.a * g1.c := rfl
  have er : g1.r = g1.b ^ 3 + 8 * g1.d * g1.a ^ 2 - 4 * g1.a * g1.b * g1.c := rfl
  have eev : ∀ x y, g1.ev x y = g1.a * x ^ 4 + g1.b * x ^ 3 * y + g1.c * x ^ 2 * y ^ 2 + g1.d * x * y ^ 3 +
    g1.e * y ^ 4 := fun _ _ => rfl
  have eg4 : ∀ x y, g1.g4 x y = (3 * g1.b ^ 2 - 8 * g1.a * g1.c) * x ^ 4 + 4 * (g1.b * g1.c - 6 * g1.a * g1.d) * x ^ 3 * y
    + 2 * (2 * g1.c ^ 2 - 24 * g1.a * g1.e - 3 * g1.b * g1.d) * x ^ 2 * y ^ 2
    + 4 * (g1.c * g1.d - 6 * g1.b * g1.e) * x * y ^ 3 + (3 * g1.d ^ 2 - 8 * g1.c * g1.e) * y ^ 4 := fun _ _ => rfl
  unfold upol at hu
  generalize g1.g4 = G4 at *
  generalize g1.ev = EV at *
  generalize g1.r = r1 at *
  generalize g2.r = r2 at *
  generalize g1.p = p1 at *
  generalize g2.p = p2 at *
  generalize g1.I = I at *
  generalize g1.J = J at *
  generalize g2.a = a2 at *
  clear hI hJ
  obtain ⟨a, b, c, d, e⟩ := g1
  simp only at *
  -- the elements of the field
  obtain ⟨φ, hφ⟩ : ∃ φ : K, φ = 3 * ψ + 2 * c := ⟨_, rfl⟩
  have hφ3 : φ ^ 3 - 3 * I * φ + J = 0 := by
    rw [hφ, eI, eJ]; push_cast
    linear_combination 27 * hψ
  obtain ⟨P, hP⟩ : ∃ P : ℚ, P = (32 * a * a2 * I + p1 * p2) / 3 := ⟨_, rfl⟩
  obtain ⟨S, hS⟩ : ∃ S : ℚ, S = (-256 * J * a * a2 * (a * p2 + a2 * p1)
      + 64 * I * (p1 ^ 2 * a2 ^ 2 + p2 ^ 2 * a ^ 2 + p1 * p2 * (a * a2)) - p1 ^ 2 * p2 ^ 2) / 27 := ⟨_, rfl⟩
  obtain ⟨z, hz⟩ : ∃ z : K, z = 4 * a * ψ + b ^ 2 := ⟨_, rfl⟩
  obtain ⟨z2, hz2⟩ : ∃ z2 : K, z2 = 4 * a2 * ψ + ((8 * a2 * c + p2) / 3 : ℚ) := ⟨_, rfl⟩
  have hzφ : z = (4 * a * φ + p1) / 3 := by rw [hz, hφ, ep]; push_cast; ring
  have hz2φ : z2 = (4 * a2 * φ + p2) / 3 := by rw [hz2, hφ]; push_cast; ring
  obtain ⟨W, hW⟩ : ∃ W : K, W = z * z2 := ⟨_, rfl⟩
  have s1' : (27 : K) * r1 ^ 2 = p1 ^ 3 - 48 * a ^ 2 * I * p1 - 64 * a ^ 3 * J := by exact_mod_cast s1
  have s2' : (27 : K) * r2 ^ 2 = p2 ^ 3 - 48 * a2 ^ 2 * I * p2 - 64 * a2 ^ 3 * J := by exact_mod_cast s2
  have hu' : (u : K) ^ 4 - 2 * P * u ^ 2 - 8 * (r1 * r2) * u + S = 0 := by
    have : u ^ 4 - 2 * P * u ^ 2 - 8 * (r1 * r2) * u + S = 0 := by
      rw [hP, hS]; linear_combination hu / 27
    exact_mod_cast this
  have hchar : W ^ 3 - P * W ^ 2 + (P ^ 2 - S) / 4 * W - (r1 * r2) ^ 2 = 0 := by
    have e1 : ((r1 : K) * r2) ^ 2 = (p1 ^ 3 - 48 * a ^ 2 * I * p1 - 64 * a ^ 3 * J) / 27 *
        ((p2 ^ 3 - 48 * a2 ^ 2 * I * p2 - 64 * a2 ^ 3 * J) / 27) := by
      rw [← s1', ← s2']; ring
    rw [e1, hW, hzφ, hz2φ, hP, hS]
    push_cast
    linear_combination ((4096/729)*a^3*a2^3*φ^3 + (1024/243)*a^3*a2^2*p2*φ^2 + (1024/243)*a^2*a2^3*p1*φ^2 + (512/243)*a^2*a2^2*p1*p2*φ + (256/243)*a^3*a2*p2^2*φ + (256/243)*a*a2^3*p1^2*φ + (-4096/243)*I*a^3*a2^3*φ + (64/243)*a^2*a2*p1*p2^2 + (64/243)*a*a2^2*p1^2*p2 + (64/729)*a^3*p2^3 + (64/729)*a2^3*p1^3 + (-1024/243)*I*a^3*a2^2*p2 + (-1024/243)*I*a^2*a2^3*p1 + (-4096/729)*J*a^3*a2^3 : K) * hφ3
  have hz0 : z ≠ 0 := fun h0 => by
    have := ind (b ^ 2) (4 * a) 0 (by push_cast; linear_combination h0 - hz)
    exact ha1 (by linarith [this.2.1])
  have hD : (u : K) ^ 2 - P + 2 * W ≠ 0 := fun h0 => by
    have := ind (u ^ 2 - P + 2 * (b ^ 2 * ((8 * a2 * c + p2) / 3)))
      (2 * (4 * a * ((8 * a2 * c + p2) / 3) + 4 * a2 * b ^ 2)) (32 * a * a2) (by
        rw [hW, hz, hz2] at h0; push_cast at h0 ⊢; linear_combination h0)
    have h3 := this.2.2
    rcases mul_eq_zero.1 h3 with h4 | h4
    · exact ha1 (by linarith)
    · exact ha2 h4
  obtain ⟨w, hw⟩ : ∃ w : K, w = 2 * (u * W + r1 * r2) / ((u : K) ^ 2 - P + 2 * W) := ⟨_, rfl⟩
  have hw2 : w ^ 2 = z * z2 := by
    rw [← hW, hw, div_pow, div_eq_iff (pow_ne_zero 2 hD)]
    linear_combination (-W) * hu' - 4 * hchar
  obtain ⟨w0, w1, w2, hw0⟩ := span w
  -- the coordinates
  obtain ⟨C, hC⟩ : ∃ C : ℚ, C = -w2 / 2 := ⟨_, rfl⟩
  obtain ⟨A, hA⟩ : ∃ A : ℚ, A = ((w1 + 2 * c * C) * (2 * (b * c - 2 * a * d)) - 2 * b * (w0 + b * d * C)) / (-2 * r1) :=
    ⟨_, rfl⟩
  obtain ⟨B, hB⟩ : ∃ B : ℚ, B = (4 * a * (w0 + b * d * C) - b ^ 2 * (w1 + 2 * c * C)) / (-2 * r1) := ⟨_, rfl⟩
  have hA' : A * (-2 * r1) = (w1 + 2 * c * C) * (2 * (b * c - 2 * a * d)) - 2 * b * (w0 + b * d * C) := by
    rw [hA]; exact div_mul_cancel₀ _ (by simpa using hr1)
  have hB' : B * (-2 * r1) = 4 * a * (w0 + b * d * C) - b ^ 2 * (w1 + 2 * c * C) := by
    rw [hB]; exact div_mul_cancel₀ _ (by simpa using hr1)
  have q0 : b ^ 2 * A + 2 * (b * c - 2 * a * d) * B - b * d * C = w0 := by
    refine mul_left_cancel₀ (show -2 * r1 ≠ 0 by simpa using hr1) ?_
    linear_combination b ^ 2 * hA' + 2 * (b * c - 2 * a * d) * hB' + (2 * b * d * C + 2 * w0) * er
  have q1 : 4 * a * A + 2 * b * B - 2 * c * C = w1 := by
    refine mul_left_cancel₀ (show -2 * r1 ≠ 0 by simpa using hr1) ?_
    linear_combination 4 * a * hA' + 2 * b * hB' + (4 * c * C + 2 * w1) * er
  have q2 : -2 * C = w2 := by rw [hC]; ring
  have hwl : w = z * A + 2 * (b * ψ + b * c - 2 * a * d) * B - (2 * ψ ^ 2 + 2 * c * ψ + b * d) * C := by
    rw [hw0, ← q0, ← q1, ← q2, hz]; push_cast; ring
  have hF : z * A ^ 2 + 4 * (b * ψ + b * c - 2 * a * d) * A * B - 2 * (2 * ψ ^ 2 + 2 * c * ψ + b * d) * A * C
      + 2 * ((2 * c * ψ + 2 * c ^ 2 - 8 * a * e - b * d) + (2 * ψ ^ 2 + 2 * c * ψ + b * d)) * B ^ 2
      + 4 * (d * ψ + c * d - 2 * b * e) * B * C + (4 * e * ψ + d ^ 2) * C ^ 2 = z2 := by
    refine mul_left_cancel₀ hz0 ?_
    rw [← hw2, hwl, hz]
    linear_combination -(4*C^2*ψ + (-8)*B*C*b + (-16)*B^2*a : K) * hψ
  have h3 := ind (b ^ 2 * A ^ 2 + 4 * (b * c - 2 * a * d) * A * B - 2 * b * d * A * C + (4 * c ^ 2 - 16 * a * e) * B ^ 2
      + 4 * (c * d - 2 * b * e) * B * C + d ^ 2 * C ^ 2 - (8 * a2 * c + p2) / 3)
    (4 * a * A ^ 2 + 4 * b * A * B - 4 * c * A * C + 8 * c * B ^ 2 + 4 * d * B * C + 4 * e * C ^ 2 - 4 * a2)
    (4 * B ^ 2 - 4 * A * C) (by
      have e2 := sub_eq_zero.2 hF
      rw [hz, hz2] at e2
      push_cast at e2 ⊢; linear_combination e2)
  obtain ⟨k0, k1, k2⟩ := h3
  have hAC : A * C = B ^ 2 := by linarith
  -- the column
  have fin : ∀ l x y : ℚ, A = l * x ^ 2 → B = l * (x * y) → C = l * y ^ 2 →
      a2 = l ^ 2 * EV x y ∧ p2 = l ^ 2 * G4 x y := fun l x y h1 h2 h3 => by
    rw [h1, h2, h3] at k0 k1
    have e1 : a2 = l ^ 2 * EV x y := by rw [eev]; linear_combination -k1 / 4
    refine ⟨e1, ?_⟩
    rw [eg4]
    rw [eev] at e1
    linear_combination -3 * k0 + 2 * c * k1
  by_cases hA0 : A = 0
  · have hB0 : B = 0 := by rw [hA0, zero_mul] at hAC; exact pow_eq_zero_iff two_ne_zero |>.1 hAC.symm
    have hC0 : C ≠ 0 := by
      rintro rfl
      rw [hA0, hB0] at k1
      exact ha2 (by linarith)
    exact ⟨C, 0, 1, hC0, .inr one_ne_zero, fin C 0 1 (by rw [hA0]; ring) (by rw [hB0]; ring) (by ring)⟩
  · refine ⟨A, 1, B / A, hA0, .inl one_ne_zero, fin A 1 (B / A) (by ring) (by field_simp) ?_⟩
    field_simp; linarith

end Eclib.Forms.NewEquiv
