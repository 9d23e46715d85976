import Verif.Forms.NewEquiv
import Mathlib.Tactic.IntervalCases

/-!
# C122: `new_equiv`
-/

namespace Eclib.Forms.NewEquiv

open Polynomial

/-! ## The cubic field -/

theorem cubic_field (b c d : ℚ) (hn : ∀ x : ℚ, x ^ 3 + b * x ^ 2 + c * x + d ≠ 0) :
    ∃ (K : Type) (_ : Field K) (_ : CharZero K) (ψ : K), ψ ^ 3 + b * ψ ^ 2 + c * ψ + d = 0 ∧
      (∀ x0 x1 x2 : ℚ, (x0 : K) + x1 * ψ + x2 * ψ ^ 2 = 0 → x0 = 0 ∧ x1 = 0 ∧ x2 = 0) ∧
      ∀ w : K, ∃ x0 x1 x2 : ℚ, w = x0 + x1 * ψ + x2 * ψ ^ 2 := by
  obtain ⟨f, hf⟩ : ∃ f : ℚ[X], f = Polynomial.C 1 * X ^ 3 + Polynomial.C b * X ^ 2 + Polynomial.C c * X + Polynomial.C d := ⟨_, rfl⟩
  have hdeg : f.natDegree = 3 := by rw [hf]; exact natDegree_cubic one_ne_zero
  have hmon : f.Monic := by rw [Monic, hf]; exact leadingCoeff_cubic one_ne_zero
  have hirr : Irreducible f := by
    refine irreducible_of_degree_le_three_of_not_isRoot (by rw [hdeg]; simp) fun x hx => hn x ?_
    rw [hf] at hx
    simpa [IsRoot] using hx
  haveI : Fact (Irreducible f) := ⟨hirr⟩
  have hof : ∀ q : ℚ, AdjoinRoot.of f q = (q : AdjoinRoot f) := fun q => eq_ratCast _ q
  have hC : ∀ q : ℚ, AdjoinRoot.mk f (Polynomial.C q) = (q : AdjoinRoot f) := fun q => by rw [← hof]; rfl
  refine ⟨AdjoinRoot f, inferInstance, algebraRat.charZero _, AdjoinRoot.root f, ?_, ?_, ?_⟩
  · have h := AdjoinRoot.eval₂_root f
    rw [hf] at h
    simp only [eval₂_add, eval₂_mul, eval₂_C, eval₂_pow, eval₂_X] at h
    rw [← hf] at h
    simpa [hof] using h
  · intro x0 x1 x2 h
    have h1 : AdjoinRoot.mk f (Polynomial.C x0 + Polynomial.C x1 * X + Polynomial.C x2 * X ^ 2) = 0 := by
      rw [map_add, map_add, map_mul, map_mul, map_pow, hC, hC, hC, AdjoinRoot.mk_X]; exact h
    rw [AdjoinRoot.mk_eq_zero] at h1
    have h2 : Polynomial.C x0 + Polynomial.C x1 * X + Polynomial.C x2 * X ^ 2 = 0 := by
      refine eq_zero_of_dvd_of_natDegree_lt h1 ?_
      rw [hdeg]
      have : (Polynomial.C x0 + Polynomial.C x1 * X + Polynomial.C x2 * X ^ 2 : ℚ[X]) = Polynomial.C x2 * X ^ 2 + Polynomial.C x1 * X + Polynomial.C x0 := by ring
      rw [this]
      exact lt_of_le_of_lt natDegree_quadratic_le (by norm_num)
    have c0 := congrArg (coeff · 0) h2
    have c1 := congrArg (coeff · 1) h2
    have c2 := congrArg (coeff · 2) h2
    simp [coeff_X, coeff_C] at c0 c1 c2
    exact ⟨c0, c1, c2⟩
  · intro w
    obtain ⟨g, rfl⟩ := AdjoinRoot.mk_surjective w
    have h1 : AdjoinRoot.mk f g = AdjoinRoot.mk f (g %ₘ f) := by
      rw [AdjoinRoot.mk_eq_mk]
      exact ⟨g /ₘ f, by linear_combination -(modByMonic_add_div g f)⟩
    have h2 : (g %ₘ f).natDegree < 3 := by
      rw [← hdeg]
      exact natDegree_modByMonic_lt g hmon (by rintro h; rw [h] at hdeg; simp at hdeg)
    refine ⟨(g %ₘ f).coeff 0, (g %ₘ f).coeff 1, (g %ₘ f).coeff 2, ?_⟩
    rw [h1]
    conv_lhs => rw [as_sum_range' _ 3 h2]
    simp only [Finset.sum_range_succ, Finset.sum_range_zero, zero_add, ← C_mul_X_pow_eq_monomial, map_add, map_mul,
      map_pow, hC, AdjoinRoot.mk_X, pow_zero, mul_one, pow_one]

/-! ## The equivalence over the rational numbers -/

/-- the rational quartics `g2` and `g1` are equivalent: `g2 = μ² g1(αX+βZ, γX+δZ)` -/
theorem equiv_of_root {g1 g2 : QK ℚ} (hI : g1.I = g2.I) (hJ : g1.J = g2.J) (ha1 : g1.a ≠ 0) (ha2 : g2.a ≠ 0)
    (hn : ∀ x : ℚ, x ^ 3 - 3 * g1.I * x + g1.J ≠ 0) {u : ℚ} (hu : upol g1 g2 u = 0) :
    ∃ μ α β γ δ : ℚ, μ ≠ 0 ∧ α * δ - β * γ ≠ 0 ∧ g2 = g1.tr (μ ^ 2) α β γ δ := by
  have hr1 : g1.r ≠ 0 := fun h0 => by
    refine hn (-g1.p / (4 * g1.a)) ?_
    have := g1.syzygy
    rw [h0] at this
    field_simp
    linear_combination this
  obtain ⟨K, _, _, ψ, h1, h2, h3⟩ := cubic_field (2 * g1.c) (g1.c ^ 2 + g1.b * g1.d - 4 * g1.a * g1.e)
    (g1.b * g1.c * g1.d - g1.a * g1.d ^ 2 - g1.e * g1.b ^ 2) (fun x hx => by
      refine hn (3 * x + 2 * g1.c) ?_
      simp only [QK.I, QK.J]
      linear_combination 27 * hx)
  push_cast at h1
  obtain ⟨l, x, y, hl, hxy, ea, ep⟩ := column_of_root h1 h2 h3 hI hJ ha1 ha2 hr1 hu
  obtain ⟨α, β, γ, δ, hd, e⟩ := equiv_of_column hI hJ ha2 hl hxy ea ep
  exact ⟨l, α, β, γ, δ, hl, hd, e⟩

/-! ## The integers of the code -/

/-- the quartic with rational coefficients -/
def toQK (g : G) : QK ℚ := ⟨g.a, g.b, g.c, g.d, g.e⟩

theorem toQK_I (g : G) : (toQK g).I = (g.II : ℚ) := by
  simp only [toQK, QK.I, G.II]; push_cast; ring
theorem toQK_J (g : G) : (toQK g).J = (g.JJ : ℚ) := by
  simp only [toQK, QK.J, G.JJ]; push_cast; ring
theorem toQK_p (g : G) : (toQK g).p = (zp g : ℚ) := by
  simp only [toQK, QK.p, zp, G.HH]; push_cast; ring
theorem toQK_r (g : G) : (toQK g).r = (g.RR : ℚ) := by
  simp only [toQK, QK.r, G.RR]; push_cast; ring

theorem c_mod3 {g1 g2 : G} (hJ : g1.JJ = g2.JJ) : ∃ k, g2.c = g1.c - 3 * k := by
  have h : (3 : ℤ) ∣ g1.c - g2.c := by
    have e1 : g1.JJ = g1.c ^ 3 + 3 * ((24 * g1.a * g1.e + 3 * g1.b * g1.d - g1.c ^ 2) * g1.c
      - 9 * (g1.a * (g1.d * g1.d) + (g1.b * g1.b) * g1.e)) := by simp only [G.JJ]; ring
    have e2 : g2.JJ = g2.c ^ 3 + 3 * ((24 * g2.a * g2.e + 3 * g2.b * g2.d - g2.c ^ 2) * g2.c
      - 9 * (g2.a * (g2.d * g2.d) + (g2.b * g2.b) * g2.e)) := by simp only [G.JJ]; ring
    have h1 : (3 : ℤ) ∣ g1.c ^ 3 - g2.c ^ 3 := by
      rw [e1, e2] at hJ
      exact ⟨((24 * g2.a * g2.e + 3 * g2.b * g2.d - g2.c ^ 2) * g2.c
        - 9 * (g2.a * (g2.d * g2.d) + (g2.b * g2.b) * g2.e)) - ((24 * g1.a * g1.e + 3 * g1.b * g1.d - g1.c ^ 2) * g1.c
        - 9 * (g1.a * (g1.d * g1.d) + (g1.b * g1.b) * g1.e)), by linear_combination hJ⟩
    have fer : ∀ x : ℤ, (3 : ℤ) ∣ x ^ 3 - x := fun x => by
      have h : x % 3 = 0 ∨ x % 3 = 1 ∨ x % 3 = 2 := by omega
      have hx := Int.emod_add_mul_ediv x 3
      refine Int.dvd_of_emod_eq_zero ?_
      rcases h with h | h | h <;> rw [h] at hx <;> rw [← hx] <;> ring_nf <;> omega
    have := dvd_add (dvd_sub h1 (fer g1.c)) (fer g2.c)
    rwa [show g1.c ^ 3 - g2.c ^ 3 - (g1.c ^ 3 - g1.c) + (g2.c ^ 3 - g2.c) = g1.c - g2.c by ring] at this
  obtain ⟨k, hk⟩ := h
  exact ⟨k, by linarith⟩

/-- the division by 3 is exact -/
theorem uP_eq {g1 g2 : G} (hJ : g1.JJ = g2.JJ) :
    3 * uP g1 g2 = 32 * (g1.a * g2.a) * g1.II + zp g1 * zp g2 := by
  obtain ⟨k, hk⟩ := c_mod3 hJ
  have : 32 * (g1.a * g2.a) * g1.II + zp g1 * zp g2 = 3 * (128*g1.a^2*g2.a*g1.e + (-32)*g1.a*g2.a*g1.b*g1.d + 32*g1.a*g2.a*g1.c^2 + 3*g1.b^2*g2.b^2 + (-8)*g2.a*g1.b^2*g1.c + 24*g2.a*g1.b^2*k + (-8)*g1.a*g2.b^2*g1.c + (-64)*g1.a*g2.a*g1.c*k) := by
    simp only [zp, G.HH, G.II, hk]; ring
  rw [uP, this, Int.mul_fdiv_cancel_left _ (by norm_num)]

/-- the division by 27 is exact -/
theorem uS_eq {g1 g2 : G} (hJ : g1.JJ = g2.JJ) :
    27 * uS g1 g2 = -256 * g1.JJ * (g1.a * g2.a) * (g1.a * zp g2 + g2.a * zp g1)
    + 64 * g1.II * ((zp g1 * zp g1) * (g2.a * g2.a) + (zp g2 * zp g2) * (g1.a * g1.a) + (zp g1 * zp g2) * (g1.a * g2.a))
    - (zp g1 * zp g1) * (zp g2 * zp g2) := by
  obtain ⟨k, hk⟩ := c_mod3 hJ
  have : -256 * g1.JJ * (g1.a * g2.a) * (g1.a * zp g2 + g2.a * zp g1)
    + 64 * g1.II * ((zp g1 * zp g1) * (g2.a * g2.a) + (zp g2 * zp g2) * (g1.a * g1.a) + (zp g1 * zp g2) * (g1.a * g2.a))
    - (zp g1 * zp g1) * (zp g2 * zp g2) = 27 * ((-4096)*g1.a^3*g2.a*g2.b^2*g1.c*g1.e + 16384*g1.a^3*g2.a^2*g1.c^2*g1.e + (-32768)*g1.a^3*g2.a^2*g1.c*g1.e*k + (-8192)*g1.a^2*g2.a^2*g1.b^2*g1.c*g1.e + 256*g1.a^2*g2.a*g1.b*g2.b^2*g1.c*g1.d + 2048*g1.a^2*g2.a^2*g1.b*g1.c*g1.d*k + 256*g1.a*g2.a^2*g1.b^3*g1.c*g1.d + 768*g1.a^3*g2.a*g2.b^2*g1.d^2 + (-4096)*g1.a^3*g2.a^2*g1.c*g1.d^2 + 6144*g1.a^3*g2.a^2*g1.d^2*k + 768*g1.a^2*g2.a^2*g1.b^2*g1.d^2 + 1024*g1.a^2*g2.a*g1.b^2*g2.b^2*g1.e + 8192*g1.a^2*g2.a^2*g1.b^2*g1.e*k + 1024*g1.a*g2.a^2*g1.b^4*g1.e + 256*g1.a^3*g2.b^4*g1.e + 4096*g1.a^3*g2.a*g2.b^2*g1.e*k + 16384*g1.a^3*g2.a^2*g1.e*k^2 + (-64)*g2.a^2*g1.b^5*g1.d + (-64)*g1.a^2*g1.b*g2.b^4*g1.d + (-1024)*g1.a^2*g2.a*g1.b*g2.b^2*g1.d*k + (-4096)*g1.a^2*g2.a^2*g1.b*g1.d*k^2 + (-64)*g1.a*g2.a*g1.b^3*g2.b^2*g1.d + (-512)*g1.a*g2.a^2*g1.b^3*g1.d*k + (-64)*g1.a*g2.a*g1.b^2*g2.b^2*g1.c^2 + (-512)*g1.a*g2.a^2*g1.b^2*g1.c^2*k + (-3)*g1.b^4*g2.b^4 + 16*g2.a*g1.b^4*g2.b^2*g1.c + (-48)*g2.a*g1.b^4*g2.b^2*k + 128*g2.a^2*g1.b^4*g1.c*k + (-192)*g2.a^2*g1.b^4*k^2 + 16*g1.a*g1.b^2*g2.b^4*g1.c + 256*g1.a*g2.a*g1.b^2*g2.b^2*g1.c*k + 1024*g1.a*g2.a^2*g1.b^2*g1.c*k^2) := by
    simp only [zp, G.HH, G.II, G.JJ, hk]; ring
  rw [uS, this, Int.mul_fdiv_cancel_left _ (by norm_num)]

theorem upol_int {g1 g2 : G} (hJ : g1.JJ = g2.JJ) (u : ℚ) :
    upol (toQK g1) (toQK g2) u =
      27 * (u ^ 4 + (-2 * uP g1 g2 : ℤ) * u ^ 2 + (-8 * (g1.RR * g2.RR) : ℤ) * u + (uS g1 g2 : ℤ)) := by
  have h1 : (3 * uP g1 g2 : ℚ) = 32 * (g1.a * g2.a) * g1.II + zp g1 * zp g2 := by exact_mod_cast uP_eq hJ
  have h2 : (27 * uS g1 g2 : ℚ) = -256 * g1.JJ * (g1.a * g2.a) * (g1.a * zp g2 + g2.a * zp g1)
    + 64 * g1.II * ((zp g1 * zp g1) * (g2.a * g2.a) + (zp g2 * zp g2) * (g1.a * g1.a) + (zp g1 * zp g2) * (g1.a * g2.a))
    - (zp g1 * zp g1) * (zp g2 * zp g2) := by exact_mod_cast uS_eq hJ
  unfold upol
  rw [toQK_I, toQK_J, toQK_p, toQK_p, toQK_r, toQK_r]
  simp only [toQK]
  push_cast
  linear_combination 18 * u ^ 2 * h1 - h2

/-- a rational root is an integer -/
theorem int_root {p q r : ℤ} {u : ℚ} (h : u ^ 4 + p * u ^ 2 + q * u + r = 0) : ∃ x : ℤ, (x : ℚ) = u ∧ x ^ 4 + p * x ^ 2 + q * x + r = 0 := by
  have hm : (X ^ 4 + (Polynomial.C p * X ^ 2 + Polynomial.C q * X + Polynomial.C r) : ℤ[X]).Monic :=
    monic_X_pow_add (lt_of_le_of_lt degree_quadratic_le (by norm_num))
  obtain ⟨x, hx⟩ := isInteger_of_is_root_of_monic (K := ℚ) hm (r := u) (by
    simp only [map_add, map_mul, map_pow, aeval_X, eq_intCast, map_intCast]
    linarith)
  simp only [eq_intCast] at hx
  refine ⟨x, hx, ?_⟩
  rw [← hx] at h
  exact_mod_cast h

/-! ## The theorems -/

/-- `Introotsquartic(a,b,c,d)` gives the integral roots of `x⁴ + a x³ + b x² + c x + d` -/
def RootsOk (introots : ℤ → ℤ → ℤ → ℤ → List ℤ) : Prop :=
  ∀ a b c d x, x ∈ introots a b c d ↔ x ^ 4 + a * x ^ 3 + b * x ^ 2 + c * x + d = 0

/-- **Specification**: equivalence of binary quartics over the rational numbers, `g2 = μ² g1(αX+βZ, γX+δZ)` -/
def RatEquiv (g1 g2 : G) : Prop :=
  ∃ μ α β γ δ : ℚ, μ ≠ 0 ∧ α * δ - β * γ ≠ 0 ∧ ∀ X Z : ℚ,
    g2.a * X ^ 4 + g2.b * X ^ 3 * Z + g2.c * X ^ 2 * Z ^ 2 + g2.d * X * Z ^ 3 + g2.e * Z ^ 4 =
      μ ^ 2 * (g1.a * (α * X + β * Z) ^ 4 + g1.b * (α * X + β * Z) ^ 3 * (γ * X + δ * Z)
        + g1.c * (α * X + β * Z) ^ 2 * (γ * X + δ * Z) ^ 2 + g1.d * (α * X + β * Z) * (γ * X + δ * Z) ^ 3
        + g1.e * (γ * X + δ * Z) ^ 4)

theorem QK.ext_ev {g h : QK ℚ} (e : ∀ X Z, g.ev X Z = h.ev X Z) : g = h := by
  have h1 := e 1 0
  have h2 := e 0 1
  have h3 := e 1 1
  have h4 := e 1 (-1)
  have h5 := e 1 2
  simp only [QK.ev] at h1 h2 h3 h4 h5
  ext <;> linarith

theorem ratEquiv_iff (g1 g2 : G) : RatEquiv g1 g2 ↔ ∃ μ α β γ δ : ℚ, μ ≠ 0 ∧ α * δ - β * γ ≠ 0 ∧
    toQK g2 = (toQK g1).tr (μ ^ 2) α β γ δ := by
  constructor
  · rintro ⟨μ, α, β, γ, δ, h1, h2, h3⟩
    refine ⟨μ, α, β, γ, δ, h1, h2, QK.ext_ev fun X Z => ?_⟩
    rw [QK.tr_ev]
    exact h3 X Z
  · rintro ⟨μ, α, β, γ, δ, h1, h2, h3⟩
    refine ⟨μ, α, β, γ, δ, h1, h2, fun X Z => ?_⟩
    have := QK.tr_ev (toQK g1) (μ ^ 2) α β γ δ X Z
    rw [← h3] at this
    exact this

theorem newEquiv_iff {introots : ℤ → ℤ → ℤ → ℤ → List ℤ} (hr : RootsOk introots) (q1 q2 : QD) :
    newEquiv introots q1 q2 = true ↔ (q1.g.II = q2.g.II ∧ q1.g.JJ = q2.g.JJ ∧ q1.type = q2.type ∧ q1.code = q2.code) ∧
      ∃ x : ℤ, x ^ 4 + (-2 * uP q1.g q2.g) * x ^ 2 + (-8 * (q1.g.RR * q2.g.RR)) * x + uS q1.g q2.g = 0 := by
  have hl : (introots 0 (-2 * uP q1.g q2.g) (-8 * (q1.g.RR * q2.g.RR)) (uS q1.g q2.g)).length > 0 ↔
      ∃ x : ℤ, x ^ 4 + (-2 * uP q1.g q2.g) * x ^ 2 + (-8 * (q1.g.RR * q2.g.RR)) * x + uS q1.g q2.g = 0 := by
    rw [gt_iff_lt, List.length_pos_iff_exists_mem]
    refine exists_congr fun x => ?_
    rw [hr, zero_mul, add_zero]
  unfold newEquiv
  dsimp only
  by_cases h1 : q1.g.II = q2.g.II ∧ q1.g.JJ = q2.g.JJ ∧ q1.g.disc = q2.g.disc ∧ q1.type = q2.type
  · rw [if_neg (not_not.2 h1)]
    by_cases h2 : q1.code = q2.code
    · rw [if_neg (not_not.2 h2), decide_eq_true_iff, hl]
      exact ⟨fun h => ⟨⟨h1.1, h1.2.1, h1.2.2.2, h2⟩, h⟩, fun h => h.2⟩
    · rw [if_pos h2]
      exact ⟨fun h => absurd h (by simp), fun h => absurd h.1.2.2.2 h2⟩
  · rw [if_pos h1]
    refine ⟨fun h => absurd h (by simp), ?_⟩
    rintro ⟨⟨k1, k2, k3, -⟩, -⟩
    exact absurd ⟨k1, k2, by simp only [G.disc, k1, k2], k3⟩ h1

/-- **C122**: `new_equiv` never denies the equivalence of two equivalent quartics with the same invariants and
`disc ≠ 0`, of the same type and code. -/
theorem C122_complete {introots : ℤ → ℤ → ℤ → ℤ → List ℤ} (hr : RootsOk introots) (q1 q2 : QD)
    (hI : q1.g.II = q2.g.II) (hJ : q1.g.JJ = q2.g.JJ) (hd : q1.g.disc ≠ 0) (ht : q1.type = q2.type)
    (hc : q1.code = q2.code) (h : RatEquiv q1.g q2.g) : newEquiv introots q1 q2 = true := by
  rw [newEquiv_iff hr]
  refine ⟨⟨hI, hJ, ht, hc⟩, ?_⟩
  obtain ⟨μ, α, β, γ, δ, hμ, hdet, he⟩ := (ratEquiv_iff _ _).1 h
  have h1 : (μ * (α * δ - β * γ)) ^ 2 = 1 := by
    have hpos : 0 < (μ * (α * δ - β * γ)) ^ 2 := by positivity
    have e1 := QK.tr_I (toQK q1.g) (μ ^ 2) α β γ δ
    have e2 := QK.tr_J (toQK q1.g) (μ ^ 2) α β γ δ
    rw [← he, toQK_I, toQK_I, ← hI] at e1
    rw [← he, toQK_J, toQK_J, ← hJ] at e2
    by_cases hI0 : q1.g.II = 0
    · have hJ0 : (q1.g.JJ : ℚ) ≠ 0 := by
        intro h0
        have : q1.g.JJ = 0 := by exact_mod_cast h0
        exact hd (by simp [G.disc, hI0, this])
      have e3 : (((μ * (α * δ - β * γ)) ^ 2) ^ 3 - 1) * (q1.g.JJ : ℚ) = 0 := by linear_combination -e2
      have e4 := (mul_eq_zero.1 e3).resolve_right hJ0
      have : ((μ * (α * δ - β * γ)) ^ 2 - 1) * (((μ * (α * δ - β * γ)) ^ 2) ^ 2 + (μ * (α * δ - β * γ)) ^ 2 + 1) = 0 := by
        linear_combination e4
      have := (mul_eq_zero.1 this).resolve_right (by positivity)
      linarith
    · have hI0' : (q1.g.II : ℚ) ≠ 0 := by exact_mod_cast hI0
      have e3 : (((μ * (α * δ - β * γ)) ^ 2) ^ 2 - 1) * (q1.g.II : ℚ) = 0 := by linear_combination -e1
      have e4 := (mul_eq_zero.1 e3).resolve_right hI0'
      have : ((μ * (α * δ - β * γ)) ^ 2 - 1) * ((μ * (α * δ - β * γ)) ^ 2 + 1) = 0 := by linear_combination e4
      have := (mul_eq_zero.1 this).resolve_right (by positivity)
      linarith
  obtain ⟨u, hu⟩ := root_of_equiv (toQK q1.g) h1
  rw [← he, upol_int hJ] at hu
  have hu' := (mul_eq_zero.1 hu).resolve_left (by norm_num)
  obtain ⟨x, -, hx⟩ := int_root hu'
  exact ⟨x, hx⟩

/-- **C122** (part): if the resolvent cubic has no rational root (the curve has no point of order 2) and the leading
coefficients are not 0, then `new_equiv` is right: the answer is 1 exactly if the invariants, the types and the codes
agree and the quartics are equivalent over the rational numbers.  Missing: curves with a point of order 2, see
`C122_wrong`; that types and codes of equivalent quartics agree. -/
theorem C122_new_equiv_partial {introots : ℤ → ℤ → ℤ → ℤ → List ℤ} (hr : RootsOk introots) (q1 q2 : QD)
    (ha1 : q1.g.a ≠ 0) (ha2 : q2.g.a ≠ 0) (hn : ∀ x : ℚ, x ^ 3 - 3 * q1.g.II * x + q1.g.JJ ≠ 0) :
    newEquiv introots q1 q2 = true ↔
      (q1.g.II = q2.g.II ∧ q1.g.JJ = q2.g.JJ ∧ q1.type = q2.type ∧ q1.code = q2.code) ∧ RatEquiv q1.g q2.g := by
  constructor
  · intro h
    obtain ⟨⟨hI, hJ, ht, hc⟩, x, hx⟩ := (newEquiv_iff hr _ _).1 h
    refine ⟨⟨hI, hJ, ht, hc⟩, (ratEquiv_iff _ _).2 ?_⟩
    refine equiv_of_root (u := x) (by rw [toQK_I, toQK_I, hI]) (by rw [toQK_J, toQK_J, hJ])
      (by simpa [toQK] using ha1) (by simpa [toQK] using ha2) (by rw [toQK_I, toQK_J]; exact hn) ?_
    rw [upol_int hJ]
    have : (x : ℚ) ^ 4 + (-2 * uP q1.g q2.g : ℤ) * (x : ℚ) ^ 2 + (-8 * (q1.g.RR * q2.g.RR) : ℤ) * (x : ℚ) +
        (uS q1.g q2.g : ℤ) = 0 := by exact_mod_cast hx
    rw [this, mul_zero]
  · rintro ⟨⟨hI, hJ, ht, hc⟩, h⟩
    refine C122_complete hr q1 q2 hI hJ ?_ ht hc h
    -- a cubic with a repeated root has a rational root
    intro h0
    have h1 : (4 * q1.g.II ^ 3 : ℚ) = (q1.g.JJ : ℚ) ^ 2 := by
      have : 4 * q1.g.II ^ 3 = q1.g.JJ ^ 2 := by simp only [G.disc] at h0; linarith
      exact_mod_cast this
    by_cases hI0 : (q1.g.II : ℚ) = 0
    · have hJ0 : (q1.g.JJ : ℚ) = 0 := by
        rw [hI0] at h1; exact pow_eq_zero_iff two_ne_zero |>.1 (by linarith)
      exact hn 0 (by rw [hI0, hJ0]; norm_num)
    · refine hn (q1.g.JJ / (2 * q1.g.II)) ?_
      field_simp
      linear_combination -(q1.g.JJ : ℚ) * h1

/-! ## Witnesses -/

/-- the library function exists -/
theorem roots_exist : ∃ introots, RootsOk introots := by
  classical
  have h : ∀ a b c d : ℤ, ∃ l : List ℤ, ∀ x, x ∈ l ↔ x ^ 4 + a * x ^ 3 + b * x ^ 2 + c * x + d = 0 := fun a b c d => by
    obtain ⟨f, hf⟩ : ∃ f : ℤ[X], f = X ^ 4 + (Polynomial.C a * X ^ 3 + Polynomial.C b * X ^ 2 + Polynomial.C c * X + Polynomial.C d) :=
      ⟨_, rfl⟩
    have hm : f.Monic := by
      rw [hf]; exact monic_X_pow_add (lt_of_le_of_lt degree_cubic_le (by norm_num))
    refine ⟨f.roots.toFinset.toList, fun x => ?_⟩
    rw [Finset.mem_toList, Multiset.mem_toFinset, mem_roots hm.ne_zero, IsRoot, hf]
    simp only [eval_add, eval_mul, eval_pow, eval_X, eq_intCast, eval_intCast, Int.cast_id]
    constructor <;> intro h <;> linarith
  choose f hf using h
  exact ⟨f, hf⟩

/-- the hypotheses can be met: `X⁴ + XZ³ + Z⁴`, moved by `X → X + Z`; the cubic `x³ - 36x - 27` has no root modulo 5 -/
example : RatEquiv ⟨1, 0, 0, 1, 1⟩ ⟨1, 4, 6, 5, 3⟩ ∧ (⟨1, 0, 0, 1, 1⟩ : G).II = (⟨1, 4, 6, 5, 3⟩ : G).II ∧
    (⟨1, 0, 0, 1, 1⟩ : G).JJ = (⟨1, 4, 6, 5, 3⟩ : G).JJ ∧
    ∀ x : ℚ, x ^ 3 - 3 * (⟨1, 0, 0, 1, 1⟩ : G).II * x + (⟨1, 0, 0, 1, 1⟩ : G).JJ ≠ 0 := by
  refine ⟨⟨1, 1, 1, 0, 1, by norm_num, by norm_num, fun X Z => ?_⟩, by decide, by decide, fun x hx => ?_⟩
  · push_cast; ring
  · have e1 : (⟨1, 0, 0, 1, 1⟩ : G).II = 12 := by decide
    have e2 : (⟨1, 0, 0, 1, 1⟩ : G).JJ = -27 := by decide
    rw [e1, e2] at hx
    obtain ⟨y, hy, -⟩ := int_root (u := x) (p := -36) (q := -27) (r := 0)
      (by push_cast at hx ⊢; linear_combination x * hx)
    rw [← hy] at hx
    have h5 : y ^ 3 - 3 * 12 * y + -27 = 0 := by exact_mod_cast hx
    have hm : y % 5 = 0 ∨ y % 5 = 1 ∨ y % 5 = 2 ∨ y % 5 = 3 ∨ y % 5 = 4 := by omega
    have hd := Int.emod_add_mul_ediv y 5
    have h6 : (y ^ 3 - 3 * 12 * y + -27) % 5 = 0 := by rw [h5]; rfl
    rcases hm with h | h | h | h | h <;> rw [h] at hd <;> rw [← hd] at h6 <;> ring_nf at h6 <;> omega

/-- **C122 fails** when the curve has a point of order 2: `X⁴ + Z⁴` and `-X⁴ - Z⁴` have the same invariants, `disc ≠ 0`
and type 1, and the same number of roots modulo every prime; `new_equiv` finds the root 0 of `u⁴ + 256 u²`.  One takes
only positive values, the other only negative ones. -/
theorem C122_wrong {introots : ℤ → ℤ → ℤ → ℤ → List ℤ} (hr : RootsOk introots) (t : ℤ) (k : ℕ) :
    newEquiv introots ⟨⟨1, 0, 0, 0, 1⟩, t, k⟩ ⟨⟨-1, 0, 0, 0, -1⟩, t, k⟩ = true ∧
      (⟨1, 0, 0, 0, 1⟩ : G).disc ≠ 0 ∧ ¬ RatEquiv ⟨1, 0, 0, 0, 1⟩ ⟨-1, 0, 0, 0, -1⟩ := by
  refine ⟨?_, by decide, ?_⟩
  · rw [newEquiv_iff hr]
    exact ⟨⟨rfl, rfl, rfl, rfl⟩, 0, rfl⟩
  · rintro ⟨μ, α, β, γ, δ, hμ, hd, h⟩
    have h1 := h 1 0
    push_cast at h1
    have : 0 ≤ μ ^ 2 * (α ^ 4 + γ ^ 4) := by positivity
    nlinarith

end Eclib.Forms.NewEquiv
