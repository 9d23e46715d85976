import Verif.Legendre.Basic
import Mathlib.Algebra.EuclideanDomain.Int
import Mathlib.RingTheory.EuclideanDomain

/-!
# Specification of certificates and solutions; `lem1plus`, `lem1minus`, `lem1`
-/

namespace Eclib.Legendre

/-- Coefficients of Legendre's equation with a solubility certificate: `a | n²+bc`, `b | p²+ca`, `c | q²+ab`. -/
structure Cert (a b c n p q : ℤ) : Prop where
  a0 : a ≠ 0
  b0 : b ≠ 0
  c0 : c ≠ 0
  cab : IsCoprime a b
  cbc : IsCoprime b c
  cca : IsCoprime c a
  pos : ¬ (0 < a ∧ 0 < b ∧ 0 < c)
  neg : ¬ (a < 0 ∧ b < 0 ∧ c < 0)
  ha : a ∣ n ^ 2 + b * c
  hb : b ∣ p ^ 2 + c * a
  hc : c ∣ q ^ 2 + a * b

/-- A non-trivial solution of Legendre's equation -/
structure Sol (a b c x y z : ℤ) : Prop where
  eqn : a * x ^ 2 + b * y ^ 2 + c * z ^ 2 = 0
  ne : ¬ (x = 0 ∧ y = 0 ∧ z = 0)

/-- The congruences for the lattice defined by the certificate -/
structure Lat (a b c n p q x y z : ℤ) : Prop where
  la : a ∣ b * y - n * z
  lb : b ∣ c * z - p * x
  lc : c ∣ a * x - q * y

theorem Cert.cyc {a b c n p q : ℤ} (h : Cert a b c n p q) : Cert b c a p q n :=
  ⟨h.b0, h.c0, h.a0, h.cbc, h.cca, h.cab, fun t => h.pos ⟨t.2.2, t.1, t.2.1⟩, fun t => h.neg ⟨t.2.2, t.1, t.2.1⟩,
    h.hb, h.hc, h.ha⟩

theorem Cert.flip {a b c n p q : ℤ} (h : Cert a b c n p q) : Cert a c b (-n) (-q) (-p) :=
  ⟨h.a0, h.c0, h.b0, h.cca.symm, h.cbc.symm, h.cab.symm, fun t => h.pos ⟨t.1, t.2.2, t.2.1⟩,
    fun t => h.neg ⟨t.1, t.2.2, t.2.1⟩, by rw [neg_sq, mul_comm c b]; exact h.ha,
    by rw [neg_sq, mul_comm b a]; exact h.hc, by rw [neg_sq, mul_comm a c]; exact h.hb⟩

theorem Sol.cyc {a b c x y z : ℤ} (h : Sol b c a y z x) : Sol a b c x y z :=
  ⟨by linear_combination h.eqn, fun t => h.ne ⟨t.2.1, t.2.2, t.1⟩⟩

theorem Sol.flip {a b c x y z : ℤ} (h : Sol a c b x z y) : Sol a b c x y z :=
  ⟨by linear_combination h.eqn, fun t => h.ne ⟨t.1, t.2.2, t.2.1⟩⟩

theorem Lat.cyc {a b c n p q x y z : ℤ} (h : Lat b c a p q n y z x) : Lat a b c n p q x y z :=
  ⟨h.lc, h.la, h.lb⟩

/-- `by ≡ nz` and `cz ≡ -ny` are equivalent modulo `a` -/
theorem lat_swap {a b c n y z : ℤ} (hca : IsCoprime c a) (ha : a ∣ n ^ 2 + b * c)
    (h : a ∣ c * z + n * y) : a ∣ b * y - n * z := by
  have : a ∣ c * (b * y - n * z) := by
    have e : c * (b * y - n * z) = y * (n ^ 2 + b * c) - n * (c * z + n * y) := by ring
    rw [e]
    exact dvd_sub (ha.mul_left y) (h.mul_left n)
  exact hca.symm.dvd_of_dvd_mul_left this

theorem Lat.flip {a b c n p q x y z : ℤ} (hC : Cert a b c n p q) (h : Lat a c b (-n) (-q) (-p) x z y) :
    Lat a b c n p q x y z := by
  refine ⟨lat_swap hC.cca hC.ha (by have := h.la; rwa [show c * z - -n * y = c * z + n * y by ring] at this),
    lat_swap (a := b) (b := c) (c := a) hC.cab hC.hb ?_, lat_swap (a := c) (b := a) (c := b) hC.cbc hC.hc ?_⟩
  · have := h.lc
    rwa [show a * x - -p * z = a * x + p * z by ring] at this
  · have := h.lb
    rwa [show b * y - -q * x = b * y + q * x by ring] at this

theorem gi_mul (a b c d : ℤ) : gi a b * gi c d = gi (a * c - b * d) (a * d + b * c) := by
  ext
  · simp [Zsqrtd.re_mul]; ring
  · simp [Zsqrtd.im_mul]

theorem int_dvd_gi {m a b : ℤ} : gi m 0 ∣ gi a b ↔ m ∣ a ∧ m ∣ b := by
  constructor
  · rintro ⟨v, hv⟩
    have h1 := congrArg Zsqrtd.re hv
    have h2 := congrArg Zsqrtd.im hv
    simp [Zsqrtd.re_mul, Zsqrtd.im_mul] at h1 h2
    exact ⟨⟨v.re, h1⟩, ⟨v.im, h2⟩⟩
  · rintro ⟨⟨s, rfl⟩, ⟨t, rfl⟩⟩
    exact ⟨gi s t, by rw [gi_mul]; simp⟩

/-- The greatest common divisor of `q+i` and `c` has norm `|c|` if `c | q²+1`. -/
theorem gi_norm_gcd {q c e f : ℤ} (hc : c ≠ 0) (h : c ∣ q ^ 2 + 1) (hg : IsGcd e f (gi q 1) (gi c 0)) :
    e ^ 2 + f ^ 2 = |c| ∧ c ∣ e - q * f := by
  obtain ⟨h1, h2⟩ := (hg (gi e f)).mp dvd_rfl
  -- a linear combination
  have hassoc : EuclideanDomain.gcd (gi q 1) (gi c 0) ∣ gi e f :=
    (hg _).mpr ⟨EuclideanDomain.gcd_dvd_left _ _, EuclideanDomain.gcd_dvd_right _ _⟩
  obtain ⟨w, hw⟩ := hassoc
  rw [EuclideanDomain.gcd_eq_gcd_ab] at hw
  generalize EuclideanDomain.gcdA (gi q 1) (gi c 0) = A at hw
  generalize EuclideanDomain.gcdB (gi q 1) (gi c 0) = B at hw
  have hlin : ∃ s t u v : ℤ, e = q * s - t + c * u ∧ f = q * t + s + c * v := by
    refine ⟨(A * w).re, (A * w).im, (B * w).re, (B * w).im, ?_, ?_⟩
    · have := congrArg Zsqrtd.re hw
      rw [add_mul, mul_assoc, mul_assoc] at this
      simp only [Zsqrtd.re_add, Zsqrtd.re_mul (gi q 1), Zsqrtd.re_mul (gi c 0)] at this
      linarith
    · have := congrArg Zsqrtd.im hw
      rw [add_mul, mul_assoc, mul_assoc] at this
      simp only [Zsqrtd.im_add, Zsqrtd.im_mul (gi q 1), Zsqrtd.im_mul (gi c 0)] at this
      linarith
  obtain ⟨s, t, u, v, he, hf⟩ := hlin
  have hlat : c ∣ e - q * f := by
    have : e - q * f = -(t * (q ^ 2 + 1)) + c * (u - q * v) := by rw [he, hf]; ring
    rw [this]
    exact dvd_add ((h.mul_left t).neg_right) (Dvd.intro _ rfl)
  have hN : c ∣ e ^ 2 + f ^ 2 := by
    have : e ^ 2 + f ^ 2 = (q ^ 2 + 1) * (s ^ 2 + t ^ 2) +
        c * (2 * u * (q * s - t) + 2 * v * (q * t + s) + c * u ^ 2 + c * v ^ 2) := by
      rw [he, hf]; ring
    rw [this]
    exact dvd_add (h.mul_right _) (Dvd.intro _ rfl)
  refine ⟨?_, hlat⟩
  obtain ⟨m, hm⟩ := hN
  obtain ⟨r, hr⟩ := h2
  -- `c = g r`, so `conj g = r m`
  obtain ⟨r1, r2⟩ := r
  have hr' : gi c 0 = gi e f * gi r1 r2 := hr
  rw [gi_mul] at hr'
  have e1 : c = e * r1 - f * r2 := congrArg Zsqrtd.re hr'
  have e2 : 0 = e * r2 + f * r1 := congrArg Zsqrtd.im hr'
  have hNpos : e ^ 2 + f ^ 2 ≠ 0 := by
    intro h0
    have he0 : e = 0 := by nlinarith [sq_nonneg e, sq_nonneg f]
    have hf0 : f = 0 := by nlinarith [sq_nonneg e, sq_nonneg f]
    apply hc
    rw [e1, he0, hf0]; ring
  have k1 : r1 * m = e := by
    have : (e ^ 2 + f ^ 2) * (r1 * m) = (e ^ 2 + f ^ 2) * e := by
      have i1 : (e ^ 2 + f ^ 2) * r1 = e * c := by rw [e1]; linear_combination (f : ℤ) * -e2
      calc (e ^ 2 + f ^ 2) * (r1 * m) = (e ^ 2 + f ^ 2) * r1 * m := by ring
        _ = e * (c * m) := by rw [i1]; ring
        _ = _ := by rw [← hm]; ring
    exact mul_left_cancel₀ hNpos this
  have k2 : -(r2 * m) = f := by
    have : (e ^ 2 + f ^ 2) * (-(r2 * m)) = (e ^ 2 + f ^ 2) * f := by
      have i1 : (e ^ 2 + f ^ 2) * r2 = -(f * c) := by rw [e1]; linear_combination (-e : ℤ) * e2
      calc (e ^ 2 + f ^ 2) * (-(r2 * m)) = -((e ^ 2 + f ^ 2) * r2 * m) := by ring
        _ = f * (c * m) := by rw [i1]; ring
        _ = _ := by rw [← hm]; ring
    exact mul_left_cancel₀ hNpos this
  -- `m` divides `q + i`
  have hm1 : m ∣ 1 := by
    have hme : m ∣ e := Dvd.intro_left _ k1
    have hmf : m ∣ f := by rw [← k2]; exact (Dvd.intro_left _ rfl : m ∣ r2 * m).neg_right
    exact (int_dvd_gi.mp ((int_dvd_gi.mpr ⟨hme, hmf⟩).trans h1)).2
  have hpos : 0 ≤ e ^ 2 + f ^ 2 := by positivity
  rw [← abs_of_nonneg hpos, hm, abs_mul]
  rcases Int.isUnit_iff.mp (isUnit_of_dvd_one hm1) with rfl | rfl <;> simp

theorem giGcd_q1 {q c : ℤ} (hc : c ≠ 0) (h : c ∣ q ^ 2 + 1) :
    (giGcd q 1 c 0).1 ^ 2 + (giGcd q 1 c 0).2 ^ 2 = |c| ∧ c ∣ (giGcd q 1 c 0).1 - q * (giGcd q 1 c 0).2 :=
  gi_norm_gcd hc h (giGcd_isGcd q 1 c 0)

theorem eq_of_mul_eq_one {a b : ℤ} (h : a * b = 1) : (a = 1 ∧ b = 1) ∨ (a = -1 ∧ b = -1) := by
  rcases Int.isUnit_iff.mp (IsUnit.of_mul_eq_one _ h) with rfl | rfl
  · left; exact ⟨rfl, by linarith⟩
  · right; exact ⟨rfl, by linarith⟩

theorem eq_of_mul_eq_neg_one {a b : ℤ} (h : a * b = -1) : (a = 1 ∧ b = -1) ∨ (a = -1 ∧ b = 1) := by
  rcases Int.isUnit_iff.mp (IsUnit.of_mul_eq_one (a := a) (-b) (by linarith)) with rfl | rfl
  · left; exact ⟨rfl, by linarith⟩
  · right; exact ⟨rfl, by linarith⟩

/-- `lem1plus` -/
theorem lem1plus_spec {a b c n p q : ℤ} (h : Cert a b c n p q) (hab : a * b = 1) :
    let r := lem1plus b c q
    Sol a b c r.1 r.2.1 r.2.2 ∧ Lat a b c n p q r.1 r.2.1 r.2.2 := by
  intro r
  have hr : r = lem1plus b c q := rfl
  unfold lem1plus at hr
  obtain ⟨h1, h2⟩ := giGcd_q1 h.c0 (q := q) (by have := h.hc; rwa [hab] at this)
  simp only at hr
  generalize (giGcd q 1 c 0).1 = e at h1 h2 hr
  generalize (giGcd q 1 c 0).2 = f at h1 h2 hr
  rcases eq_of_mul_eq_one hab with ⟨rfl, rfl⟩ | ⟨rfl, rfl⟩
  · norm_num at hr
    rw [hr]
    have hcn : c < 0 := by
      have := h.pos; have := h.c0; omega
    rw [abs_of_neg hcn] at h1
    refine ⟨⟨by simp only; linarith, fun t => by simp at t⟩, ⟨one_dvd _, one_dvd _, by simpa using h2⟩⟩
  · norm_num at hr
    rw [hr]
    have hcn : 0 < c := by
      have := h.neg; have := h.c0; omega
    rw [abs_of_pos hcn] at h1
    refine ⟨⟨by simp only; linarith, fun t => by simp at t⟩, ⟨by simp, by simp, ?_⟩⟩
    have : -1 * e - q * -f = -(e - q * f) := by ring
    simp only
    rw [this]
    exact h2.neg_right

theorem coprime_quot {g a b r u : ℤ} (hg0 : g ≠ 0) (hg : g = (Int.gcd a b : ℤ)) (hr : a = g * r) (hu : b = g * u) :
    IsCoprime r u := by
  have hx := Int.gcd_eq_gcd_ab a b
  refine ⟨Int.gcdA a b, Int.gcdB a b, ?_⟩
  rw [← hg] at hx
  apply mul_left_cancel₀ hg0
  generalize Int.gcdA a b = A at *
  generalize Int.gcdB a b = B at *
  rw [hr, hu] at hx
  linear_combination -hx

/-- the numbers `cplus`, `cminus` of `lem1minus` -/
theorem cpm {c q : ℤ} (hc : c ≠ 0) (h : c ∣ q ^ 2 - 1) :
    ∃ m r s : ℤ, (m = 1 ∨ m = 2) ∧ gcd (q - 1) c * gcd (q + 1) c = m * |c| ∧ q - 1 = gcd (q - 1) c * r ∧
      q + 1 = gcd (q + 1) c * s ∧ 0 < gcd (q - 1) c ∧ 0 < gcd (q + 1) c ∧
      (m = 1 → (r + s) % 2 = 0 ∧ (gcd (q + 1) c - gcd (q - 1) c) % 2 = 0) ∧ (m = 2 → gcd (q + 1) c % 2 = 0) := by
  have hP : 0 < gcd (q - 1) c := by exact_mod_cast Int.gcd_pos_of_ne_zero_right _ hc
  have hM : 0 < gcd (q + 1) c := by exact_mod_cast Int.gcd_pos_of_ne_zero_right _ hc
  have hac : 0 < |c| := abs_pos.mpr hc
  -- `|c|` divides the product
  have h1 : |c| ∣ gcd (q - 1) c * gcd (q + 1) c := by
    have h0 : c.natAbs ∣ (q - 1).natAbs * (q + 1).natAbs := by
      rw [← Int.natAbs_mul, Int.natAbs_dvd_natAbs]
      have : (q - 1) * (q + 1) = q ^ 2 - 1 := by ring
      rw [this]; exact h
    have h2 := Nat.gcd_mul_right_dvd_mul_gcd c.natAbs (q - 1).natAbs (q + 1).natAbs
    rw [Nat.gcd_eq_left h0] at h2
    have h3 : (c.natAbs : ℤ) ∣ ((Nat.gcd c.natAbs (q - 1).natAbs * Nat.gcd c.natAbs (q + 1).natAbs : ℕ) : ℤ) := by
      exact_mod_cast h2
    rw [Int.natCast_natAbs] at h3
    push_cast at h3
    rw [Nat.gcd_comm, Nat.gcd_comm c.natAbs] at h3
    exact h3
  obtain ⟨r, hr⟩ : gcd (q - 1) c ∣ q - 1 := Int.gcd_dvd_left _ _
  obtain ⟨s, hs⟩ : gcd (q + 1) c ∣ q + 1 := Int.gcd_dvd_left _ _
  obtain ⟨u, hu⟩ : gcd (q - 1) c ∣ |c| := (dvd_abs _ _).mpr (Int.gcd_dvd_right _ _)
  obtain ⟨v, hv⟩ : gcd (q + 1) c ∣ |c| := (dvd_abs _ _).mpr (Int.gcd_dvd_right _ _)
  -- gcd of the quotients is 1
  have hga : ∀ x : ℤ, gcd x c = gcd x |c| := fun x => by
    show ((Int.gcd x c : ℕ) : ℤ) = (Int.gcd x |c| : ℕ)
    rw [Int.gcd, Int.gcd, Int.natAbs_abs]
  have hco1 : IsCoprime r u := coprime_quot hP.ne' (hga _) hr hu
  have hco2 : IsCoprime s v := coprime_quot hM.ne' (hga _) hs hv
  generalize gcd (q - 1) c = P at *
  generalize gcd (q + 1) c = M at *
  obtain ⟨m, hm⟩ := h1
  have hm0 : 0 < m := by
    by_contra hcon
    have : |c| * m ≤ 0 := mul_nonpos_of_nonneg_of_nonpos hac.le (by omega)
    have := mul_pos hP hM
    linarith
  -- `m | 2` : `P v M s ...`
  have hm2 : m ∣ 2 := by
    -- `|c| = P u = M v`, `P M = |c| m`, so `M = u m`, `P = v m`
    have e1 : M = u * m := by
      apply mul_left_cancel₀ hP.ne'
      rw [hm, hu]; ring
    have e2 : P = v * m := by
      apply mul_left_cancel₀ hM.ne'
      rw [mul_comm M P, hm, hv]; ring
    have : (2 : ℤ) = m * (u * s - v * r) := by
      have : (2 : ℤ) = M * s - P * r := by linarith
      rw [this, e1, e2]; ring
    exact Dvd.intro _ this.symm
  have hm3 : m = 1 ∨ m = 2 := by
    have := Int.le_of_dvd (by norm_num) hm2
    omega
  refine ⟨m, r, s, hm3, by rw [hm]; ring, hr, hs, hP, hM, ?_, ?_⟩
  · intro hm1
    subst hm1
    have e1 : M = u := by
      apply mul_left_cancel₀ hP.ne'
      rw [hm, hu]; ring
    have e2 : P = v := by
      apply mul_left_cancel₀ hM.ne'
      rw [mul_comm M P, hm, hv]; ring
    subst e1 e2
    have hpm : (P * r) % 2 = (M * s) % 2 := by omega
    have hnot : ∀ x y : ℤ, IsCoprime x y → y % 2 = 0 → x % 2 = 1 := by
      intro x y hxy hy
      by_contra hx
      have hx2 : (2 : ℤ) ∣ x := by omega
      have hy2 : (2 : ℤ) ∣ y := by omega
      have := hxy.isUnit_of_dvd' hx2 hy2
      rw [Int.isUnit_iff] at this
      omega
    rcases Int.emod_two_eq_zero_or_one P with hp | hp <;> rcases Int.emod_two_eq_zero_or_one M with hq | hq
    · have := hnot _ _ hco1 hq
      have := hnot _ _ hco2 hp
      exact ⟨by omega, by omega⟩
    · exfalso
      have a1 := hnot _ _ hco2 hp
      have a2 : (P * r) % 2 = 0 := by rw [Int.mul_emod, hp]; simp
      have a3 : (M * s) % 2 = 1 := by rw [Int.mul_emod, hq, a1]; simp
      omega
    · exfalso
      have a1 := hnot _ _ hco1 hq
      have a2 : (P * r) % 2 = 1 := by rw [Int.mul_emod, hp, a1]; simp
      have a3 : (M * s) % 2 = 0 := by rw [Int.mul_emod, hq]; simp
      omega
    · have a2 : (P * r) % 2 = r % 2 := by rw [Int.mul_emod, hp]; simp
      have a3 : (M * s) % 2 = s % 2 := by rw [Int.mul_emod, hq]; simp
      exact ⟨by omega, by omega⟩
  · intro hm1
    subst hm1
    have e1 : M = u * 2 := by
      apply mul_left_cancel₀ hP.ne'
      rw [hm, hu]; ring
    omega

/-- the numbers `x`, `y`, `z` in the main case of `lem1minus` before the swap -/
theorem lem1minus_main {c q : ℤ} (hc : c ≠ 0) (h : c ∣ q ^ 2 - 1) :
    ∃ x y z : ℤ, (gcd (q - 1) c * gcd (q + 1) c).fdiv |c| = z ∧
      (if gcd (q - 1) c * gcd (q + 1) c = |c| then (gcd (q + 1) c - gcd (q - 1) c).fdiv 2
        else if gcd (q - 1) c * gcd (q + 1) c = 2 * |c| then (gcd (q + 1) c).fdiv 2 - gcd (q - 1) c else 0) = x ∧
      gcd (q + 1) c - x = y ∧ y ^ 2 - x ^ 2 = |c| * z ^ 2 ∧ c ∣ x - q * y ∧ c ∣ y - q * x ∧ z ≠ 0 := by
  obtain ⟨m, r, s, hm, hprod, hr, hs, hP, hM, i1, i2⟩ := cpm hc h
  have hac : 0 < |c| := abs_pos.mpr hc
  generalize gcd (q - 1) c = P at *
  generalize gcd (q + 1) c = M at *
  have hz : (P * M).fdiv |c| = m := by
    rw [hprod, Int.mul_fdiv_cancel _ hac.ne']
  rw [hz]
  rcases hm with rfl | rfl
  · obtain ⟨j1, j2⟩ := i1 rfl
    rw [one_mul] at hprod
    rw [if_pos hprod]
    obtain ⟨x, hx⟩ : ∃ x, M - P = 2 * x := ⟨(M - P) / 2, by omega⟩
    obtain ⟨k, hk⟩ : ∃ k, r + s = 2 * k := ⟨(r + s) / 2, by omega⟩
    have hxf : (M - P).fdiv 2 = x := by rw [hx, Int.mul_fdiv_cancel_left _ (by norm_num)]
    rw [hxf]
    refine ⟨x, M - x, 1, rfl, rfl, rfl, ?_, ?_, ?_, one_ne_zero⟩
    · rw [← hprod]
      have hM' : M = P + 2 * x := by linarith
      rw [hM']; ring
    · rw [← abs_dvd]
      refine ⟨-k, ?_⟩
      have h2 : 2 * (x - q * (M - x)) = 2 * (|c| * -k) := by
        have e1 : 2 * (x - q * (M - x)) = (M - P) - q * (M + P) := by linear_combination -(1 + q) * hx
        rw [e1, ← hprod]
        linear_combination (-M : ℤ) * hr - (P : ℤ) * hs - P * M * hk
      linarith
    · rw [← abs_dvd]
      refine ⟨s - k, ?_⟩
      have h2 : 2 * (M - x - q * x) = 2 * (|c| * (s - k)) := by
        have e1 : 2 * (M - x - q * x) = (M + P) - q * (M - P) := by linear_combination (1 + q) * hx
        rw [e1, ← hprod]
        linear_combination (-M : ℤ) * hr + (P : ℤ) * hs - P * M * hk
      linarith
  · have j := i2 rfl
    have hne : P * M ≠ |c| := by rw [hprod]; intro hcon; linarith
    rw [if_neg hne, if_pos hprod]
    obtain ⟨x, hx⟩ : ∃ x, M = 2 * x := ⟨M / 2, by omega⟩
    have hxf : M.fdiv 2 = x := by rw [hx, Int.mul_fdiv_cancel_left _ (by norm_num)]
    rw [hxf]
    refine ⟨x - P, M - (x - P), 2, rfl, rfl, rfl, ?_, ?_, ?_, two_ne_zero⟩
    · rw [hx] at hprod ⊢; linear_combination (2 : ℤ) * hprod
    · rw [← abs_dvd]
      refine ⟨-(r + 2 * s), ?_⟩
      rw [hx] at hprod hs ⊢
      have hprod' : P * x = |c| := by linarith
      linear_combination (-x : ℤ) * hr - (P : ℤ) * hs - (r + 2 * s) * hprod'
    · rw [← abs_dvd]
      refine ⟨2 * s - r, ?_⟩
      rw [hx] at hprod hs ⊢
      have hprod' : P * x = |c| := by linarith
      linear_combination (-x : ℤ) * hr + (P : ℤ) * hs + (2 * s - r) * hprod'

/-- `lem1minus` -/
theorem lem1minus_spec {a b c n p q : ℤ} (h : Cert a b c n p q) (hab : a * b = -1) :
    let r := lem1minus a b c q
    Sol a b c r.1 r.2.1 r.2.2 ∧ Lat a b c n p q r.1 r.2.1 r.2.2 := by
  intro r
  have hr : r = lem1minus a b c q := rfl
  unfold lem1minus at hr
  have ua : IsUnit a := IsUnit.of_mul_eq_one (-b) (by linarith)
  have ub : IsUnit b := IsUnit.of_mul_eq_one (-a) (by linarith)
  have hcq : c ∣ q ^ 2 - 1 := by have := h.hc; rwa [hab] at this
  by_cases h1 : q = 1
  · rw [if_pos h1] at hr
    rw [hr]
    refine ⟨⟨?_, by simp⟩, ⟨ua.dvd, ub.dvd, by simp [h1]⟩⟩
    simp only
    rcases eq_of_mul_eq_neg_one hab with ⟨rfl, rfl⟩ | ⟨rfl, rfl⟩ <;> ring
  · rw [if_neg h1] at hr
    by_cases h2 : q = -1 ∨ q = |c| - 1
    · simp only [if_pos h2] at hr
      rw [hr]
      refine ⟨⟨?_, by simp⟩, ⟨ua.dvd, ub.dvd, ?_⟩⟩
      · simp only
        rcases eq_of_mul_eq_neg_one hab with ⟨rfl, rfl⟩ | ⟨rfl, rfl⟩ <;> ring
      · simp only
        have : a * 1 - q * -a = a * (q + 1) := by ring
        rw [this]
        refine Dvd.dvd.mul_left ?_ a
        rcases h2 with h2 | h2
        · rw [h2]; simp
        · rw [h2]; simp
    · simp only [if_neg h2] at hr
      obtain ⟨x, y, z, e1, e2, e3, hyx, l1, l2, hz⟩ := lem1minus_main h.c0 hcq
      rw [e1, e2, e3] at hr
      rw [hr]
      rcases eq_of_mul_eq_neg_one hab with ⟨rfl, rfl⟩ | ⟨rfl, rfl⟩
      · rcases lt_or_gt_of_ne h.c0 with hc | hc
        · rw [abs_of_neg hc] at hyx
          have : -1 * c > 0 := by linarith
          simp only [this, if_true]
          norm_num
          exact ⟨⟨by linarith, fun t => hz t.2.2⟩, ⟨one_dvd _, by simp, by simpa using l2⟩⟩
        · rw [abs_of_pos hc] at hyx
          have : ¬ (-1 * c > 0) := by linarith
          simp only [this, if_false]
          norm_num
          exact ⟨⟨by linarith, fun t => hz t.2.2⟩, ⟨one_dvd _, by simp, by simpa using l1⟩⟩
      · rcases lt_or_gt_of_ne h.c0 with hc | hc
        · rw [abs_of_neg hc] at hyx
          have : ¬ (1 * c > 0) := by linarith
          simp only [this, if_false]
          norm_num
          exact ⟨⟨by linarith, fun t => hz t.2.2⟩, ⟨by simp, one_dvd _, by simpa using l1⟩⟩
        · rw [abs_of_pos hc] at hyx
          have : 1 * c > 0 := by linarith
          simp only [this, if_true]
          norm_num
          exact ⟨⟨by linarith, fun t => hz t.2.2⟩, ⟨by simp, one_dvd _, by simpa using l2⟩⟩

/-- `lem1` -/
theorem lem1_spec {a b c n p q : ℤ} (h : Cert a b c n p q) (hu : |b * c| = 1 ∨ |a * b| = 1 ∨ |c * a| = 1) :
    ∃ r, lem1 a b c n p q = some r ∧ Sol a b c r.1 r.2.1 r.2.2 ∧ Lat a b c n p q r.1 r.2.1 r.2.2 := by
  unfold lem1
  by_cases h1 : b * c = -1
  · rw [if_pos h1]
    obtain ⟨s, l⟩ := lem1minus_spec h.cyc h1
    exact ⟨_, rfl, s.cyc, l.cyc⟩
  rw [if_neg h1]
  by_cases h2 : b * c = 1
  · rw [if_pos h2]
    obtain ⟨s, l⟩ := lem1plus_spec h.cyc h2
    exact ⟨_, rfl, s.cyc, l.cyc⟩
  rw [if_neg h2]
  by_cases h3 : a * b = -1
  · rw [if_pos h3]
    obtain ⟨s, l⟩ := lem1minus_spec h h3
    exact ⟨_, rfl, s, l⟩
  rw [if_neg h3]
  by_cases h4 : a * b = 1
  · rw [if_pos h4]
    obtain ⟨s, l⟩ := lem1plus_spec h h4
    exact ⟨_, rfl, s, l⟩
  rw [if_neg h4]
  by_cases h5 : c * a = -1
  · rw [if_pos h5]
    obtain ⟨s, l⟩ := lem1minus_spec h.cyc.cyc h5
    exact ⟨_, rfl, s.cyc.cyc, l.cyc.cyc⟩
  rw [if_neg h5]
  by_cases h6 : c * a = 1
  · rw [if_pos h6]
    obtain ⟨s, l⟩ := lem1plus_spec h.cyc.cyc h6
    exact ⟨_, rfl, s.cyc.cyc, l.cyc.cyc⟩
  exfalso
  rcases hu with t | t | t
  · rcases (abs_eq (by norm_num : (0:ℤ) ≤ 1)).mp t with t | t <;> tauto
  · rcases (abs_eq (by norm_num : (0:ℤ) ≤ 1)).mp t with t | t <;> tauto
  · rcases (abs_eq (by norm_num : (0:ℤ) ≤ 1)).mp t with t | t <;> tauto

end Eclib.Legendre
