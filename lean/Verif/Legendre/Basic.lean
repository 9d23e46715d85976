import Verif.Legendre.Model
import Mathlib.NumberTheory.Zsqrtd.GaussianInt
import Mathlib.Tactic.Linarith
import Mathlib.Tactic.LinearCombination
import Mathlib.Tactic.Ring
import Mathlib.RingTheory.Coprime.Lemmas

/-!
# `nearest`, `minv`, `GIreduce`, `GIgcd`
-/

namespace Eclib.Legendre

/-- `nearest` is a nearest integer to the quotient -/
theorem nearest_spec (a b : ℤ) (hb : 0 < b) :
    -b < 2 * (a - nearest a b * b) ∧ 2 * (a - nearest a b * b) ≤ b := by
  unfold nearest
  have h1 := Int.fmod_nonneg_of_pos a hb
  have h2 := Int.fmod_lt_of_pos a hb
  have h3 := Int.fmod_add_mul_fdiv a b
  have h4 : (a - a.fmod b).fdiv b = a.fdiv b := by
    have : a - a.fmod b = b * a.fdiv b := by linarith
    rw [this, Int.mul_fdiv_cancel_left _ hb.ne']
  simp only [h4]
  generalize a.fmod b = r at *
  generalize a.fdiv b = q at *
  split_ifs with h
  · constructor <;> nlinarith
  · constructor <;> nlinarith

/-- the pair of vectors in `minv` : a basis of the lattice with basis `(a1,a2)`, `(b1,b2)` -/
structure IsBasis (a1 a2 b1 b2 x y xx yy : ℤ) : Prop where
  det : x * yy - y * xx = a1 * b2 - a2 * b1 ∨ x * yy - y * xx = -(a1 * b2 - a2 * b1)
  mem1 : ∃ s t, x = s * a1 + t * b1 ∧ y = s * a2 + t * b2
  mem2 : ∃ s t, xx = s * a1 + t * b1 ∧ yy = s * a2 + t * b2

theorem IsBasis.swap {a1 a2 b1 b2 x y xx yy : ℤ} (h : IsBasis a1 a2 b1 b2 x y xx yy) :
    IsBasis a1 a2 b1 b2 xx yy x y := by
  refine ⟨?_, h.mem2, h.mem1⟩
  rcases h.det with d | d
  · right; linarith
  · left; linarith

theorem IsBasis.sub {a1 a2 b1 b2 x y xx yy : ℤ} (h : IsBasis a1 a2 b1 b2 x y xx yy) (k : ℤ) :
    IsBasis a1 a2 b1 b2 x y (xx - k * x) (yy - k * y) := by
  obtain ⟨s, t, h1, h2⟩ := h.mem1
  obtain ⟨s', t', h3, h4⟩ := h.mem2
  refine ⟨?_, h.mem1, s' - k * s, t' - k * t, ?_, ?_⟩
  · rcases h.det with d | d
    · left; linear_combination d
    · right; linear_combination d
  · rw [h3, h1]; ring
  · rw [h4, h2]; ring

theorem IsBasis.ne {a1 a2 b1 b2 x y xx yy : ℤ} (h : IsBasis a1 a2 b1 b2 x y xx yy)
    (hd : a1 * b2 - a2 * b1 ≠ 0) : x ≠ 0 ∨ y ≠ 0 := by
  by_contra hc
  push Not at hc
  obtain ⟨rfl, rfl⟩ := hc
  apply hd
  rcases h.det with d | d <;> linarith

theorem norm_pos {c1 c2 x y : ℤ} (h1 : 0 < c1) (h2 : 0 < c2) (h : x ≠ 0 ∨ y ≠ 0) : 0 < c1 * x ^ 2 + c2 * y ^ 2 := by
  have := sq_nonneg x
  have := sq_nonneg y
  rcases h with h | h
  · have : 0 < x ^ 2 := by positivity
    nlinarith
  · have : 0 < y ^ 2 := by positivity
    nlinarith

theorem minvLoop_spec {a1 a2 b1 b2 c1 c2 : ℤ} (h1 : 0 < c1) (h2 : 0 < c2) (hd : a1 * b2 - a2 * b1 ≠ 0) :
    ∀ (k : ℕ) (x y xx yy n1 n2 : ℤ), IsBasis a1 a2 b1 b2 x y xx yy →
      n1 = c1 * x ^ 2 + c2 * y ^ 2 → n2 = c1 * xx ^ 2 + c2 * yy ^ 2 → n1 < k →
      -n1 ≤ 2 * (c1 * x * xx + c2 * y * yy) → 2 * (c1 * x * xx + c2 * y * yy) ≤ n1 →
      ∃ xx' yy', IsBasis a1 a2 b1 b2 (minvLoop c1 c2 k x y xx yy n1 n2).1 (minvLoop c1 c2 k x y xx yy n1 n2).2 xx' yy' ∧
        3 * (c1 * (minvLoop c1 c2 k x y xx yy n1 n2).1 ^ 2 + c2 * (minvLoop c1 c2 k x y xx yy n1 n2).2 ^ 2) ^ 2 ≤
          4 * (c1 * c2) * (a1 * b2 - a2 * b1) ^ 2 ∧
        (c1 * (minvLoop c1 c2 k x y xx yy n1 n2).1 ^ 2 + c2 * (minvLoop c1 c2 k x y xx yy n1 n2).2 ^ 2 ≤
          c1 * xx' ^ 2 + c2 * yy' ^ 2) ∧
        -(c1 * (minvLoop c1 c2 k x y xx yy n1 n2).1 ^ 2 + c2 * (minvLoop c1 c2 k x y xx yy n1 n2).2 ^ 2) ≤
          2 * (c1 * (minvLoop c1 c2 k x y xx yy n1 n2).1 * xx' + c2 * (minvLoop c1 c2 k x y xx yy n1 n2).2 * yy') ∧
        2 * (c1 * (minvLoop c1 c2 k x y xx yy n1 n2).1 * xx' + c2 * (minvLoop c1 c2 k x y xx yy n1 n2).2 * yy') ≤
          c1 * (minvLoop c1 c2 k x y xx yy n1 n2).1 ^ 2 + c2 * (minvLoop c1 c2 k x y xx yy n1 n2).2 ^ 2 := by
  intro k
  induction k with
  | zero =>
    intro x y xx yy n1 n2 hb e1 _ hk _ _
    have := norm_pos h1 h2 (hb.ne hd)
    push_cast at hk
    omega
  | succ k ih =>
    intro x y xx yy n1 n2 hb e1 e2 hk l1 l2
    have hpos := norm_pos h1 h2 (hb.swap.ne hd)
    have hpos1 := norm_pos h1 h2 (hb.ne hd)
    rw [← e2] at hpos
    rw [← e1] at hpos1
    unfold minvLoop
    by_cases hc : n2 ≥ n1
    · simp only [if_pos hc]
      refine ⟨xx, yy, hb, ?_, by linarith, by linarith, by linarith⟩
      have hg : n1 * n2 = c1 * c2 * (a1 * b2 - a2 * b1) ^ 2 + (c1 * x * xx + c2 * y * yy) ^ 2 := by
        have : (a1 * b2 - a2 * b1) ^ 2 = (x * yy - y * xx) ^ 2 := by
          rcases hb.det with d | d <;> rw [d] <;> ring
        rw [this, e1, e2]; ring
      rw [← e1]
      generalize c1 * x * xx + c2 * y * yy = dt at *
      have : 4 * dt ^ 2 ≤ n1 ^ 2 := by nlinarith
      nlinarith
    · simp only [if_neg hc]
      push Not at hc
      push_cast at hk
      have hns := nearest_spec (c1 * xx * x + c2 * yy * y) n2 hpos
      by_cases ha : nearest (c1 * xx * x + c2 * yy * y) n2 = 0
      · simp only [if_pos ha]
        rw [ha] at hns
        exact ih xx yy x y n2 n1 hb.swap e2 e1 (by omega) (by linarith) (by linarith)
      · simp only [if_neg ha]
        generalize nearest (c1 * xx * x + c2 * yy * y) n2 = al at *
        refine ih xx yy _ _ n2 _ (hb.swap.sub al) e2 rfl (by omega) ?_ ?_
        · nlinarith
        · nlinarith

/-- `minv` : the output is the first vector of a reduced basis of the lattice generated by `(a1,a2)` and `(b1,b2)` -/
theorem minv_basis (a1 a2 b1 b2 c1 c2 : ℤ) (h1 : 0 < c1) (h2 : 0 < c2) (hd : a1 * b2 - a2 * b1 ≠ 0) :
    let r := minv a1 a2 b1 b2 c1 c2
    ∃ xx yy, IsBasis a1 a2 b1 b2 r.1 r.2 xx yy ∧
      3 * (c1 * r.1 ^ 2 + c2 * r.2 ^ 2) ^ 2 ≤ 4 * (c1 * c2) * (a1 * b2 - a2 * b1) ^ 2 ∧
      c1 * r.1 ^ 2 + c2 * r.2 ^ 2 ≤ c1 * xx ^ 2 + c2 * yy ^ 2 ∧
      -(c1 * r.1 ^ 2 + c2 * r.2 ^ 2) ≤ 2 * (c1 * r.1 * xx + c2 * r.2 * yy) ∧
      2 * (c1 * r.1 * xx + c2 * r.2 * yy) ≤ c1 * r.1 ^ 2 + c2 * r.2 ^ 2 := by
  intro r
  have hb : IsBasis a1 a2 b1 b2 a1 a2 b1 b2 := ⟨Or.inl rfl, ⟨1, 0, by ring, by ring⟩, ⟨0, 1, by ring, by ring⟩⟩
  have hpos := norm_pos h1 h2 (hb.ne hd)
  have hns := nearest_spec (c1 * a1 * b1 + c2 * a2 * b2) _ hpos
  have hr : r = minv a1 a2 b1 b2 c1 c2 := rfl
  unfold minv at hr
  have hk : c1 * a1 ^ 2 + c2 * a2 ^ 2 < (((c1 * a1 ^ 2 + c2 * a2 ^ 2).toNat + 1 : ℕ) : ℤ) := by
    push_cast
    have := Int.self_le_toNat (c1 * a1 ^ 2 + c2 * a2 ^ 2)
    omega
  by_cases ha : nearest (c1 * a1 * b1 + c2 * a2 * b2) (c1 * a1 ^ 2 + c2 * a2 ^ 2) = 0
  · simp only [ha, if_true] at hr
    rw [ha] at hns
    rw [hr]
    exact minvLoop_spec h1 h2 hd _ _ _ _ _ _ _ hb rfl rfl hk (by linarith) (by linarith)
  · simp only [if_neg ha] at hr
    rw [hr]
    generalize nearest (c1 * a1 * b1 + c2 * a2 * b2) (c1 * a1 ^ 2 + c2 * a2 ^ 2) = al at *
    refine minvLoop_spec h1 h2 hd _ _ _ _ _ _ _ (hb.sub al) rfl rfl hk ?_ ?_
    · nlinarith
    · nlinarith

/-- a vector of a lattice has norm at least that of the first vector of a reduced basis -/
theorem reduced_min {c1 c2 x y xx yy : ℤ} (hle : c1 * x ^ 2 + c2 * y ^ 2 ≤ c1 * xx ^ 2 + c2 * yy ^ 2)
    (hl : -(c1 * x ^ 2 + c2 * y ^ 2) ≤ 2 * (c1 * x * xx + c2 * y * yy))
    (hu : 2 * (c1 * x * xx + c2 * y * yy) ≤ c1 * x ^ 2 + c2 * y ^ 2) (hpos : 0 < c1 * x ^ 2 + c2 * y ^ 2) (s t : ℤ)
    (hst : s ≠ 0 ∨ t ≠ 0) :
    c1 * x ^ 2 + c2 * y ^ 2 ≤ c1 * (s * x + t * xx) ^ 2 + c2 * (s * y + t * yy) ^ 2 := by
  have e : c1 * (s * x + t * xx) ^ 2 + c2 * (s * y + t * yy) ^ 2 =
      s ^ 2 * (c1 * x ^ 2 + c2 * y ^ 2) + s * t * (2 * (c1 * x * xx + c2 * y * yy)) + t ^ 2 * (c1 * xx ^ 2 + c2 * yy ^ 2) := by
    ring
  rw [e]
  generalize c1 * x ^ 2 + c2 * y ^ 2 = n at *
  generalize c1 * xx ^ 2 + c2 * yy ^ 2 = m at *
  generalize 2 * (c1 * x * xx + c2 * y * yy) = d at *
  have h1 : t ^ 2 * n ≤ t ^ 2 * m := mul_le_mul_of_nonneg_left hle (sq_nonneg t)
  have h2 : -(|s * t| * n) ≤ s * t * d := by
    have hd : |d| ≤ n := abs_le.mpr ⟨hl, hu⟩
    have := mul_le_mul_of_nonneg_left hd (abs_nonneg (s * t))
    rw [← abs_mul] at this
    have := neg_abs_le (s * t * d)
    linarith
  have h3 : 1 ≤ s ^ 2 - |s * t| + t ^ 2 := by
    rw [abs_mul]
    have e1 := sq_abs s
    have e2 := sq_abs t
    have p1 := abs_nonneg s
    have p2 := abs_nonneg t
    have p3 : 1 ≤ |s| ∨ 1 ≤ |t| := by
      rcases hst with h | h
      · left; exact Int.one_le_abs h
      · right; exact Int.one_le_abs h
    generalize |s| = S at *
    generalize |t| = T at *
    rw [← e1, ← e2]
    have : 0 < 4 * (S ^ 2 - S * T + T ^ 2) := by
      rcases p3 with h | h
      · nlinarith [sq_nonneg (2 * T - S)]
      · nlinarith [sq_nonneg (2 * S - T)]
    omega
  nlinarith

/-- `a+bi` -/
abbrev gi (a b : ℤ) : GaussianInt := ⟨a, b⟩

theorem giReduce_spec (a b c d : ℤ) (h : c ≠ 0 ∨ d ≠ 0) :
    (∃ q : GaussianInt, gi (giReduce a b c d).1 (giReduce a b c d).2 = gi a b - q * gi c d) ∧
    2 * ((giReduce a b c d).1 ^ 2 + (giReduce a b c d).2 ^ 2) ≤ c ^ 2 + d ^ 2 := by
  have hn : 0 < c ^ 2 + d ^ 2 := by
    have := norm_pos (c1 := 1) (c2 := 1) one_pos one_pos h
    linarith
  have h1 := nearest_spec (a * c + b * d) _ hn
  have h2 := nearest_spec (b * c - a * d) _ hn
  unfold giReduce
  simp only
  generalize nearest (a * c + b * d) (c ^ 2 + d ^ 2) = q1 at *
  generalize nearest (b * c - a * d) (c ^ 2 + d ^ 2) = q2 at *
  constructor
  · refine ⟨gi q1 q2, ?_⟩
    ext
    · simp [Zsqrtd.re_sub, Zsqrtd.re_mul]; ring
    · simp [Zsqrtd.im_sub, Zsqrtd.im_mul]; ring
  · have key : (c ^ 2 + d ^ 2) * ((a - c * q1 + d * q2) ^ 2 + (b - c * q2 - d * q1) ^ 2) =
        (a * c + b * d - q1 * (c ^ 2 + d ^ 2)) ^ 2 + (b * c - a * d - q2 * (c ^ 2 + d ^ 2)) ^ 2 := by ring
    generalize (a - c * q1 + d * q2) ^ 2 + (b - c * q2 - d * q1) ^ 2 = N at *
    generalize a * c + b * d - q1 * (c ^ 2 + d ^ 2) = u at *
    generalize b * c - a * d - q2 * (c ^ 2 + d ^ 2) = v at *
    generalize c ^ 2 + d ^ 2 = n at *
    have hu : 4 * u ^ 2 ≤ n ^ 2 := by nlinarith
    have hv : 4 * v ^ 2 ≤ n ^ 2 := by nlinarith
    have : n * (2 * N) ≤ n * n := by nlinarith
    exact le_of_mul_le_mul_left this hn

/-- `(e,f)` is a greatest common divisor in `ℤ[i]` -/
abbrev IsGcd (e f : ℤ) (z w : GaussianInt) : Prop := ∀ v : GaussianInt, v ∣ gi e f ↔ v ∣ z ∧ v ∣ w

theorem giLoop_spec : ∀ (k : ℕ) (a b c d : ℤ), (c ≠ 0 ∨ d ≠ 0) → c ^ 2 + d ^ 2 < k →
    IsGcd (giLoop k a b c d).1 (giLoop k a b c d).2 (gi a b) (gi c d) := by
  intro k
  induction k with
  | zero =>
    intro a b c d _ hk
    push_cast at hk
    nlinarith [sq_nonneg c, sq_nonneg d]
  | succ k ih =>
    intro a b c d hcd hk
    obtain ⟨⟨q, hq⟩, hn⟩ := giReduce_spec a b c d hcd
    unfold giLoop
    have hred : ∀ v : GaussianInt, (v ∣ gi a b ∧ v ∣ gi c d) ↔
        (v ∣ gi c d ∧ v ∣ gi (giReduce a b c d).1 (giReduce a b c d).2) := by
      intro v
      rw [hq]
      constructor
      · rintro ⟨h1, h2⟩
        exact ⟨h2, dvd_sub h1 (h2.mul_left q)⟩
      · rintro ⟨h1, h2⟩
        refine ⟨?_, h1⟩
        have := dvd_add h2 (h1.mul_left q)
        simpa using this
    by_cases hz : (giReduce a b c d).1 = 0 ∧ (giReduce a b c d).2 = 0
    · simp only [if_pos hz]
      intro v
      rw [hred v, hz.1, hz.2]
      constructor
      · intro h; exact ⟨h, dvd_zero v⟩
      · exact fun h => h.1
    · simp only [if_neg hz]
      intro v
      have hne : (giReduce a b c d).1 ≠ 0 ∨ (giReduce a b c d).2 ≠ 0 := by
        by_contra hc; push Not at hc; exact hz hc
      have hpos := norm_pos (c1 := 1) (c2 := 1) one_pos one_pos hne
      rw [ih c d _ _ hne (by push_cast at hk; linarith) v, hred v]

theorem giNorm_spec (e f : ℤ) : Associated (gi (giNorm e f).1 (giNorm e f).2) (gi e f) ∧
    (giNorm e f).1 ^ 2 + (giNorm e f).2 ^ 2 = e ^ 2 + f ^ 2 ∧
    ((e ≠ 0 ∨ f ≠ 0) → 0 < (giNorm e f).1 ∧ 0 ≤ (giNorm e f).2) := by
  have hi : IsUnit (gi 0 1) := IsUnit.of_mul_eq_one (gi 0 (-1)) (by ext <;> simp [Zsqrtd.re_mul, Zsqrtd.im_mul])
  have hi' : IsUnit (gi 0 (-1)) := IsUnit.of_mul_eq_one (gi 0 1) (by ext <;> simp [Zsqrtd.re_mul, Zsqrtd.im_mul])
  have hm : IsUnit (gi (-1) 0) := IsUnit.of_mul_eq_one (gi (-1) 0) (by ext <;> simp [Zsqrtd.re_mul, Zsqrtd.im_mul])
  unfold giNorm
  split_ifs with h1 h2 h3
  · refine ⟨⟨hi.unit, ?_⟩, by ring, fun _ => ⟨by simp; omega, by simp; omega⟩⟩
    ext <;> simp [Zsqrtd.re_mul, Zsqrtd.im_mul]
  · refine ⟨⟨hm.unit, ?_⟩, by ring, fun _ => ⟨by simp; omega, by simp; omega⟩⟩
    ext <;> simp [Zsqrtd.re_mul, Zsqrtd.im_mul]
  · refine ⟨⟨hi'.unit, ?_⟩, by ring, fun _ => ⟨by simp; omega, by simp; omega⟩⟩
    ext <;> simp [Zsqrtd.re_mul, Zsqrtd.im_mul]
  · refine ⟨Associated.refl _, rfl, fun _ => ⟨by simp; omega, by simp; omega⟩⟩

/-- `GIgcd` : a greatest common divisor in `ℤ[i]` -/
theorem giGcd_isGcd (a b c d : ℤ) : IsGcd (giGcd a b c d).1 (giGcd a b c d).2 (gi a b) (gi c d) := by
  intro v
  unfold giGcd
  simp only
  rw [(giNorm_spec _ _).1.dvd_iff_dvd_right]
  split_ifs with h
  · rw [h.1, h.2]
    exact ⟨fun h => ⟨h, dvd_zero v⟩, fun h => h.1⟩
  · have hne : c ≠ 0 ∨ d ≠ 0 := by by_contra hc; push Not at hc; exact h hc
    refine giLoop_spec _ a b c d hne ?_ v
    push_cast
    have := Int.self_le_toNat (c ^ 2 + d ^ 2)
    omega

end Eclib.Legendre
